import Verif.Model.Normalize
import Verif.Lemmas.NormalEff
import Verif.Lemmas.Prepare
import Verif.Lemmas.ParseAction
import Verif.Lemmas.Achieve
import Verif.Lemmas.Derived
import Verif.Examples.Demo

/-!
# C50-C53: disjunctive normal forms
-/

namespace Symbolic

/-! ## C50 -/

/-- **C50.** Simplifying a non-empty list of conjunctions over declared objects returns (no exceptions) a normal
form that is true in the same states; its conjunctions are among the given ones, consistent, in strictly increasing
order, and none subsumes another. -/
theorem C50_simplify [StrHash] (objects : List Obj) (hnd : (objects.map Obj.name).Nodup) (dnf : Dnf) (hne : dnf ≠ [])
    (hg : ∀ c ∈ dnf, ConjGround objects c) :
    ∃ r, simplify ⟨objects, ObjMap.create objects, []⟩ dnf = .ok r ∧
      (∀ S, DnfTrue objects S r ↔ ∃ c ∈ dnf, ConjTrue objects S c) ∧
      ∀ l, r = some l → (∀ c ∈ l, c ∈ dnf) ∧ (∀ c ∈ l, Consistent c) ∧ l.Pairwise (fun a b => a.lt b = true) ∧
        l.Pairwise (fun a b => ¬ Subsumes a b ∧ ¬ Subsumes b a) := by
  obtain ⟨r, h1, h2, h3⟩ := simplify_spec hnd hne hg
  refine ⟨r, h1, h2, ?_⟩
  intro l hl
  obtain ⟨k1, k2, k3, k4⟩ := h3 l hl
  refine ⟨k4, k3, k1, ?_⟩
  clear hl h3 k3 k4
  have T := PartialState.lt_strictTotal
  have hne : ∀ a b : PartialState, a.lt b = true → a ≠ b := by
    rintro a b h rfl
    rw [T.irrefl] at h; simp at h
  refine k1.imp_of_mem ?_
  intro a b ha hb hlt
  exact ⟨fun h => hne a b hlt (k2 a ha b hb h), fun h => hne a b hlt (k2 b hb a ha h).symm⟩

section
open Demo
attribute [local instance] lenHash

def cA : PartialState := ⟨State.ofList [on a table], State.empty⟩
def cAB : PartialState := ⟨State.ofList [on a table, on b table], State.empty⟩
def cBad : PartialState := ⟨State.ofList [on b table], State.ofList [on b table]⟩
def cNe : PartialState := ⟨State.ofList [⟨n!"=", [n!"a", n!"b"]⟩], State.empty⟩

/-- A redundant, a contradictory and a false conjunction are removed. -/
example : simplify ⟨[a, b, table], ObjMap.create [a, b, table], []⟩ [cAB, cBad, cA, cNe, cA] = .ok (some [cA]) := by
  decide +kernel

example : ∀ c ∈ [cAB, cBad, cA, cNe], ConjGround [a, b, table] c := by
  have hq : ∀ q ∈ [on a table, on b table, ⟨n!"=", [n!"a", n!"b"]⟩], Atom.Ground [a, b, table] q := by
    intro q hq
    simp only [List.mem_cons, List.not_mem_nil, or_false] at hq
    rcases hq with rfl | rfl | rfl
    · exact ⟨by decide, by decide, by simp [on, IsType, HasType, a, b, table, tBox, tObj]⟩
    · exact ⟨by decide, by decide, by simp [on, IsType, HasType, a, b, table, tBox, tObj]⟩
    · exact ⟨by decide, by decide, by simp⟩
  intro c hc
  simp only [List.mem_cons, List.not_mem_nil, or_false] at hc
  rcases hc with rfl | rfl | rfl | rfl <;>
    refine ⟨fun q h => hq q ?_, fun q h => hq q ?_⟩ <;>
    simp [cA, cAB, cBad, cNe] at h ⊢ <;> tauto

end

/-! ## C51 -/

section
open Demo
attribute [local instance] lenHash

/-- `(or (not (= ?x ?y)) (on ?x ?y))` -/
def orOp : Op := ⟨n!"or", [x, y], .disj [.neg (.atom n!"=" [.var x, .var y]), .atom n!"on" [.var x, .var y]],
  .mk .nil [(n!"inhand", [.var x])] [] .nil, false⟩
/-- `(not (not (= ?x ?y)))` -/
def notOp : Op := ⟨n!"not", [x, y], .neg (.neg (.atom n!"=" [.var x, .var y])),
  .mk .nil [(n!"inhand", [.var x])] [] .nil, false⟩
/-- `(exists (?u - box) (and (inhand ?u) (not (inhand ?u))))` -/
def exOp : Op := ⟨n!"ex", [x], .ex [u] (.conj [.atom n!"inhand" [.var u], .neg (.atom n!"inhand" [.var u])]),
  .mk .nil [(n!"inhand", [.var x])] [] .nil, false⟩

def nfTree : Ptree := { tree with ops := [orOp, notOp, exOp, pick, place, held] }

theorem nfMade : (Pddl.make nfTree true 5).isOk = true := by decide +kernel
def nfP : Pddl := get _ nfMade
theorem nfP_made : Pddl.make nfTree true 5 = .ok nfP := get_eq _ _

/-- **C51, refuted: a disjunct that is always true is dropped.** `or(a, b)` is valid in the empty State because `a` is
not `b`; the normalized precondition is `on(a, b)`. -/
theorem C51_true_disjunct_refuted :
    nfP.isValidAction State.empty n!"or(a, b)" = .ok true ∧
    nfP.normalizePre 5 n!"or(a, b)" false = .ok (some [⟨State.ofList [on a b], State.empty⟩]) ∧
    ¬ DnfTrue (nfTree.constants ++ nfTree.objects) (· ∈ State.empty) (some [⟨State.ofList [on a b], State.empty⟩]) := by
  refine ⟨by decide +kernel, by decide +kernel, ?_⟩
  simp [DnfTrue, SomeTrue, ConjTrue, AtomTrue, on, IsType, HasType, nfTree, tree, a, b, table, tBox, tObj]

/-- **C51, refuted: the negation of a formula that is always true is true.** `not(a, b)` requires `a = b` and is never
valid; its normalized precondition is the empty (true) formula. -/
theorem C51_negation_refuted :
    (∀ s, nfP.isValidAction s n!"not(a, b)" = .ok false) ∧
    nfP.normalizePre 5 n!"not(a, b)" false = .ok (some []) := by
  refine ⟨fun s => ?_, by decide +kernel⟩
  have hp : nfP.parseAction n!"not(a, b)" = .ok (notOp, [a, b]) := by rfl
  simp only [Pddl.isValidAction, hp, Res.bind_ok]
  rfl

/-- **C51, refuted: a disjunction of contradictions is true.** `ex(a)` is never valid; its normalized precondition is the
empty (true) formula. -/
theorem C51_false_disjunct_refuted :
    (∀ s, nfP.isValidAction s n!"ex(a)" = .ok false) ∧
    nfP.normalizePre 5 n!"ex(a)" false = .ok (some []) := by
  refine ⟨fun s => ?_, by decide +kernel⟩
  have hp : nfP.parseAction n!"ex(a)" = .ok (exOp, [a]) := by rfl
  have B := Pddl.built nfP_made
  simp only [Pddl.isValidAction, hp, Res.bind_ok]
  obtain ⟨v, h1, h2⟩ := eval_sat (nfTree.constants ++ nfTree.objects) s exOp.pre exOp.params [a] rfl
    (by simp [exOp, Goal.WF, Goal.WFs, Term.Scoped, IsType, HasType, nfTree, tree, a, b, table, tBox, tObj, u])
  rw [Op.isValid, B.omap, h1]
  cases v with
  | false => rfl
  | true =>
    have := h2.1 rfl
    simp only [exOp, Sat, SatAll] at this
    obtain ⟨os, -, h3, h4, -⟩ := this
    exact absurd h3 h4

end

/-- **C51, partial.** For a call that parses, if the precondition is well formed and regular (no disjunction or existential
formula has an always true disjunct or only contradictory disjuncts, and no negated formula other than an atom
is always true), then `NormalizePreconditions` returns, and in every State the action is valid iff the normal form is
true. Missing: irregular formulas, where the code is wrong, and `apply_axioms`. -/
theorem C51_normalized_preconditions_partial [StrHash] (t : Ptree) (b : Bool) (n : Nat) (P : Pddl)
    (hP : Pddl.make t b n = .ok P) (hnd : ((t.constants ++ t.objects).map Obj.name).Nodup) (call : Name) (op : Op)
    (args : List Obj) (hcall : P.parseAction call = .ok (op, args))
    (hwf : op.pre.WF (t.constants ++ t.objects) (op.params.map Obj.name))
    (hconst : ∀ c, op.pre.HasConst c → c ∈ t.constants ++ t.objects)
    (hreg : op.pre.Regular (t.constants ++ t.objects) (Env.none.bind op.params args)) (fuel : Nat) :
    ∃ r, P.normalizePre fuel call false = .ok r ∧
      ∀ s, ∃ v, P.isValidAction s call = .ok v ∧ (v = true ↔ DnfTrue (t.constants ++ t.objects) (· ∈ s) r) := by
  have B := Pddl.built hP
  obtain ⟨-, hw⟩ := parseAction_ok hcall
  rw [Pddl.symbols, B.tree] at hw
  obtain ⟨r, h1, h2, -⟩ := dnf_sat hnd op.pre op.params args hw.length (fun o ho => (hw.mem ho).1) hwf hconst hreg
  refine ⟨r, ?_, ?_⟩
  · simp only [Pddl.normalizePre, hcall, Res.bind_ok, Pddl.ctx, B.objects, B.omap, h1]
    cases r <;> rfl
  · intro s
    obtain ⟨v, h3, h4⟩ := eval_sat (t.constants ++ t.objects) s op.pre op.params args hw.length hwf
    refine ⟨v, ?_, h4.trans (h2 _).symm⟩
    simp only [Pddl.isValidAction, hcall, Res.bind_ok, Op.isValid, B.omap, h3]

/-- **C51 for goals, partial.** The normalized goal is true in a State iff the goal is satisfied there, if the goal is
well formed and regular. -/
theorem C51_normalized_goal_partial [StrHash] (t : Ptree) (b : Bool) (n : Nat) (P : Pddl)
    (hP : Pddl.make t b n = .ok P) (hnd : ((t.constants ++ t.objects).map Obj.name).Nodup)
    (hwf : t.goal.WF (t.constants ++ t.objects) []) (hconst : ∀ c, t.goal.HasConst c → c ∈ t.constants ++ t.objects)
    (hreg : t.goal.Regular (t.constants ++ t.objects) Env.none) (fuel : Nat) :
    ∃ r, P.normalizeGoal fuel false = .ok r ∧
      ∀ s, ∃ v, P.isGoalSatisfied s = .ok v ∧ (v = true ↔ DnfTrue (t.constants ++ t.objects) (· ∈ s) r) := by
  have B := Pddl.built hP
  obtain ⟨r, h1, h2, -⟩ := dnf_sat hnd t.goal [] [] rfl (by simp) hwf hconst hreg
  refine ⟨r, ?_, ?_⟩
  · simp only [Pddl.normalizeGoal, Pddl.ctx, B.objects, B.omap, B.tree, h1, Res.bind_ok]
    cases r <;> rfl
  · intro s
    obtain ⟨v, h3, h4⟩ := eval_sat (t.constants ++ t.objects) s t.goal [] [] rfl hwf
    refine ⟨v, ?_, h4.trans (h2 _).symm⟩
    rw [Pddl.isGoalSatisfied, B.tree, B.omap]
    exact h3

section
open Demo
attribute [local instance] lenHash

/-- The precondition of `pick` is well formed and regular; picking `a` needs three negative literals. -/
example : P.parseAction n!"pick(a)" = .ok (pick, [a]) ∧
    pick.pre.WF (tree.constants ++ tree.objects) (pick.params.map Obj.name) ∧
    (∀ c, pick.pre.HasConst c → c ∈ tree.constants ++ tree.objects) ∧
    pick.pre.Regular (tree.constants ++ tree.objects) (Env.none.bind pick.params [a]) ∧
    P.normalizePre 5 n!"pick(a)" false = .ok (some [⟨State.empty, State.ofList [inhand a, on a a, on b a]⟩]) := by
  refine ⟨by rfl, ?_, ?_, ?_, by decide +kernel⟩
  · simp [pick, Goal.WF, Goal.WFs, Term.Scoped, IsType, HasType, tree, a, b, table, tBox, tObj, u, x]
  · simp [pick, Goal.HasConst, Goal.HasConstL]
  · simp [pick, Goal.Regular, Goal.Regulars]

/-- A disjunction that is regular: `(or (inhand ?x) (on ?x ?y))`. -/
example : Goal.Regular (tree.constants ++ tree.objects) (Env.none.bind [x, y] [a, b])
    (.disj [.atom n!"inhand" [.var x], .atom n!"on" [.var x, .var y]]) := by
  have hi : ¬ IsType (tree.constants ++ tree.objects) n!"inhand" := by
    simp [IsType, HasType, tree, a, b, table, tBox, tObj]
  have ho : ¬ IsType (tree.constants ++ tree.objects) n!"on" := by
    simp [IsType, HasType, tree, a, b, table, tBox, tObj]
  refine ⟨by simp [Goal.Regulars, Goal.Regular], Or.inl ⟨fun _ => True, ?_⟩, ⟨fun _ => False, ?_⟩,
    ⟨fun _ => False, ?_⟩, trivial⟩
  · exact Or.inr (Or.inr ⟨by decide, hi, [a], .cons rfl .nil, trivial⟩)
  · rintro (⟨h, -⟩ | ⟨-, h, -⟩ | ⟨-, -, os, -, h⟩)
    · exact absurd h (by decide)
    · exact hi h
    · exact h
  · rintro (⟨h, -⟩ | ⟨-, h, -⟩ | ⟨-, -, os, -, h⟩)
    · exact absurd h (by decide)
    · exact ho h
    · exact h

end

/-! ## C52 -/

/-- **C52, meaning.** For a call of an action with well-formed unconditional effects `NormalizePostconditions` returns a
normal form that is true in exactly the states in which everything the action adds is true and everything it deletes is
false. -/
theorem C52_meaning [StrHash] (t : Ptree) (b : Bool) (n : Nat) (P : Pddl) (hP : Pddl.make t b n = .ok P)
    (hnd : ((t.constants ++ t.objects).map Obj.name).Nodup) (call : Name) (op : Op) (args : List Obj)
    (hcall : P.parseAction call = .ok (op, args))
    (hwf : op.eff.WF (t.constants ++ t.objects) (op.params.map Obj.name)) (hnc : op.eff.NoCond)
    (hconst : ∀ c, op.eff.HasConst c → c ∈ t.constants ++ t.objects) (fuel : Nat) :
    ∃ r, P.normalizePost fuel call false = .ok r ∧
      ∀ S, DnfTrue (t.constants ++ t.objects) S r ↔
        Achieved (t.constants ++ t.objects) S (Env.none.bind op.params args) op.eff := by
  have B := Pddl.built hP
  obtain ⟨-, hw⟩ := parseAction_ok hcall
  rw [Pddl.symbols, B.tree] at hw
  obtain ⟨r, h1, h2, -⟩ := Eff.dnf_achieved hnd op.eff op.params args hw.length (fun o ho => (hw.mem ho).1) hwf
    (Eff.NoCond.regular op.eff _ hnc) hconst
  refine ⟨r, ?_, h2⟩
  simp only [Pddl.normalizePost, hcall, Res.bind_ok, Pddl.ctx, B.objects, B.omap, h1]
  cases r <;> rfl

/-- **C52, partial.** The State returned by `NextState` satisfies the normalized postconditions, if no atom is both
added and deleted by the call, no axiom deletes a predicate the action adds or adds one it deletes, and no derived
predicate is changed by the action. Missing: axioms that undo an effect, where it is false. -/
theorem C52_after_apply_partial [StrHash] (t : Ptree) (b : Bool) (n : Nat) (P : Pddl) (hP : Pddl.make t b n = .ok P)
    (hnd : ((t.constants ++ t.objects).map Obj.name).Nodup) (call : Name) (op : Op) (args : List Obj)
    (hcall : P.parseAction call = .ok (op, args))
    (hwf : op.eff.WF (t.constants ++ t.objects) (op.params.map Obj.name)) (hnc : op.eff.NoCond)
    (hconst : ∀ c, op.eff.HasConst c → c ∈ t.constants ++ t.objects)
    (hconf : ConflictFree (t.constants ++ t.objects) (fun _ => False) (Env.none.bind op.params args) op.eff)
    (haxioms : ∀ ax ∈ t.ops, ax.isAxiom = true → ∀ sign p, op.eff.Touches sign p → ¬ ax.eff.Touches (!sign) p)
    (hdrv : ∀ d ∈ t.drvs, d.WF (t.constants ++ t.objects) ∧ ∀ sign, ¬ op.eff.Touches sign d.head)
    (fuel k : Nat) (s s' : State) (h : P.nextState fuel s call = .ok s') :
    ∃ r, P.normalizePost k call false = .ok r ∧ DnfTrue (t.constants ++ t.objects) (· ∈ s') r := by
  obtain ⟨r, h1, h2⟩ := C52_meaning t b n P hP hnd call op args hcall hwf hnc hconst k
  refine ⟨r, h1, (h2 _).2 ?_⟩
  have B := Pddl.built hP
  obtain ⟨-, hw⟩ := parseAction_ok hcall
  rw [Pddl.symbols, B.tree] at hw
  simp only [Pddl.nextState, hcall, Res.bind_ok, Pddl.applyOp, Res.bind_eq_ok, Res.pure_eq, Res.ok.injEq, B.omap,
    Pddl.drvs, B.tree] at h
  obtain ⟨r1, h3, r2, h4, rfl⟩ := h
  have hM := fun sign x => makes_noCond (t.constants ++ t.objects) (fun _ => False) (· ∈ r2.2) sign op.eff
    (Env.none.bind op.params args) x hnc
  have hM' := fun sign x => makes_noCond (t.constants ++ t.objects) (· ∈ s) (fun _ => False) sign op.eff
    (Env.none.bind op.params args) x hnc
  obtain ⟨-, h5⟩ := Eff.apply_achieves (R := fun _ => False) (s₀ := s)
      (M := fun sign x => Makes (t.constants ++ t.objects) (fun _ => False) sign
      (Env.none.bind op.params args) op.eff x) (fun x => hconf x) (fireN_keeps (fun sign x hx ax hax ht =>
        haxioms ax.op (B.ax hax).1 (B.ax hax).2.1 sign x.pred (touches_of_makes _ _ _ _ _ _ hx) ht) fuel)
      (by intro _ _ _ _ _ _ _ _ _ x hx; exact absurd hx (by simp)) op.eff op.params args s r1 hw.length hwf
      (fun x hx => absurd hx (by simp)) (fun p hp => Eff.noCond_reads op.eff hnc p hp) (fun _ _ _ h => h)
      (fun sg x h => (hM' sg x).1 h) h3
  obtain ⟨-, h6, -⟩ := drvsFix_ok (fun d hd => (hdrv d hd).1) _ _ _ h4
  have hsame : ∀ sign x, Makes (t.constants ++ t.objects) (· ∈ r2.2) sign (Env.none.bind op.params args) op.eff x →
      Holds sign x r2.2 := by
    intro sign x hx
    have hx' := (hM sign x).2 hx
    have := h5 sign x ((hM' sign x).2 hx')
    unfold Holds at this ⊢
    rw [h6 x, this]
    rintro ⟨d, hd, os, -, rfl⟩
    exact (hdrv d hd).2 sign (touches_of_makes _ _ _ _ _ _ hx')
  exact ⟨fun x hx => (hsame true x hx).2 rfl, fun x hx hm => by simpa using (hsame false x hx).1 hm⟩

section
open Demo
attribute [local instance] lenHash

/-- `give(?x)` adds `(clean ?x)` and `(inhand ?x)`; the axiom says that a box in the hand is not clean. -/
def giveOp : Op := ⟨n!"give", [x], .conj [], .mk .nil [(n!"clean", [.var x]), (n!"inhand", [.var x])] [] .nil, false⟩
def dirtyAx : Op := ⟨n!"axiom", [x], .atom n!"inhand" [.var x], .mk .nil [] [(n!"clean", [.var x])] .nil, true⟩
def undoTree : Ptree := { tree with ops := [giveOp, dirtyAx], drvs := [] }

theorem undoMade : (Pddl.make undoTree true 5).isOk = true := by decide +kernel
def undoP : Pddl := get _ undoMade
theorem undoP_made : Pddl.make undoTree true 5 = .ok undoP := get_eq _ _

/-- **C52, refuted with axioms.** The action adds `clean(a)` and `inhand(a)`; the normalized postconditions say both hold,
but after the action `clean(a)` does not. -/
theorem C52_axiom_undoes_refuted :
    undoP.normalizePost 5 n!"give(a)" false =
      .ok (some [⟨State.ofList [inhand a, ⟨n!"clean", [n!"a"]⟩], State.empty⟩]) ∧
    undoP.nextState 5 State.empty n!"give(a)" = .ok (State.ofList [inhand a]) ∧
    ¬ DnfTrue (undoTree.constants ++ undoTree.objects) (· ∈ State.ofList [inhand a])
      (some [⟨State.ofList [inhand a, ⟨n!"clean", [n!"a"]⟩], State.empty⟩]) := by
  refine ⟨by decide +kernel, by decide +kernel, ?_⟩
  simp [DnfTrue, SomeTrue, ConjTrue, AtomTrue, inhand, IsType, HasType, undoTree, tree, a, b, table, tBox, tObj]

/-- `pick(a)` in the demo domain meets the hypotheses: it triggers the axiom, which deletes `on(a, table)`. -/
example : ∃ r, P.normalizePost 5 n!"pick(a)" false = .ok r ∧
    DnfTrue (tree.constants ++ tree.objects) (· ∈ State.ofList [inhand a, on b table, busyA a]) r := by
  refine C52_after_apply_partial tree true 5 P P_made (by decide) n!"pick(a)" pick [a] (by rfl) ?_ ?_ ?_ ?_ ?_ ?_
    5 5 (State.ofList [on a table, on b table]) _ (by decide +kernel)
  · simp [pick, Eff.WF, FList.WF, CList.WF, WFLits, Term.Scoped, IsType, HasType, tree, a, b, table, tBox, tObj, x]
  · simp [pick, Eff.NoCond, FList.NoCond]
  · simp [pick, Eff.HasConst, FList.HasConst, CList.HasConst]
  · intro q _ h2
    simp [pick, Makes, MakesF, MakesC, Lists] at h2
  · intro ax hax hi sign p h
    simp only [tree, List.mem_cons, List.not_mem_nil, or_false] at hax
    rcases hax with rfl | rfl | rfl
    · simp [pick] at hi
    · simp [place] at hi
    · cases sign <;>
        simp_all [pick, held, Eff.Touches, FList.Touches, CList.Touches, ListsPred]
  · intro d hd
    simp only [tree, List.mem_singleton] at hd
    subst hd
    refine ⟨⟨by simp [busy], by simp [busy, Goal.WF, Goal.WFs, Term.Scoped, IsType, HasType, tree, a, b, table, tBox,
      tObj, x, u]⟩, ?_⟩
    intro sign
    cases sign <;> simp [pick, busy, Eff.Touches, FList.Touches, CList.Touches, ListsPred]

end

/-! ## C53 -/

/-- **C53.** The argument lists an axiom keeps at construction are well-typed argument lists of its parameters, and for a
well-typed list it dropped the context holds in no state. -/
theorem C53_pruning_harmless [StrHash] (t : Ptree) (b : Bool) (n : Nat) (P : Pddl) (hP : Pddl.make t b n = .ok P)
    (hnd : ((t.constants ++ t.objects).map Obj.name).Nodup) (ax : Ax) (hax : ax ∈ P.axioms)
    (hp : ax.op.params ≠ []) (hwf : ax.op.pre.WF (t.constants ++ t.objects) (ax.op.params.map Obj.name))
    (hc : ∀ c, ax.op.pre.HasConst c → c ∈ t.constants ++ t.objects) :
    (∀ as ∈ ax.arguments, WellTyped (t.constants ++ t.objects) ax.op.params as) ∧
    ∀ as, WellTyped (t.constants ++ t.objects) ax.op.params as → as ∉ ax.arguments →
      ∀ S, ¬ Sat (t.constants ++ t.objects) S (Env.none.bind ax.op.params as) ax.op.pre :=
  (Pddl.built hP).arguments hnd hax hp hwf hc

section
open Demo
attribute [local instance] lenHash

/-- `(not (= ?x a)) => (clean ?x)`: the instance `a` is dropped. -/
def neAx : Op := ⟨n!"axiom", [x], .neg (.atom n!"=" [.var x, .const a]), .mk .nil [(n!"clean", [.var x])] [] .nil, true⟩
def pruneTree : Ptree := { tree with ops := [neAx], drvs := [] }

theorem pruneMade : (Pddl.make pruneTree true 5).isOk = true := by decide +kernel
def pruneP : Pddl := get _ pruneMade

example : pruneP.axioms.map Ax.arguments = [[[b]]] := by decide +kernel

example : neAx.pre.WF (pruneTree.constants ++ pruneTree.objects) (neAx.params.map Obj.name) ∧
    ∀ c, neAx.pre.HasConst c → c ∈ pruneTree.constants ++ pruneTree.objects := by
  constructor
  · simp [neAx, Goal.WF, Term.Scoped, x, a]
  · simp [neAx, Goal.HasConst, pruneTree, tree]

end

end Symbolic
