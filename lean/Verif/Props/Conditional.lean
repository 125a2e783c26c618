import Verif.Model.Normalize
import Verif.Lemmas.NormalEff
import Verif.Lemmas.Prepare
import Verif.Lemmas.ParseAction
import Verif.Lemmas.Achieve
import Verif.Lemmas.Derived
import Verif.Examples.Demo

/-!
# C59: conditional effects in normalized postconditions
-/

namespace Symbolic

/-- **C59, meaning, partial.** For a call of an action with well-formed and regular effects `NormalizePostconditions`
returns a normal form that is true in exactly the states in which every unconditional effect, and every conditional effect
whose condition is true there, has been achieved. Missing: conditions that are always true or always false (other than
negated atoms) and conditional effects that say nothing, where the code is wrong. -/
theorem C59_conditional_meaning_partial [StrHash] (t : Ptree) (b : Bool) (n : Nat) (P : Pddl)
    (hP : Pddl.make t b n = .ok P) (hnd : ((t.constants ++ t.objects).map Obj.name).Nodup) (call : Name) (op : Op)
    (args : List Obj) (hcall : P.parseAction call = .ok (op, args))
    (hwf : op.eff.WF (t.constants ++ t.objects) (op.params.map Obj.name))
    (hreg : op.eff.Regular (t.constants ++ t.objects) (Env.none.bind op.params args))
    (hconst : ∀ c, op.eff.HasConst c → c ∈ t.constants ++ t.objects) (fuel : Nat) :
    ∃ r, P.normalizePost fuel call false = .ok r ∧
      ∀ S, DnfTrue (t.constants ++ t.objects) S r ↔
        Achieved (t.constants ++ t.objects) S (Env.none.bind op.params args) op.eff := by
  have B := Pddl.built hP
  obtain ⟨-, hw⟩ := parseAction_ok hcall
  rw [Pddl.symbols, B.tree] at hw
  obtain ⟨r, h1, h2, -⟩ := Eff.dnf_achieved hnd op.eff op.params args hw.length (fun o ho => (hw.mem ho).1) hwf hreg
    hconst
  refine ⟨r, ?_, h2⟩
  simp only [Pddl.normalizePost, hcall, Res.bind_ok, Pddl.ctx, B.objects, B.omap, h1]
  cases r <;> rfl

/-- **C59, after the action, partial.** The State returned by `NextState` satisfies the normalized postconditions, if the
conditions are about predicates that neither the action nor an axiom nor a derived predicate changes, no atom is both added
and deleted by the call, no axiom undoes an effect, and no derived predicate is changed by the action. Missing: actions
that change what their own conditions read, where it is false. -/
theorem C59_after_apply_partial [StrHash] (t : Ptree) (b : Bool) (n : Nat) (P : Pddl) (hP : Pddl.make t b n = .ok P)
    (hnd : ((t.constants ++ t.objects).map Obj.name).Nodup) (call : Name) (op : Op) (args : List Obj)
    (hcall : P.parseAction call = .ok (op, args))
    (hwf : op.eff.WF (t.constants ++ t.objects) (op.params.map Obj.name))
    (hreg : op.eff.Regular (t.constants ++ t.objects) (Env.none.bind op.params args))
    (hconst : ∀ c, op.eff.HasConst c → c ∈ t.constants ++ t.objects)
    (hreads : ∀ p, op.eff.Reads p → (∀ sign, ¬ op.eff.Touches sign p) ∧
      (∀ ax ∈ t.ops, ax.isAxiom = true → ∀ sign, ¬ ax.eff.Touches sign p) ∧ ∀ d ∈ t.drvs, d.head ≠ p)
    (haxioms : ∀ ax ∈ t.ops, ax.isAxiom = true → ∀ sign p, op.eff.Touches sign p → ¬ ax.eff.Touches (!sign) p)
    (hdrv : ∀ d ∈ t.drvs, d.WF (t.constants ++ t.objects) ∧ ∀ sign, ¬ op.eff.Touches sign d.head)
    (fuel k : Nat) (s s' : State)
    (hconf : ConflictFree (t.constants ++ t.objects) (· ∈ s) (Env.none.bind op.params args) op.eff)
    (h : P.nextState fuel s call = .ok s') :
    ∃ r, P.normalizePost k call false = .ok r ∧ DnfTrue (t.constants ++ t.objects) (· ∈ s') r := by
  obtain ⟨r, h1, h2⟩ := C59_conditional_meaning_partial t b n P hP hnd call op args hcall hwf hreg hconst k
  refine ⟨r, h1, (h2 _).2 ?_⟩
  have B := Pddl.built hP
  obtain ⟨-, hw⟩ := parseAction_ok hcall
  rw [Pddl.symbols, B.tree] at hw
  simp only [Pddl.nextState, hcall, Res.bind_ok, Pddl.applyOp, Res.bind_eq_ok, Res.pure_eq, Res.ok.injEq, B.omap,
    Pddl.drvs, B.tree] at h
  obtain ⟨r1, h3, r2, h4, rfl⟩ := h
  have hfr : FireAgrees op.eff.Reads (fireN (σ := State) (ObjMap.create (t.constants ++ t.objects)) P.axioms fuel) :=
    fireN_rel (agree_rel op.eff.Reads) (fun ax hax _ sign p ht hR =>
      (hreads p hR).2.1 ax.op (B.ax hax).1 (B.ax hax).2.1 sign ht) fuel
  obtain ⟨-, h5⟩ := Eff.apply_achieves (R := op.eff.Reads) (s₀ := s)
      (M := fun sign x => Makes (t.constants ++ t.objects) (· ∈ s) sign (Env.none.bind op.params args) op.eff x)
      (fun x => hconf x) (fireN_keeps (fun sign x hx ax hax ht =>
        haxioms ax.op (B.ax hax).1 (B.ax hax).2.1 sign x.pred (touches_of_makes _ _ _ _ _ _ hx) ht) fuel)
      hfr op.eff op.params args s r1 hw.length hwf (fun _ _ => Iff.rfl) (fun p hp => hp)
      (fun sign p ht hR => (hreads p hR).1 sign ht) (fun _ _ h => h) h3
  have h7 : AgreePreds op.eff.Reads r1.2 s := Eff.apply_rel (agree_rel op.eff.Reads) hfr op.eff _ _ _ _
    (fun sign p ht hR => (hreads p hR).1 sign ht) h3
  obtain ⟨-, h6, -⟩ := drvsFix_ok (fun d hd => (hdrv d hd).1) _ _ _ h4
  have hread : ∀ y : Atom, op.eff.Reads y.pred → (y ∈ r2.2 ↔ y ∈ s) := by
    intro y hy
    rw [h6 y, h7 y hy]
    rintro ⟨d, hd, os, -, rfl⟩
    exact (hreads _ hy).2.2 d hd rfl
  have hsame : ∀ sign x, Makes (t.constants ++ t.objects) (· ∈ r2.2) sign (Env.none.bind op.params args) op.eff x →
      Holds sign x r2.2 := by
    intro sign x hx
    have hx' := (makes_congr sign op.eff (Env.none.bind op.params args) x hread).1 hx
    have := h5 sign x hx'
    unfold Holds at this ⊢
    rw [h6 x, this]
    rintro ⟨d, hd, os, -, rfl⟩
    exact (hdrv d hd).2 sign (touches_of_makes _ _ _ _ _ _ hx')
  exact ⟨fun x hx => (hsame true x hx).2 rfl, fun x hx hm => by simpa using (hsame false x hx).1 hm⟩

section
open Demo
attribute [local instance] lenHash

def wetA (o : Obj) : Atom := ⟨n!"wet", [o.name]⟩
def hotA (o : Obj) : Atom := ⟨n!"hot", [o.name]⟩
def markedA (o : Obj) : Atom := ⟨n!"marked", [o.name]⟩

/-- `(when (box ?x) (marked ?x))`: the condition is always true. -/
def trueOp : Op := ⟨n!"t", [x], .conj [], .mk .nil [] [] (.cons (.atom n!"box" [.var x])
  (.mk .nil [(n!"marked", [.var x])] [] .nil) .nil), false⟩
/-- `(when (= ?x ?y) (marked ?x))` -/
def falseOp : Op := ⟨n!"f", [x, y], .conj [], .mk .nil [] [] (.cons (.atom n!"=" [.var x, .var y])
  (.mk .nil [(n!"marked", [.var x])] [] .nil) .nil), false⟩
/-- `(and (when (wet ?x) (marked ?x)) (when (hot ?x) (wet ?x)))` -/
def chainOp : Op := ⟨n!"c", [x], .conj [], .mk .nil [] [] (.cons (.atom n!"wet" [.var x])
  (.mk .nil [(n!"marked", [.var x])] [] .nil) (.cons (.atom n!"hot" [.var x])
  (.mk .nil [(n!"wet", [.var x])] [] .nil) .nil)), false⟩
/-- `(when (not (= ?x ?y)) (and (wet ?x) (not (wet ?x))))` -/
def throwOp : Op := ⟨n!"e", [x, y], .conj [], .mk .nil [] [] (.cons (.neg (.atom n!"=" [.var x, .var y]))
  (.mk .nil [(n!"wet", [.var x])] [(n!"wet", [.var x])] .nil) .nil), false⟩
/-- `(and (marked ?x) (when (hot ?x) (wet ?x)) (forall (?u - box) (when (not (= ?u ?x)) (not (wet ?u)))))` -/
def dipOp : Op := ⟨n!"dip", [x], .conj [], .mk
  (.cons [u] (.mk .nil [] [] (.cons (.neg (.atom n!"=" [.var u, .var x]))
    (.mk .nil [] [(n!"wet", [.var u])] .nil) .nil)) .nil)
  [(n!"marked", [.var x])] [] (.cons (.atom n!"hot" [.var x]) (.mk .nil [(n!"wet", [.var x])] [] .nil) .nil), false⟩

def condTree : Ptree := { tree with
  ops := [trueOp, falseOp, chainOp, throwOp, dipOp, held]
  preds := tree.preds ++ [⟨n!"wet", [x]⟩, ⟨n!"hot", [x]⟩, ⟨n!"marked", [x]⟩] }

theorem condMade : (Pddl.make condTree true 5).isOk = true := by decide +kernel
def condP : Pddl := get _ condMade
theorem condP_made : Pddl.make condTree true 5 = .ok condP := get_eq _ _

/-- **C59, refuted: an effect whose condition is always true is dropped.** `t(a)` makes `marked(a)` true because `a` is a
box; its normalized postcondition is the empty (true) formula, true also where the effect has not been achieved. -/
theorem C59_true_condition_refuted :
    condP.nextState 5 State.empty n!"t(a)" = .ok (State.ofList [markedA a]) ∧
    condP.normalizePost 5 n!"t(a)" false = .ok (some []) ∧
    ¬ Achieved (condTree.constants ++ condTree.objects) (· ∈ State.empty) (Env.none.bind trueOp.params [a])
      trueOp.eff := by
  refine ⟨by decide +kernel, by decide +kernel, ?_⟩
  rintro ⟨h, -⟩
  refine absurd (h (markedA a) ?_) (by simp)
  simp only [trueOp, Makes, MakesF, MakesC, false_or, or_false]
  refine Or.inr (Or.inr ⟨?_, Or.inl ⟨trivial, n!"marked", [.var x], [a], by simp, .cons rfl .nil, rfl⟩⟩)
  exact Or.inr (Or.inl ⟨by decide, ⟨a, by simp [condTree, tree], by unfold HasType; decide⟩, .var x, a, rfl, rfl,
    by unfold HasType; decide⟩)

/-- **C59, refuted: an effect whose condition is always false is demanded.** `f(a, b)` does nothing because `a` is not
`b`; its normalized postcondition is `marked(a)`, which is false afterwards. -/
theorem C59_false_condition_refuted :
    condP.nextState 5 State.empty n!"f(a, b)" = .ok State.empty ∧
    condP.normalizePost 5 n!"f(a, b)" false = .ok (some [⟨State.ofList [markedA a], State.empty⟩]) ∧
    ¬ DnfTrue (condTree.constants ++ condTree.objects) (· ∈ State.empty)
      (some [⟨State.ofList [markedA a], State.empty⟩]) := by
  refine ⟨by decide +kernel, by decide +kernel, ?_⟩
  simp [DnfTrue, SomeTrue, ConjTrue, AtomTrue, markedA, IsType, HasType, condTree, tree, a, b, table, tBox, tObj]

/-- **C59, refuted: conditions that become true later.** `c(a)` makes a hot `a` wet, after its first effect looked at
`wet(a)`; the normalized postcondition says a wet `a` is marked, and the result does not satisfy it. -/
theorem C59_changed_condition_refuted :
    condP.nextState 5 (State.ofList [hotA a]) n!"c(a)" = .ok (State.ofList [hotA a, wetA a]) ∧
    ∃ d, condP.normalizePost 5 n!"c(a)" false = .ok (some d) ∧
      ¬ DnfTrue (condTree.constants ++ condTree.objects) (· ∈ State.ofList [hotA a, wetA a]) (some d) := by
  refine ⟨by decide +kernel, [⟨State.empty, State.ofList [hotA a, wetA a]⟩,
    ⟨State.ofList [markedA a], State.ofList [hotA a]⟩, ⟨State.ofList [wetA a, markedA a], State.empty⟩], by decide +kernel, ?_⟩
  simp [DnfTrue, SomeTrue, ConjTrue, AtomTrue, markedA, wetA, hotA, IsType, HasType, condTree, tree, a, b, table, tBox, tObj]

/-- **C59, refuted: normalization throws.** `e(a, b)` applies, but normalizing its contradictory conditional effect throws
`runtime_error`. -/
theorem C59_throws_refuted :
    condP.nextState 5 State.empty n!"e(a, b)" = .ok State.empty ∧
    condP.normalizePost 5 n!"e(a, b)" false = .exc .runtimeError := by
  refine ⟨by decide +kernel, by decide +kernel⟩

/-- `(and (when (or (hot ?x) (not (hot ?x))) (marked ?x)) (when (wet ?x) (hot ?x)))` -/
def tautOp : Op := ⟨n!"z", [x], .conj [], .mk .nil [] [] (.cons
  (.disj [.atom n!"hot" [.var x], .neg (.atom n!"hot" [.var x])])
  (.mk .nil [(n!"marked", [.var x])] [] .nil) (.cons (.atom n!"wet" [.var x])
  (.mk .nil [(n!"hot", [.var x])] [] .nil) .nil)), false⟩

def tautTree : Ptree := { condTree with ops := [tautOp, held] }

theorem tautMade : (Pddl.make tautTree true 5).isOk = true := by decide +kernel
def tautP : Pddl := get _ tautMade

/-- **C59, refuted: an effect with a tautological condition is dropped, the effects after it are not.** `z(a)` always
makes `marked(a)` true; its normalized postcondition only says that a wet `a` is hot. -/
theorem C59_tautology_refuted :
    tautP.nextState 5 State.empty n!"z(a)" = .ok (State.ofList [markedA a]) ∧
    tautP.normalizePost 5 n!"z(a)" false = .ok (some [⟨State.empty, State.ofList [wetA a]⟩,
      ⟨State.ofList [hotA a], State.empty⟩]) := by
  refine ⟨by decide +kernel, by decide +kernel⟩

theorem cond_types {p : Name} (h : IsType (condTree.constants ++ condTree.objects) p) :
    p = n!"box" ∨ p = n!"object" := by
  simp only [IsType, HasType, condTree, tree, a, b, table, tBox, tObj] at h
  obtain ⟨o, ho, hp⟩ := h
  simp only [List.cons_append, List.nil_append, List.mem_cons, List.not_mem_nil, or_false] at ho
  rcases ho with rfl | rfl | rfl <;> simp at hp <;> tauto

/-- The effects of `dip(a)` are regular: one condition can be true or false, the others are inequalities. -/
theorem dip_regular : dipOp.eff.Regular (condTree.constants ++ condTree.objects) (Env.none.bind dipOp.params [a]) := by
  have hh : ¬ IsType (condTree.constants ++ condTree.objects) n!"hot" := fun h => by
    have := cond_types h; revert this; decide
  simp only [dipOp, Eff.Regular, FList.Regular, CList.Regular, true_and, and_true]
  refine ⟨fun os ho => ?_, Or.inl ⟨by simp [Goal.Regular], ⟨fun _ => True, ?_⟩, ⟨fun _ => False, ?_⟩,
    ⟨fun _ => False, ?_⟩⟩⟩
  · right
    refine ⟨⟨_, _, rfl⟩, ?_⟩
    by_cases hs : Satisfiable (condTree.constants ++ condTree.objects) ((Env.none.bind [x] [a]).bind [u] os)
        (.neg (.atom n!"=" [.var u, .var x]))
    · right
      refine ⟨?_, fun _ => False, ?_⟩
      · rintro ⟨S, hS⟩
        obtain ⟨T, hT⟩ := hs
        simp only [Sat, SatAtom, ne_eq, not_true_eq_false, false_and, or_false, not_not] at hS hT
        exact hT hS
      · simp [Achieved, Makes, MakesF, MakesC, Lists]
    · exact Or.inl hs
  · exact Or.inr (Or.inr ⟨by decide, hh, [a], .cons rfl .nil, trivial⟩)
  · rintro (⟨h, -⟩ | ⟨-, h, -⟩ | ⟨-, -, os, -, h⟩)
    · exact absurd h (by decide)
    · exact hh h
    · exact h
  · rintro ⟨h, -⟩
    refine h (wetA a) ?_
    simp only [Makes, MakesF, MakesC, false_or, or_false]
    exact Or.inl ⟨trivial, n!"wet", [.var x], [a], by simp, .cons rfl .nil, rfl⟩

/-- Dipping the hot `a`: both conditional effects act, and the result satisfies the normalized postcondition. -/
example : condP.nextState 5 (State.ofList [hotA a, wetA b]) n!"dip(a)" = .ok (State.ofList [hotA a, wetA a, markedA a]) ∧
    ∃ r, condP.normalizePost 5 n!"dip(a)" false = .ok r ∧
      DnfTrue (condTree.constants ++ condTree.objects) (· ∈ State.ofList [hotA a, wetA a, markedA a]) r := by
  have hn : condP.nextState 5 (State.ofList [hotA a, wetA b]) n!"dip(a)" =
      .ok (State.ofList [hotA a, wetA a, markedA a]) := by decide +kernel
  refine ⟨hn, C59_after_apply_partial condTree true 5 condP condP_made (by decide) n!"dip(a)" dipOp [a] (by rfl) ?_
    dip_regular ?_ ?_ ?_ ?_ 5 5 (State.ofList [hotA a, wetA b]) _ ?_ hn⟩
  · simp [dipOp, Eff.WF, FList.WF, CList.WF, WFLits, Goal.WF, Term.Scoped, IsType, HasType, condTree, tree, a, b, table,
      tBox, tObj, x, u]
  · simp [dipOp, Eff.HasConst, FList.HasConst, CList.HasConst, Goal.HasConst]
  · intro p hp
    simp only [dipOp, Eff.Reads, FList.Reads, CList.Reads, Goal.Mentions, or_false, false_or] at hp
    have hp' : p = n!"=" ∨ p = n!"hot" := by
      rcases hp with ⟨_, h⟩ | ⟨_, h⟩
      · exact Or.inl h.1
      · exact Or.inr h.1
    refine ⟨fun sign => ?_, fun ax hax hi sign => ?_, fun d hd => ?_⟩
    · rcases hp' with rfl | rfl <;> simp [dipOp, Eff.Touches, FList.Touches, CList.Touches, ListsPred]
    · simp only [condTree, List.mem_cons, List.not_mem_nil, or_false] at hax
      rcases hax with rfl | rfl | rfl | rfl | rfl | rfl <;>
        first
        | (simp [trueOp, falseOp, chainOp, throwOp, dipOp] at hi; done)
        | (rcases hp' with rfl | rfl <;> simp [held, Eff.Touches, FList.Touches, CList.Touches, ListsPred])
    · simp only [condTree, tree, List.mem_singleton] at hd
      subst hd
      rcases hp' with rfl | rfl <;> decide
  · intro ax hax hi sign p h
    simp only [condTree, List.mem_cons, List.not_mem_nil, or_false] at hax
    rcases hax with rfl | rfl | rfl | rfl | rfl | rfl <;>
      first
      | (simp [trueOp, falseOp, chainOp, throwOp, dipOp] at hi; done)
      | (cases sign <;> simp_all [dipOp, held, Eff.Touches, FList.Touches, CList.Touches, ListsPred] <;>
          rcases h with rfl | rfl <;> decide)
  · intro d hd
    simp only [condTree, tree, List.mem_singleton] at hd
    subst hd
    refine ⟨⟨by simp [busy], by simp [busy, Goal.WF, Goal.WFs, Term.Scoped, IsType, HasType, condTree, tree, a, b, table,
      tBox, tObj, x, u]⟩, ?_⟩
    intro sign
    cases sign <;> simp [dipOp, busy, Eff.Touches, FList.Touches, CList.Touches, ListsPred]
  · rintro ⟨p, as⟩ h1 h2
    simp [dipOp, Makes, MakesF, MakesC, Lists] at h1 h2
    obtain ⟨os, ho, hs, os2, hd2, rfl, rfl⟩ := h2
    rcases h1 with ⟨_, -, h, -⟩ | ⟨-, os1, hd1, -, h⟩
    · exact absurd h (by decide)
    cases ho with
    | @cons _ o _ _ _ hnil =>
      cases hnil
      cases hd1 with
      | cons hx hn1 =>
        cases hn1
        cases hd2 with
        | cons hu hn2 =>
          cases hn2
          simp only [List.map_cons, List.map_nil, List.cons.injEq, and_true] at h
          refine hs (Or.inl ⟨rfl, .var u, .var x, _, _, rfl, hu, ?_, h⟩)
          exact hx

end
end Symbolic
