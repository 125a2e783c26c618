import Verif.Lemmas.NormalAxiomsEff
import Verif.Lemmas.Completion
import Verif.Props.Partial

/-!
# C91, C92: normal forms created with the axioms, and from conjunctive formulas
-/

namespace Symbolic

/-! ## C91 -/

/-- What `apply_axioms` promises of a normal form `r` of something true where `p` says: it is true in no more states, and in
the same states among those that satisfy the axioms; and `IsValidState` accepts each disjunct. -/
structure Pruned [StrHash] (t : Ptree) (P : Pddl) (fuel : Nat) (p : (Atom → Prop) → Prop) (r : Option Dnf) : Prop where
  least : ∀ S, DnfTrue (t.constants ++ t.objects) S r → p S
  exact : ∀ T : State, AxiomsHold (t.constants ++ t.objects) t.ops (· ∈ T) →
    (DnfTrue (t.constants ++ t.objects) (· ∈ T) r ↔ p (· ∈ T))
  accepted : ∀ l, r = some l → ∀ c ∈ l, P.isValidStateP fuel c = .ok true

/-- A conjunction that `IsValidState` rejects is true in no State that satisfies the axioms. -/
theorem rejected_untrue [StrHash] {t : Ptree} {b : Bool} {n : Nat} {P : Pddl} (hP : Pddl.make t b n = .ok P)
    (hnd : ((t.constants ++ t.objects).map Obj.name).Nodup) {sig : Name → List Name}
    (hax : AxiomsSorted (t.constants ++ t.objects) sig t.ops) (fuel : Nat) :
    Sound (t.constants ++ t.objects) (P.isValidStateP fuel)
      (fun S => ∃ T : State, S = (· ∈ T) ∧ AxiomsHold (t.constants ++ t.objects) t.ops (· ∈ T)) := by
  rintro c h S ⟨T, rfl, hT⟩ hc
  obtain ⟨T', p1, p2⟩ := exists_static (t.constants ++ t.objects) T c.pos.elems
  have hat : ∀ x, x.Plain (t.constants ++ t.objects) →
      (AtomTrue (t.constants ++ t.objects) (· ∈ T) x ↔ x ∈ T) := by
    intro x hx
    simp [AtomTrue, hx.1, hx.2]
  refine C34_rejected_has_no_completion_partial t b n P hP hnd sig hax fuel c h ⟨T', ⟨fun x hx => ?_, fun x hx hx' => ?_⟩,
    axiomsHold_plain p1 hT⟩
  · by_cases hp : x.Plain (t.constants ++ t.objects)
    · exact (p1 x hp).1 ((hat x hp).1 (hc.1 x hx))
    · exact (p2 x hp).2 ⟨by simp [State.mem_elems, hx], hc.1 x hx⟩
  · by_cases hp : x.Plain (t.constants ++ t.objects)
    · exact hc.2 x hx ((hat x hp).2 ((p1 x hp).2 hx'))
    · exact hc.2 x hx ((p2 x hp).1 hx').2

theorem Checked.pruned [StrHash] {t : Ptree} {P : Pddl} {fuel : Nat} {p : (Atom → Prop) → Prop} {r : Option Dnf}
    (h : Checked (t.constants ++ t.objects) (P.isValidStateP fuel)
      (fun S => ∃ T : State, S = (· ∈ T) ∧ AxiomsHold (t.constants ++ t.objects) t.ops (· ∈ T)) p r) :
    Pruned t P fuel p r :=
  ⟨h.least, fun T hT => h.exact _ ⟨T, rfl, hT⟩, h.accepted⟩

/-- **C91 for formulas, partial.** If `DisjunctiveFormula::Create` with `apply_axioms` returns for a well-formed and regular
conjunction, disjunction or quantified formula, it has pruned only what the axioms exclude. Missing: atoms and negations, for
which the flag is ignored (`C91_negation_refuted`), irregular formulas (C51), axioms with narrow types (C34). -/
theorem C91_formula_partial [StrHash] (t : Ptree) (b : Bool) (n : Nat) (P : Pddl)
    (hP : Pddl.make t b n = .ok P) (hnd : ((t.constants ++ t.objects).map Obj.name).Nodup)
    (sig : Name → List Name) (hax : AxiomsSorted (t.constants ++ t.objects) sig t.ops) (fuel : Nat)
    (g : Goal) (params args : List Obj) (hlen : params.length = args.length)
    (hargs : ∀ o ∈ args, o ∈ t.constants ++ t.objects)
    (hwf : g.WF (t.constants ++ t.objects) (params.map Obj.name))
    (hconst : ∀ c, g.HasConst c → c ∈ t.constants ++ t.objects)
    (hreg : g.Regular (t.constants ++ t.objects) (Env.none.bind params args)) (hco : g.Composite)
    (r : Option Dnf) (h : P.createDnf fuel g params args true = .ok r) :
    Pruned t P fuel (fun S => Sat (t.constants ++ t.objects) S (Env.none.bind params args) g) r := by
  have B := Pddl.built hP
  simp only [Pddl.createDnf, if_true, Pddl.ctx, B.objects, B.omap] at h
  exact (dnfA_sat hnd (rejected_untrue hP hnd hax fuel) g params args hlen hargs hwf hconst hreg hco h).pruned

/-- **C91 for effects, partial.** The same for the effects of an action. -/
theorem C91_effects_partial [StrHash] (t : Ptree) (b : Bool) (n : Nat) (P : Pddl)
    (hP : Pddl.make t b n = .ok P) (hnd : ((t.constants ++ t.objects).map Obj.name).Nodup)
    (sig : Name → List Name) (hax : AxiomsSorted (t.constants ++ t.objects) sig t.ops) (fuel : Nat)
    (e : Eff) (params args : List Obj) (hlen : params.length = args.length)
    (hargs : ∀ o ∈ args, o ∈ t.constants ++ t.objects)
    (hwf : e.WF (t.constants ++ t.objects) (params.map Obj.name))
    (hconst : ∀ c, e.HasConst c → c ∈ t.constants ++ t.objects)
    (hreg : e.Regular (t.constants ++ t.objects) (Env.none.bind params args))
    (r : Option Dnf) (h : P.createEffDnf fuel e params args true = .ok r) :
    Pruned t P fuel (fun S => Achieved (t.constants ++ t.objects) S (Env.none.bind params args) e) r := by
  have B := Pddl.built hP
  simp only [Pddl.createEffDnf, if_true, Pddl.ctx, B.objects, B.omap] at h
  exact (Eff.dnfA_achieved hnd (rejected_untrue hP hnd hax fuel) e params args hlen hargs hwf hreg hconst h).pruned

/-- **C91, the flag on atoms and negations.** It makes no difference there. For every Pddl and every list of arguments. -/
theorem C91_flag_ignored [StrHash] (P : Pddl) (fuel : Nat) (g : Goal) (params args : List Obj) (hco : ¬ g.Composite) :
    P.createDnf fuel g params args true = P.createDnf fuel g params args false := by
  cases g <;> first | rfl | exact absurd trivial hco

section
open Demo
attribute [local instance] lenHash

/-- `(and (inhand a) (or (on a b) (on b table)))` -/
def prunedGoal : Goal := .conj [.atom n!"inhand" [.const a],
  .disj [.atom n!"on" [.const a, .const b], .atom n!"on" [.const b, .const table]]]

/-- What is in the hand is on nothing, so that one disjunct is dropped. -/
example : P.createDnf 5 prunedGoal [] [] true = .ok (some [⟨State.ofList [inhand a, on b table], State.empty⟩]) ∧
    P.createDnf 5 prunedGoal [] [] false = .ok (some [⟨State.ofList [inhand a, on b table], State.empty⟩,
      ⟨State.ofList [inhand a, on a b], State.empty⟩]) := by decide +kernel

/-- The hypotheses are met. -/
example : prunedGoal.WF (tree.constants ++ tree.objects) [] ∧
    (∀ c, prunedGoal.HasConst c → c ∈ tree.constants ++ tree.objects) ∧
    prunedGoal.Regular (tree.constants ++ tree.objects) (Env.none.bind [] []) ∧ prunedGoal.Composite := by
  have ho : ¬ IsType (tree.constants ++ tree.objects) n!"on" := noOn
  have e1 : Denotes (Env.none.bind [] []) (.const a) a := rfl
  have e2 : Denotes (Env.none.bind [] []) (.const b) b := rfl
  refine ⟨?_, ?_, ⟨trivial, ⟨⟨trivial, trivial, trivial⟩, Or.inl ⟨fun _ => True, ?_⟩, ⟨fun _ => False, ?_⟩,
    ⟨fun _ => False, ?_⟩, trivial⟩, trivial⟩, trivial⟩
  · simp [prunedGoal, Goal.WF, Goal.WFs, Term.Scoped, IsType, HasType, tree, a, b, table, tBox, tObj]
  · simp only [prunedGoal, Goal.HasConst, Goal.HasConstL, tree]
    intro o h
    simp at h ⊢
    tauto
  · exact Or.inr (Or.inr ⟨by decide, ho, [a, b], .cons e1 (.cons e2 .nil), trivial⟩)
  · rintro (⟨h, -⟩ | ⟨-, h, -⟩ | ⟨-, -, os, -, h⟩)
    · exact absurd h (by decide)
    · exact ho h
    · exact h
  · rintro (⟨h, -⟩ | ⟨-, h, -⟩ | ⟨-, -, os, -, h⟩)
    · exact absurd h (by decide)
    · exact ho h
    · exact h

/-- `(and (on ?x ?y) (inhand ?x))`: no State that satisfies the axiom has both. -/
def clashEff : Eff := .mk .nil [(n!"on", [.var x, .var y]), (n!"inhand", [.var x])] [] .nil

example : P.createEffDnf 5 place.eff place.params [a, b] true =
      .ok (some [⟨State.ofList [on a b], State.ofList [inhand a]⟩]) ∧
    P.createEffDnf 5 clashEff [x, y] [a, b] true = .ok none ∧
    P.createEffDnf 5 clashEff [x, y] [a, b] false = .ok (some [⟨State.ofList [on a b, inhand a], State.empty⟩]) := by
  decide +kernel

/-- The hypotheses for effects are met. -/
example : place.eff.WF (tree.constants ++ tree.objects) (place.params.map Obj.name) ∧
    (∀ c, place.eff.HasConst c → c ∈ tree.constants ++ tree.objects) ∧
    place.eff.Regular (tree.constants ++ tree.objects) (Env.none.bind place.params [a, b]) := by
  refine ⟨?_, ?_, ?_⟩
  · simp [place, Eff.WF, FList.WF, CList.WF, WFLits, Term.Scoped, IsType, HasType, tree, a, b, table, x, y, tBox, tObj]
  · simp [place, Eff.HasConst, FList.HasConst, CList.HasConst]
  · simp [place, Eff.Regular, FList.Regular, CList.Regular]

/-- **C91, refuted for negations:** `(and (inhand a) (on a b))` contradicts the axioms, and nothing is returned; the same
formula written `(not (or (not (inhand a)) (not (on a b))))` keeps the disjunct that `IsValidState` rejects. -/
theorem C91_negation_refuted :
    P.createDnf 5 (.conj [.atom n!"inhand" [.const a], .atom n!"on" [.const a, .const b]]) [] [] true = .ok none ∧
    P.createDnf 5 (.neg (.disj [.neg (.atom n!"inhand" [.const a]), .neg (.atom n!"on" [.const a, .const b])])) [] [] true =
      .ok (some [⟨State.ofList [inhand a, on a b], State.empty⟩]) ∧
    P.isValidStateP 5 ⟨State.ofList [inhand a, on a b], State.empty⟩ = .ok false := by decide +kernel

/-- `(when (on a b) (inhand a))`, with axioms that say that `a` is on `b` and never in the hand. -/
def pinEff : Eff := .mk .nil [] [] (.cons (.atom n!"on" [.var x, .var u]) (.mk .nil [(n!"inhand", [.var x])] [] .nil) .nil)
/-- `(inhand ?x) => (not (inhand ?x))` and `(not (on ?x ?u)) => (on ?x ?u)`. -/
def pin1 : Op := ⟨n!"axiom", [x], .atom n!"inhand" [.var x], .mk .nil [] [(n!"inhand", [.var x])] .nil, true⟩
def pin2 : Op := ⟨n!"axiom", [x, u], .neg (.atom n!"on" [.var x, .var u]), .mk .nil [(n!"on", [.var x, .var u])] [] .nil, true⟩
def pinTree : Ptree := { tree with ops := [pin1, pin2], drvs := [], init := [on a a, on a b, on b a, on b b] }

theorem pinMade : (Pddl.make pinTree true 9).isOk = true := by decide +kernel
def pinP : Pddl := get _ pinMade

/-- **C91, refuted for conditional effects:** an effect that no State satisfying the axioms can have achieved makes `Create`
throw, where a conjunction of the same meaning gives nothing. The initial State satisfies the axioms. -/
theorem C91_conditional_refuted :
    pinP.createEffDnf 9 pinEff [x, u] [a, b] true = .exc .runtimeError ∧
    pinP.createDnf 9 (.disj [.neg (.atom n!"on" [.const a, .const b]), .atom n!"inhand" [.const a]]) [] [] true = .ok none ∧
    pinP.isValidState 9 pinP.initial = .ok true := by decide +kernel

end

/-! ## C92 -/

/-- Some literal of the disjunction is true. -/
def DisjTrue [StrHash] (objects : List Obj) (S : Atom → Prop) (d : PartialState) : Prop :=
  (∃ a ∈ d.pos, AtomTrue objects S a) ∨ ∃ a ∈ d.neg, ¬ AtomTrue objects S a

theorem convertCnf_spec [StrHash] {objects : List Obj} {cnf : List PartialState} (hg : ∀ d ∈ cnf, ConjGround objects d) :
    (∀ x ∈ convertCnf cnf, GoodDnf objects x) ∧ ((∀ d ∈ cnf, HasLit d) → ∀ S,
      (∀ x ∈ convertCnf cnf, DnfTrue objects S (some x)) ↔ ∀ d ∈ cnf, DisjTrue objects S d) := by
  have hlits : ∀ c x, x ∈ ((c : PartialState).pos.elems.map (fun a => (⟨State.ofList [a], State.empty⟩ : PartialState))) ++
      (c.neg.elems.map (fun a => ⟨State.empty, State.ofList [a]⟩)) ↔
      (∃ a ∈ c.pos, x = ⟨State.ofList [a], State.empty⟩) ∨ ∃ a ∈ c.neg, x = ⟨State.empty, State.ofList [a]⟩ := by
    intro c x
    simp only [List.mem_append, List.mem_map, State.mem_elems, eq_comm]
  refine ⟨?_, ?_⟩
  · intro l hl
    obtain ⟨c, hc, rfl⟩ := List.mem_map.1 hl
    intro x hx
    rcases (hlits c x).1 hx with ⟨a, ha, rfl⟩ | ⟨a, ha, rfl⟩
    · refine ⟨⟨fun b hb => ?_, fun b hb => ?_⟩, Or.inl ⟨a, by simp⟩⟩
      · simp at hb; subst hb; exact (hg c hc).1 b ha
      · simp at hb
    · refine ⟨⟨fun b hb => ?_, fun b hb => ?_⟩, Or.inr ⟨a, by simp⟩⟩
      · simp at hb
      · simp at hb; subst hb; exact (hg c hc).2 b ha
  · intro hne S
    simp only [convertCnf, List.mem_map, forall_exists_index, and_imp, forall_apply_eq_imp_iff₂]
    refine forall_congr' fun c => forall_congr' fun hc => ⟨?_, ?_⟩
    · rintro (h | ⟨x, hx, ht⟩)
      · have hno : ∀ x, ¬ ((∃ a ∈ c.pos, x = (⟨State.ofList [a], State.empty⟩ : PartialState)) ∨
            ∃ a ∈ c.neg, x = ⟨State.empty, State.ofList [a]⟩) := by
          intro x hx
          have := (hlits c x).2 hx
          rw [h] at this; simp at this
        rcases hne c hc with ⟨a, ha⟩ | ⟨a, ha⟩
        · exact absurd (Or.inl ⟨a, ha, rfl⟩) (hno _)
        · exact absurd (Or.inr ⟨a, ha, rfl⟩) (hno _)
      · rcases (hlits c x).1 hx with ⟨a, ha, rfl⟩ | ⟨a, ha, rfl⟩
        · exact Or.inl ⟨a, ha, ht.1 a (by simp)⟩
        · exact Or.inr ⟨a, ha, ht.2 a (by simp)⟩
    · rintro (⟨a, ha, ht⟩ | ⟨a, ha, ht⟩)
      · exact Or.inr ⟨_, (hlits c _).2 (Or.inl ⟨a, ha, rfl⟩), by simp [ConjTrue, ht]⟩
      · exact Or.inr ⟨_, (hlits c _).2 (Or.inr ⟨a, ha, rfl⟩), by simp [ConjTrue, ht]⟩

/-- **C92, partial.** `Create` for a conjunction of non-empty disjunctions over declared objects returns a normal form that is
true in the same states. Missing: empty disjunctions, see `C92_empty_refuted`. -/
theorem C92_conjunctive_partial [StrHash] (t : Ptree) (b : Bool) (n : Nat) (P : Pddl)
    (hP : Pddl.make t b n = .ok P) (hnd : ((t.constants ++ t.objects).map Obj.name).Nodup) (fuel : Nat)
    (cnf : List PartialState) (hg : ∀ d ∈ cnf, ConjGround (t.constants ++ t.objects) d)
    (hne : ∀ d ∈ cnf, (∃ a, a ∈ d.pos) ∨ ∃ a, a ∈ d.neg) :
    ∃ r, P.createCnf fuel cnf false = .ok r ∧
      ∀ S, DnfTrue (t.constants ++ t.objects) S r ↔ ∀ d ∈ cnf, DisjTrue (t.constants ++ t.objects) S d := by
  have B := Pddl.built hP
  obtain ⟨h1, h2⟩ := convertCnf_spec hg
  obtain ⟨r, k1, k2, -⟩ := conjoin_spec hnd h1
  refine ⟨r, ?_, fun S => (k2 S).trans (h2 hne S)⟩
  simp only [Pddl.createCnf, Bool.false_eq_true, if_false, Pddl.ctx, B.objects, B.omap, k1]

/-- **C92 with `apply_axioms`, partial.** If it returns, it has pruned only what the axioms exclude. -/
theorem C92_conjunctive_axioms_partial [StrHash] (t : Ptree) (b : Bool) (n : Nat) (P : Pddl)
    (hP : Pddl.make t b n = .ok P) (hnd : ((t.constants ++ t.objects).map Obj.name).Nodup)
    (sig : Name → List Name) (hax : AxiomsSorted (t.constants ++ t.objects) sig t.ops) (fuel : Nat)
    (cnf : List PartialState) (hg : ∀ d ∈ cnf, ConjGround (t.constants ++ t.objects) d)
    (hne : ∀ d ∈ cnf, (∃ a, a ∈ d.pos) ∨ ∃ a, a ∈ d.neg) (r : Option Dnf) (h : P.createCnf fuel cnf true = .ok r) :
    Pruned t P fuel (fun S => ∀ d ∈ cnf, DisjTrue (t.constants ++ t.objects) S d) r := by
  have B := Pddl.built hP
  obtain ⟨h1, h2⟩ := convertCnf_spec hg
  simp only [Pddl.createCnf, if_true, Pddl.ctx, B.objects, B.omap] at h
  exact ((conjoinA_spec hnd (rejected_untrue hP hnd hax fuel) h1 h).congr (h2 hne)).pruned

section
open Demo
attribute [local instance] lenHash

/-- `(inhand(a) or on(b, table)) and (not on(b, table) or on(a, b))` -/
def demoCnf : List PartialState :=
  [⟨State.ofList [inhand a, on b table], State.empty⟩, ⟨State.ofList [on a b], State.ofList [on b table]⟩]

example : (P.createCnf 5 demoCnf false).isOk = true ∧
    P.createCnf 5 demoCnf true = .ok (some [⟨State.ofList [on a b, on b table], State.empty⟩,
      ⟨State.ofList [inhand a], State.ofList [on b table]⟩]) := by decide +kernel

/-- The hypotheses are met. -/
example : (∀ d ∈ demoCnf, ConjGround (tree.constants ++ tree.objects) d) ∧
    ∀ d ∈ demoCnf, (∃ a, a ∈ d.pos) ∨ ∃ a, a ∈ d.neg := by
  constructor
  · have h1 : ∀ o ∈ [a, b, table], ∀ o' ∈ [a, b, table], (on o o').Ground (tree.constants ++ tree.objects) := by
      intro o ho o' ho'
      refine ⟨?_, fun _ => rfl, fun _ h => absurd h noOn⟩
      simp only [List.mem_cons, List.not_mem_nil, or_false] at ho ho'
      rcases ho with rfl | rfl | rfl <;> rcases ho' with rfl | rfl | rfl <;> decide
    have h2 : (inhand a).Ground (tree.constants ++ tree.objects) := ⟨by decide, by decide, fun _ _ => rfl⟩
    simp [demoCnf, ConjGround, h1, h2]
  · intro d hd
    simp only [demoCnf, List.mem_cons, List.not_mem_nil, or_false] at hd
    rcases hd with rfl | rfl
    · exact Or.inl ⟨inhand a, by simp⟩
    · exact Or.inl ⟨on a b, by simp⟩

/-- **C92, refuted for an empty disjunction:** it is true in no state, but is left out, so that the rest, or the empty (true)
formula, is returned. -/
theorem C92_empty_refuted :
    P.createCnf 5 [⟨State.ofList [inhand a], State.empty⟩, PartialState.empty] false =
      .ok (some [⟨State.ofList [inhand a], State.empty⟩]) ∧
    P.createCnf 5 [PartialState.empty] false = .ok (some []) ∧
    ∀ S, ¬ DisjTrue (tree.constants ++ tree.objects) S PartialState.empty := by
  refine ⟨by decide +kernel, by decide +kernel, ?_⟩
  rintro S (⟨a, ha, -⟩ | ⟨a, ha, -⟩) <;> simp [PartialState.empty] at ha

end

end Symbolic
