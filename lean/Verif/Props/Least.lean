import Verif.Lemmas.Least
import Verif.Lemmas.SameObjects
import Verif.Props.Axioms
import Verif.Props.Partial
import Verif.Props.Closure
import Verif.Props.TypeSound

/-!
# C78: ConsistentState makes the least change
-/

namespace Symbolic

section
variable [StrHash] {t : Ptree} {P : Pddl}

theorem Pddl.Built.leads (B : P.Built t) {sig : Name → List Name} (hax : AxiomsSorted (t.constants ++ t.objects) sig t.ops)
    (hp : Persistent t.ops) {S T : Atom → Prop} (hT : AxiomsHold (t.constants ++ t.objects) t.ops T)
    (hw : ChangesWithin (fun sign x => AxiomTouches t.ops sign x.pred) S T) :
    ∀ ax ∈ P.axioms, Leads (t.constants ++ t.objects) sig S T ax := by
  intro ax hm
  obtain ⟨hop, ha, hc, -⟩ := B.ax hm
  have key : ∀ b p, ax.op.pre.Occurs b p ∨ ax.op.eff.Tests b p → Follows S T b p := by
    rintro b p h x rfl
    have h1 := hp ax.op hop ha b x.pred h
    refine ⟨?_, ?_⟩
    · rintro rfl hS
      exact Classical.byContradiction fun hT => h1 ((hw x).2 hS hT)
    · rintro rfl hT
      exact Classical.byContradiction fun hS => h1 ((hw x).1 hT hS)
  exact ⟨⟨(hax _ hop ha).1, hc⟩, fun os ho => hT _ hop ha os ho, fun b p h => key b p (.inl h), fun b p h => key b p (.inr h)⟩

end

/-- **C78, partial.** In a domain with persistent axioms, `ConsistentState` makes the least change after which the axioms
hold.

Missing for the full claim: axioms that undo what makes axioms apply, see `C78_order_refuted`, and the conditions under which
triggered axioms are matched correctly, see `C78_narrow_axiom_refuted`. -/
theorem C78_least_change_partial [StrHash] (t : Ptree) (b : Bool) (n : Nat) (P : Pddl) (hP : Pddl.make t b n = .ok P)
    (hnd : ((t.constants ++ t.objects).map Obj.name).Nodup) (sig : Name → List Name)
    (hax : AxiomsSorted (t.constants ++ t.objects) sig t.ops) (hp : Persistent t.ops) (fuel : Nat) (s s' : State)
    (h : P.consistentState fuel s = .ok s') :
    LeastChange (t.constants ++ t.objects) t.ops (· ∈ s) (· ∈ s') := by
  have B := Pddl.built hP
  refine ⟨?_, ?_, fun T hT hw => ?_⟩
  · exact (C32_valid_iff_axioms_hold t b n P hP hnd (fun op ho ha => ⟨(hax op ho ha).1.formed, (hax op ho ha).2⟩) fuel s').1
      (C31_consistent_state_is_valid P fuel s s' h fuel (Nat.le_refl _)).1
  · refine consistentFix_within (A := AxiomTouches t.ops) (fun ax hm sign p ht => ?_) h
    obtain ⟨h1, h2, -⟩ := B.ax hm
    exact ⟨ax.op, h1, h2, ht⟩
  · rw [Pddl.consistentState, B.omap] at h
    have hon := consistentFix_on (S := (· ∈ s)) (T := T) (B.leads hax hp hT hw) B.typedArgs
      (fun x => ⟨fun h _ => h, fun h _ => h⟩) h
    intro x
    obtain ⟨h1, h2⟩ := hon x
    exact ⟨fun h3 h4 => Classical.byContradiction fun h5 => h2 h3 h5 h4, fun h3 h4 h5 => h4 (h1 h3 h5)⟩

/-- There is at most one least change. -/
theorem LeastChange.unique {objects : List Obj} {ops : List Op} {S S₁ S₂ : Atom → Prop}
    (h₁ : LeastChange objects ops S S₁) (h₂ : LeastChange objects ops S S₂) (x : Atom) : S₁ x ↔ S₂ x := by
  have k1 := h₁.least S₂ h₂.holds h₂.within x
  have k2 := h₂.least S₁ h₁.holds h₁.within x
  by_cases hS : S x <;> by_cases hA : S₁ x <;> by_cases hB : S₂ x <;> simp_all

theorem axiomsHold_congr {os₁ os₂ : List Obj} (ho : ∀ o, o ∈ os₁ ↔ o ∈ os₂) {ops₁ ops₂ : List Op}
    (hop : ∀ op : Op, op.isAxiom = true → (op ∈ ops₁ ↔ op ∈ ops₂)) (S : Atom → Prop) :
    AxiomsHold os₁ ops₁ S ↔ AxiomsHold os₂ ops₂ S := by
  simp only [AxiomsHold, Op.HoldsFor, wellTyped_congr ho, sat_objects ho, Eff.says_objects ho]
  constructor
  · exact fun h op hm ha => h op ((hop op ha).2 hm) ha
  · exact fun h op hm ha => h op ((hop op ha).1 hm) ha

theorem axiomTouches_congr {ops₁ ops₂ : List Op} (hop : ∀ op : Op, op.isAxiom = true → (op ∈ ops₁ ↔ op ∈ ops₂)) (sign : Bool)
    (p : Name) : AxiomTouches ops₁ sign p ↔ AxiomTouches ops₂ sign p := by
  constructor
  · rintro ⟨op, h1, h2, h3⟩; exact ⟨op, (hop op h2).1 h1, h2, h3⟩
  · rintro ⟨op, h1, h2, h3⟩; exact ⟨op, (hop op h2).2 h1, h2, h3⟩

/-- **C78, partial.** Hence the order in which objects and axioms are declared does not matter, nor in which file, or how
often: two Pddls with the same objects and the same axioms make the same state consistent in the same way. -/
theorem C78_order_partial [StrHash] (t₁ t₂ : Ptree) (b₁ b₂ : Bool) (n₁ n₂ : Nat) (P₁ P₂ : Pddl)
    (hP₁ : Pddl.make t₁ b₁ n₁ = .ok P₁) (hP₂ : Pddl.make t₂ b₂ n₂ = .ok P₂)
    (hnd₁ : ((t₁.constants ++ t₁.objects).map Obj.name).Nodup) (hnd₂ : ((t₂.constants ++ t₂.objects).map Obj.name).Nodup)
    (ho : ∀ o, o ∈ t₁.constants ++ t₁.objects ↔ o ∈ t₂.constants ++ t₂.objects)
    (hop : ∀ op : Op, op.isAxiom = true → (op ∈ t₁.ops ↔ op ∈ t₂.ops)) (sig₁ sig₂ : Name → List Name)
    (hax₁ : AxiomsSorted (t₁.constants ++ t₁.objects) sig₁ t₁.ops)
    (hax₂ : AxiomsSorted (t₂.constants ++ t₂.objects) sig₂ t₂.ops) (hp : Persistent t₁.ops) (k₁ k₂ : Nat)
    (s s₁ s₂ : State) (h₁ : P₁.consistentState k₁ s = .ok s₁) (h₂ : P₂.consistentState k₂ s = .ok s₂) : s₁ = s₂ := by
  have hp₂ : Persistent t₂.ops := by
    intro op hm ha b p h
    rw [← axiomTouches_congr hop]
    exact hp op ((hop op ha).2 hm) ha b p h
  have l₁ := C78_least_change_partial t₁ b₁ n₁ P₁ hP₁ hnd₁ sig₁ hax₁ hp k₁ s s₁ h₁
  have l₂ := C78_least_change_partial t₂ b₂ n₂ P₂ hP₂ hnd₂ sig₂ hax₂ hp₂ k₂ s s₂ h₂
  refine State.ext fun x => l₁.unique ⟨?_, ?_, fun T hT hw => l₂.least T ?_ ?_⟩ x
  · rw [axiomsHold_congr ho hop]; exact l₂.holds
  · simp only [axiomTouches_congr hop]; exact l₂.within
  · rw [← axiomsHold_congr ho hop]; exact hT
  · simp only [axiomTouches_congr hop] at hw; exact hw

/-- **C78, partial.** The initial state of a Pddl made with `apply_axioms` is the least change of the declared one. -/
theorem C78_initial_partial [StrHash] (t : Ptree) (n : Nat) (P : Pddl) (hP : Pddl.make t true n = .ok P)
    (hnd : ((t.constants ++ t.objects).map Obj.name).Nodup) (sig : Name → List Name)
    (hax : AxiomsSorted (t.constants ++ t.objects) sig t.ops) (hp : Persistent t.ops) :
    LeastChange (t.constants ++ t.objects) t.ops (· ∈ t.init) (· ∈ P.initial) := by
  have h0 : ∃ s', P.consistentState n (State.ofList t.init) = .ok s' ∧ P.initial = s' := by
    simp only [Pddl.make, Res.bind_eq_ok] at hP
    obtain ⟨axs0, h1, _, h2, _, h3, h4⟩ := hP
    split at h4
    · cases h4
    simp only [Res.bind_eq_ok, if_true, Res.pure_eq, Res.ok.injEq] at h4
    obtain ⟨_, h5, axs, h6, _, h7, s', h8, rfl⟩ := h4
    exact ⟨s', h8, rfl⟩
  obtain ⟨s', h1, rfl⟩ := h0
  have := C78_least_change_partial t true n P hP hnd sig hax hp n _ _ h1
  simpa only [State.mem_ofList] using this

section
open Demo
attribute [local instance] lenHash

/-- The axiom of the demo domain tests what no axiom deletes. -/
theorem demo_persistent : Persistent tree.ops := by
  have hh : ∀ op ∈ tree.ops, op.isAxiom = true → op = held := by
    intro op hop ha
    simp only [tree, List.mem_cons, List.not_mem_nil, or_false] at hop
    rcases hop with rfl | rfl | rfl
    · simp [pick] at ha
    · simp [place] at ha
    · rfl
  intro op hop ha b p h
  rw [hh op hop ha] at h
  rintro ⟨op', ho', ha', ht⟩
  rw [hh op' ho' ha'] at ht
  simp [held, Goal.Occurs, Eff.Tests, FList.Tests, CList.Tests] at h
  obtain ⟨rfl, rfl⟩ := h
  simp [held, Eff.Touches, FList.Touches, CList.Touches, ListsPred] at ht

/-- A box in the hand is taken off whatever it was on, and nothing else happens. -/
example : P.consistentState 5 (State.ofList [inhand a, on a table, on b table]) =
      .ok (State.ofList [inhand a, on b table]) ∧
    LeastChange (tree.constants ++ tree.objects) tree.ops (· ∈ State.ofList [inhand a, on a table, on b table])
      (· ∈ State.ofList [inhand a, on b table]) :=
  ⟨by decide +kernel, C78_least_change_partial tree true 5 P P_made (by decide) demoSig demo_sorted demo_persistent 5 _ _
    (by decide +kernel)⟩

/-- `(inhand ?x) => (not (busy ?x))` and `(busy ?x) => (not (inhand ?x))`. -/
def notBusy : Op := ⟨n!"axiom", [x], .atom n!"inhand" [.var x], .mk .nil [] [(n!"busy", [.var x])] .nil, true⟩
def notHeld : Op := ⟨n!"axiom", [x], .atom n!"busy" [.var x], .mk .nil [] [(n!"inhand", [.var x])] .nil, true⟩
def axTree₁ : Ptree := { tree with ops := [notBusy, notHeld], drvs := [] }
def axTree₂ : Ptree := { tree with ops := [notHeld, notBusy], drvs := [] }

theorem axMade₁ : (Pddl.make axTree₁ true 5).isOk = true := by decide +kernel
def axP₁ : Pddl := get _ axMade₁
theorem axP₁_made : Pddl.make axTree₁ true 5 = .ok axP₁ := get_eq _ _
theorem axMade₂ : (Pddl.make axTree₂ true 5).isOk = true := by decide +kernel
def axP₂ : Pddl := get _ axMade₂
theorem axP₂_made : Pddl.make axTree₂ true 5 = .ok axP₂ := get_eq _ _

/-- **C78, refuted** for axioms that undo what makes axioms apply: with two axioms that say the same, that a box is not both
in the hand and busy, the one that is declared first decides what remains. -/
theorem C78_order_refuted :
    (∀ op, op ∈ axTree₁.ops ↔ op ∈ axTree₂.ops) ∧
    axP₁.consistentState 5 (State.ofList [inhand a, busyA a]) = .ok (State.ofList [inhand a]) ∧
    axP₂.consistentState 5 (State.ofList [inhand a, busyA a]) = .ok (State.ofList [busyA a]) := by
  refine ⟨fun op => ?_, by decide +kernel, by decide +kernel⟩
  simp only [axTree₁, axTree₂, List.mem_cons, List.not_mem_nil, or_false]
  exact Or.comm

/-- For boxes `?x`: `(inhand ?x) => (on ?x table)`. -/
def putDown : Op := ⟨n!"axiom", [x], .atom n!"inhand" [.var x], .mk .nil [(n!"on", [.var x, .const table])] [] .nil, true⟩
/-- For boxes `?x ?u`: `(on ?x ?u) => (busy ?u)`. -/
def loaded : Op := ⟨n!"axiom", [x, u], .atom n!"on" [.var x, .var u], .mk .nil [(n!"busy", [.var u])] [] .nil, true⟩
def putDownTree : Ptree := { tree with ops := [putDown, loaded], drvs := [], init := [] }

theorem putDownMade : (Pddl.make putDownTree true 5).isOk = true := by decide +kernel
def putDownP : Pddl := get _ putDownMade
theorem putDownP_made : Pddl.make putDownTree true 5 = .ok putDownP := get_eq _ _

/-- **C78, refuted** for axioms that are declared for fewer objects than their context: `(on ?x ?u) => (busy ?u)` for boxes
is also applied to the table, although the axioms already hold without `busy(table)`. -/
theorem C78_narrow_axiom_refuted :
    Persistent putDownTree.ops ∧
    putDownP.consistentState 5 (State.ofList [inhand a]) = .ok (State.ofList [inhand a, on a table, busyA table]) ∧
    AxiomsHold (putDownTree.constants ++ putDownTree.objects) putDownTree.ops (· ∈ State.ofList [inhand a, on a table]) := by
  have hf : ∀ op ∈ putDownTree.ops, op.isAxiom = true → op.Formed (putDownTree.constants ++ putDownTree.objects) ∧
      ∀ c, op.pre.HasConst c → c ∈ putDownTree.constants ++ putDownTree.objects := by
    intro op hop _
    simp only [putDownTree, List.mem_cons, List.not_mem_nil, or_false] at hop
    rcases hop with rfl | rfl
    · refine ⟨⟨by simp [putDown], ?_, ?_⟩, ?_⟩
      · simp [putDown, Goal.WF, Term.Scoped, IsType, HasType, putDownTree, tree, a, b, table, tBox, tObj]
      · simp [putDown, Eff.Formed, FList.Formed, CList.Formed, AtomLits, Goal.WF, Term.Scoped, IsType, HasType, putDownTree, tree, a,
          b, table, tBox, tObj, x]
      · simp [putDown, Goal.HasConst]
    · refine ⟨⟨by simp [loaded], ?_, ?_⟩, ?_⟩
      · simp [loaded, Goal.WF, Term.Scoped, IsType, HasType, putDownTree, tree, a, b, table, tBox, tObj]
      · simp [loaded, Eff.Formed, FList.Formed, CList.Formed, AtomLits, Goal.WF, Term.Scoped, IsType, HasType, putDownTree, tree, a,
          b, table, tBox, tObj]
      · simp [loaded, Goal.HasConst]
  refine ⟨?_, by decide +kernel, ?_⟩
  · intro op hop ha b p h
    rintro ⟨op', ho', ha', ht⟩
    have hb : b = true := by
      simp only [putDownTree, List.mem_cons, List.not_mem_nil, or_false] at hop
      rcases hop with rfl | rfl <;>
        simp [putDown, loaded, Goal.Occurs, Eff.Tests, FList.Tests, CList.Tests] at h <;> exact h.1
    subst hb
    simp only [putDownTree, List.mem_cons, List.not_mem_nil, or_false] at ho'
    rcases ho' with rfl | rfl <;> simp [putDown, loaded, Eff.Touches, FList.Touches, CList.Touches, ListsPred] at ht
  · exact (C32_valid_iff_axioms_hold putDownTree true 5 putDownP putDownP_made (by decide) hf 5 _).1 (by decide +kernel)

end

end Symbolic
