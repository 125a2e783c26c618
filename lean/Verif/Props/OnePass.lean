import Verif.Lemmas.OnePass
import Verif.Props.AxiomOne
import Verif.Props.Cascade
import Verif.Props.Closure

/-!
# C96: applying each axiom once makes all of them hold
-/

namespace Symbolic

section
variable [StrHash] {t : Ptree} {P : Pddl}

/-- **C96, partial.** `axiom.Apply(&s)` returns for every State, and afterwards the axiom holds for all type-correct
arguments; axioms that held before still hold. It returns false exactly if it changes nothing.

Missing for the full claim: axioms that undo each other, or themselves (`C96_undo_refuted`); conditions of effects about
predicates that axioms change (`C96_condition_refuted`); axioms narrower than their context, see `C33_narrow_axiom_refuted`. -/
theorem C96_apply_partial (b : Bool) (n : Nat) (hP : Pddl.make t b n = .ok P) (up : Name → List Name) (ht : t.TypeChecked up)
    (hp : t.PlainEffects) (hu : t.NoUndoing) (hs : t.StaticConds) (hc : t.ContextsClosed) :
    ∃ N, ∀ fuel, N ≤ fuel → ∀ ax ∈ P.axioms, ∀ s : State, ∃ c s', ax.apply P.omap P.axioms fuel s = .ok (c, s') ∧
      (∀ os, WellTyped (t.constants ++ t.objects) ax.op.params os → ax.op.HoldsFor (t.constants ++ t.objects) (· ∈ s') os) ∧
      (∀ op ∈ t.ops, op.isAxiom = true → ∀ os, WellTyped (t.constants ++ t.objects) op.params os →
        op.HoldsFor (t.constants ++ t.objects) (· ∈ s) os → op.HoldsFor (t.constants ++ t.objects) (· ∈ s') os) ∧
      (c = false ↔ s' = s) := by
  have h : OnePassTree t up := ⟨ht, hp, hu, hs, hc⟩
  have B := Pddl.built hP
  refine ⟨(declaredLits (t.constants ++ t.objects) t.preds).length, fun fuel hn ax hm s => ?_⟩
  obtain ⟨c, s', e, h1, -⟩ := h.apply B hn hm s (h.settled s)
  obtain ⟨ho, ha, -⟩ := B.ax hm
  refine ⟨c, s', e, fun os hw => h.holds B h1 ho ha hw fun hT => hT.2 rfl, fun op hop hoa os hw hh =>
    h.holds B h1 hop hoa hw fun hT => hT.1 hh, ?_, ?_⟩
  · rintro rfl
    exact (C93_apply P ax fuel s).2 s' e
  · rintro rfl
    obtain ⟨c', s₂, e', -, h2⟩ := h.apply B hn hm s' h1
    rw [e, Res.ok.injEq, Prod.mk.injEq] at e'
    exact e'.1 ▸ (h2 fun as hT => hT.2 rfl).1

/-- Each of the axioms is applied once, in this order. -/
inductive AppliedOnce (P : Pddl) (fuel : Nat) : List Ax → State → State → Prop
  | nil (s : State) : AppliedOnce P fuel [] s s
  | cons {ax : Ax} {l : List Ax} {s s' s'' : State} {c : Bool} : ax.apply P.omap P.axioms fuel s = .ok (c, s') →
      AppliedOnce P fuel l s' s'' → AppliedOnce P fuel (ax :: l) s s''

theorem appliedOnce_pass {fuel : Nat} : ∀ (l : List Ax) (s : State) (r : Bool × State),
    Pddl.consistentPass P.omap P.axioms fuel l s = .ok r → AppliedOnce P fuel l s r.2
  | [], s, r, h => by
    simp only [Pddl.consistentPass, Res.ok.injEq] at h
    subst h
    exact .nil s
  | ax :: l, s, r, h => by
    simp only [Pddl.consistentPass] at h
    obtain ⟨⟨c, s₁⟩, h1, h⟩ := Res.bind_eq_ok.1 h
    obtain ⟨⟨c', s₂⟩, h2, h⟩ := Res.bind_eq_ok.1 h
    cases h
    exact .cons h1 (appliedOnce_pass l s₁ (c', s₂) h2)

/-- **C96, partial.** `ConsistentState(s)` returns for every State, also if axioms trigger themselves; the result is that of
applying every axiom once, in the order of declaration, and all axioms hold in it. -/
theorem C96_consistent_partial (b : Bool) (n : Nat) (hP : Pddl.make t b n = .ok P) (up : Name → List Name) (ht : t.TypeChecked up)
    (hp : t.PlainEffects) (hu : t.NoUndoing) (hs : t.StaticConds) (hc : t.ContextsClosed) :
    ∃ N, ∀ fuel, N ≤ fuel → ∀ s : State, ∃ s', P.consistentState fuel s = .ok s' ∧ AppliedOnce P fuel P.axioms s s' ∧
      AxiomsHold (t.constants ++ t.objects) t.ops (· ∈ s') := by
  have h : OnePassTree t up := ⟨ht, hp, hu, hs, hc⟩
  have B := Pddl.built hP
  refine ⟨max 2 (declaredLits (t.constants ++ t.objects) t.preds).length, fun fuel hn s => ?_⟩
  obtain ⟨c, s', e, h1, -⟩ := h.pass B (by omega : _ ≤ fuel) P.axioms s _ (fun _ h => h) (h.settled s)
  have hdone : ∀ o ∈ t.ops, o.isAxiom = true → ∃ ax ∈ P.axioms, o = ax.op := fun o ho ha => by
    obtain ⟨ax, hm, rfl⟩ := B.axiom_mem ho ha
    exact ⟨ax, hm, rfl⟩
  have h2 : SettledBut t s' fun _ _ => False := fun o ho ha as hw hv =>
    (h1 o ho ha as hw hv).imp id fun hT => hT.2 (hdone o ho ha)
  obtain ⟨c', s₂, e', -, h3⟩ := h.pass B (by omega : _ ≤ fuel) P.axioms s' _ (fun _ h => h) h2
  obtain ⟨rfl, rfl⟩ := h3 fun _ _ h => h
  refine ⟨s₂, ?_, appliedOnce_pass P.axioms s _ e, fun o ho ha os hw => h.holds B h2 ho ha hw fun h => h⟩
  obtain ⟨k, rfl⟩ : ∃ k, fuel = k + 2 := ⟨fuel - 2, by omega⟩
  rw [Pddl.consistentState, Pddl.consistentFix, e]
  simp only [Res.bind_ok]
  cases c
  · rfl
  · simp only [if_true]
    rw [Pddl.consistentFix, e']
    rfl

end

/-! ## Examples -/

section
open Demo
attribute [local instance] lenHash

theorem demo_static : tree.StaticConds := by
  intro ax hm ha p hr
  simp only [tree, List.mem_cons, List.not_mem_nil, or_false] at hm
  rcases hm with rfl | rfl | rfl
  · simp [pick] at ha
  · simp [place] at ha
  · simp [held, Eff.Reads, FList.Reads, CList.Reads] at hr

theorem demo_contexts : tree.ContextsClosed := by
  intro ax hm ha c hc
  simp only [tree, List.mem_cons, List.not_mem_nil, or_false] at hm
  rcases hm with rfl | rfl | rfl
  · simp [pick] at ha
  · simp [place] at ha
  · simp [held, Goal.HasConst] at hc

/-- In the demo domain, with facts that violate the axiom. -/
example : (∃ N, ∀ fuel, N ≤ fuel → ∀ s : State, ∃ s', P.consistentState fuel s = .ok s' ∧ AppliedOnce P fuel P.axioms s s' ∧
    AxiomsHold (tree.constants ++ tree.objects) tree.ops (· ∈ s')) ∧
    P.consistentState 5 (State.ofList [inhand a, on a table, on b a]) = .ok (State.ofList [inhand a, on b a]) :=
  ⟨C96_consistent_partial true 5 P_made demoUp demo_checked demo_plain demo_noUndoing demo_static demo_contexts,
    by decide +kernel⟩

/-- Axiom `(near ?x ?u) => (near ?u ?x)`, which triggers itself. -/
def symm : Op where
  name := n!"axiom"
  params := [x, u]
  pre := .atom n!"near" [.var x, .var u]
  eff := .mk .nil [(n!"near", [.var u, .var x])] [] .nil
  isAxiom := true

def symmTree : Ptree :=
  { tree with ops := [symm], preds := [⟨n!"near", [x, u]⟩], drvs := [], init := [], goal := .conj [] }

theorem symmMade : (Pddl.make symmTree true 5).isOk = true := by decide +kernel
def symmP : Pddl := get _ symmMade
theorem symmP_made : Pddl.make symmTree true 5 = .ok symmP := get_eq _ _

theorem symm_checked : symmTree.TypeChecked demoUp where
  hier := demo_checked.hier
  names := demo_checked.names
  objects := demo_checked.objects
  predNames := by decide
  preds := by
    intro d hd p hp
    simp only [symmTree, List.mem_singleton] at hd
    subst hd
    simp only [List.mem_cons, List.not_mem_nil, or_false] at hp
    rcases hp with rfl | rfl <;> exact Or.inr (by decide)
  ops := by
    intro op hop
    simp only [symmTree, List.mem_singleton] at hop
    subst hop
    refine ⟨by decide, ?_, ?_, ?_, ?_, fun _ => ⟨by simp [symm], ?_, ?_, ?_⟩⟩
    · simp [symm, Obj.Fits, x, u, demoUp, Obj.typeName, tBox]
    · simp [symm, Eff.Formed, FList.Formed, CList.Formed, AtomLits, Goal.WF, Term.Scoped, IsType, HasType, symmTree, tree,
        a, b, table, tBox, tObj]
    · simp [symm, Eff.Fresh, FList.Fresh, CList.Fresh]
    · simp [symm, Eff.Checked, FList.Checked, CList.Checked, LitsChecked, Term.IsA, symmTree, HasType, x, u, Obj.typeName, tBox]
    · simp [symm, Goal.WF, Term.Scoped, IsType, HasType, symmTree, tree, a, b, table, tBox, tObj]
    · constructor <;> simp [symm, Op.ctx, Term.Scoped, varNames, x, u]
    · refine ⟨⟨n!"near", [x, u]⟩, by simp [symmTree], rfl, .cons ?_ (.cons ?_ .nil)⟩ <;>
        simp [symm, HasType, x, u, Obj.typeName, tBox]
  drvs := by simp [symmTree]
  init := by simp [symmTree]

theorem symm_plain : symmTree.PlainEffects := by
  intro op hop
  simp only [symmTree, List.mem_singleton] at hop
  subst hop
  simp [symm, Eff.WF, FList.WF, CList.WF, WFLits, Term.Scoped, IsType, HasType, symmTree, tree, a, b, table, tBox, tObj]

/-- Near things are made near in both directions. -/
example : (∃ N, ∀ fuel, N ≤ fuel → ∀ ax ∈ symmP.axioms, ∀ s : State, ∃ c s', ax.apply symmP.omap symmP.axioms fuel s = .ok (c, s') ∧
      (∀ os, WellTyped (symmTree.constants ++ symmTree.objects) ax.op.params os →
        ax.op.HoldsFor (symmTree.constants ++ symmTree.objects) (· ∈ s') os) ∧
      (∀ op ∈ symmTree.ops, op.isAxiom = true → ∀ os, WellTyped (symmTree.constants ++ symmTree.objects) op.params os →
        op.HoldsFor (symmTree.constants ++ symmTree.objects) (· ∈ s) os →
        op.HoldsFor (symmTree.constants ++ symmTree.objects) (· ∈ s') os) ∧ (c = false ↔ s' = s)) ∧
    symmP.consistentState 5 (State.ofList [near a b]) = .ok (State.ofList [near a b, near b a]) := by
  refine ⟨C96_apply_partial true 5 symmP_made demoUp symm_checked symm_plain ?_ ?_ ?_, by decide +kernel⟩
  · rintro p ⟨-, op, ho, -, ht⟩
    simp only [symmTree, List.mem_singleton] at ho
    subst ho
    simp [symm, Eff.Touches, FList.Touches, CList.Touches, ListsPred] at ht
  · intro op ho _ p hr
    simp only [symmTree, List.mem_singleton] at ho
    subst ho
    simp [symm, Eff.Reads, FList.Reads, CList.Reads] at hr
  · intro op ho _ c hc
    simp only [symmTree, List.mem_singleton] at ho
    subst ho
    simp [symm, Goal.HasConst] at hc

/-- Axiom `(near ?x ?u) => (inhand ?x), (not (inhand ?u))`. -/
def takes : Op where
  name := n!"axiom"
  params := [x, u]
  pre := .atom n!"near" [.var x, .var u]
  eff := .mk .nil [(n!"inhand", [.var x])] [(n!"inhand", [.var u])] .nil
  isAxiom := true

/-- Axiom `(ready ?y) => (forall (?u) (when (and (hot ?u) (on ?u ?y)) (hot ?y)))`. -/
def heats : Op where
  name := n!"axiom"
  params := [y]
  pre := .atom n!"ready" [.var y]
  eff := .mk (.cons [u] (.mk .nil [] [] (.cons (.conj [.atom n!"hot" [.var u], .atom n!"on" [.var u, .var y]])
    (.mk .nil [(n!"hot", [.var y])] [] .nil) .nil)) .nil) [] [] .nil
  isAxiom := true

def onceTree (ax : Op) : Ptree :=
  { tree with ops := [ax], drvs := [], init := [], goal := .conj []
              preds := [⟨n!"near", [x, u]⟩, ⟨n!"inhand", [x]⟩, ⟨n!"on", [x, y]⟩, ⟨n!"ready", [y]⟩, ⟨n!"hot", [y]⟩] }

/-- `axiom.Apply(&s)` with the only axiom of the Pddl, and then `axiom.IsConsistent(s)`. -/
def applyThenCheck (ax : Op) (s : State) : Res (Bool × Bool) := do
  let P ← Pddl.make (onceTree ax) false 5
  match P.axioms with
  | [ax] => do
    let r ← ax.apply P.omap P.axioms 5 s
    let v ← ax.isConsistent P.omap P.axioms 5 r.2
    pure (r.1, v)
  | _ => .ub

/-- **C96, refuted** for an axiom one instance of which undoes what another one does. -/
theorem C96_undo_refuted : applyThenCheck takes (State.ofList [near a b, near b a]) = .ok (true, false) := by decide +kernel

/-- **C96, refuted** if conditions of effects are about predicates that the axiom changes: an instance is passed before its
condition becomes true, and nothing triggers it again. -/
theorem C96_condition_refuted : (onceTree heats).NoUndoing ∧
    applyThenCheck heats (State.ofList [⟨n!"ready", [n!"table"]⟩, ⟨n!"ready", [n!"a"]⟩, ⟨n!"hot", [n!"b"]⟩, on b a, on a table]) =
      .ok (true, false) := by
  refine ⟨?_, by decide +kernel⟩
  rintro p ⟨-, op, ho, -, ht⟩
  simp only [onceTree, List.mem_singleton] at ho
  subst ho
  simp [heats, Eff.Touches, FList.Touches, CList.Touches, ListsPred] at ht

end

end Symbolic
