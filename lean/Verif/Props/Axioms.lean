import Verif.Lemmas.AxiomState
import Verif.Lemmas.Prepare
import Verif.Examples.Demo

/-!
# C31, C32: axioms on complete states
-/

namespace Symbolic

/-! ## C31 -/

/-- **C31.** If `ConsistentState(s)` returns `s'`, then `IsValidState(s')` is true and `ConsistentState(s')` returns `s'`;
for every Pddl, no assumption on its axioms. -/
theorem C31_consistent_state_is_valid [StrHash] (P : Pddl) (n : Nat) (s s' : State)
    (h : P.consistentState n s = .ok s') :
    ∀ k, n ≤ k → P.isValidState k s' = .ok true ∧ P.consistentState k s' = .ok s' := by
  intro k hk
  have hq : AllQuiet P.omap P.axioms k P.axioms s' := (consistentFix_ok n s s' h).mono hk
  have hn : n ≠ 0 := by
    rintro rfl
    simp [Pddl.consistentState, Pddl.consistentFix] at h
  obtain ⟨j, rfl⟩ : ∃ j, k = j + 1 := ⟨k - 1, by omega⟩
  exact ⟨(validLoop_iff _).2 hq, consistentFix_quiet hq⟩

/-- **C31.** If `IsValidState(s)` is true then `ConsistentState(s)` returns `s`. -/
theorem C31_valid_state_is_consistent [StrHash] (P : Pddl) (n : Nat) (s : State) (h : P.isValidState n s = .ok true) :
    ∀ k, n < k → P.consistentState k s = .ok s := by
  intro k hk
  obtain ⟨j, rfl⟩ : ∃ j, k = j + 1 := ⟨k - 1, by omega⟩
  exact consistentFix_quiet (((validLoop_iff _).1 h).mono (Nat.le_of_lt hk))

section
open Demo
attribute [local instance] lenHash

/-- The axiom of the demo domain removes `on(a, table)` when `a` is in the hand. -/
example : P.consistentState 5 (State.ofList [inhand a, on a table, on b table]) =
    .ok (State.ofList [inhand a, on b table]) := by decide +kernel

example : P.isValidState 5 (State.ofList [inhand a, on b table]) = .ok true := by decide +kernel

example : P.isValidState 5 (State.ofList [inhand a, on a table]) = .ok false := by decide +kernel

end

/-! ## C32 -/

theorem forall₂_right {α β : Type} {R : α → β → Prop} : ∀ {l : List α} {l' : List β}, List.Forall₂ R l l' →
    ∀ a ∈ l, ∃ b ∈ l', R a b
  | _, _, .nil, a, h => by simp at h
  | _, _, .cons h1 h2, a, h => by
    rcases List.mem_cons.1 h with rfl | h
    · exact ⟨_, by simp, h1⟩
    · obtain ⟨b, hb, hr⟩ := forall₂_right h2 a h
      exact ⟨b, by simp [hb], hr⟩

theorem quiet_iff_holds [StrHash] {objects : List Obj} {axs : List Ax} {fuel : Nat} {ax : Ax}
    (hf : ax.op.Formed objects) {as : List Obj} (hw : WellTyped objects ax.op.params as) (s : State) :
    QuietInst (ObjMap.create objects) axs fuel ax s as ↔ ax.op.HoldsFor objects (· ∈ s) as := by
  obtain ⟨v, h1, h2⟩ := eval_sat objects s ax.op.pre ax.op.params as hw.length hf.pre
  have h3 := Eff.apply_says (fire := fireN (ObjMap.create objects) axs fuel) ax.op.eff ax.op.params as s hw.length hf.eff
  rw [QuietInst, Op.isValid, h1, Op.HoldsFor, ← h2, ← h3, Op.apply]
  cases v <;> simp

/-- **C32.** For a Pddl whose axioms are well formed and have parameters, `IsValidState(s)` is true iff for every
axiom and every type-correct argument list, if the context is true in `s` then the implication, read as a formula, is true
in `s`. -/
theorem C32_valid_iff_axioms_hold [StrHash] (t : Ptree) (b : Bool) (n : Nat) (P : Pddl)
    (hP : Pddl.make t b n = .ok P) (hnd : ((t.constants ++ t.objects).map Obj.name).Nodup)
    (hax : ∀ op ∈ t.ops, op.isAxiom = true → op.Formed (t.constants ++ t.objects) ∧
      ∀ c, op.pre.HasConst c → c ∈ t.constants ++ t.objects) (fuel : Nat) (s : State) :
    P.isValidState fuel s = .ok true ↔ AxiomsHold (t.constants ++ t.objects) t.ops (· ∈ s) := by
  have B := Pddl.built hP
  rw [Pddl.isValidState, validLoop_iff, B.omap]
  constructor
  · intro h op hop ha os hw
    obtain ⟨ax, hm, axs, hmk⟩ := forall₂_right B.axioms op (by simp [hop, ha])
    obtain ⟨-, rfl, -⟩ := Ax.make_ok hmk
    obtain ⟨hf, hc⟩ := hax _ hop ha
    by_cases hin : os ∈ ax.arguments
    · exact (quiet_iff_holds hf hw s).1 (h ax hm os hin)
    · intro hs
      exact absurd hs ((B.arguments hnd hm hf.params hf.pre hc).2 os hw hin _)
  · intro h ax hm as has
    obtain ⟨hop, ha, -⟩ := B.ax hm
    obtain ⟨hf, hc⟩ := hax _ hop ha
    have hw := (B.arguments hnd hm hf.params hf.pre hc).1 as has
    exact (quiet_iff_holds hf hw s).2 (h _ hop ha as hw)

section
open Demo
attribute [local instance] lenHash

/-- The axiom of the demo domain is well formed. -/
example : ∀ op ∈ tree.ops, op.isAxiom = true → op.Formed (tree.constants ++ tree.objects) ∧
      ∀ c, op.pre.HasConst c → c ∈ tree.constants ++ tree.objects := by
  intro op hop ha
  simp only [tree, List.mem_cons, List.not_mem_nil, or_false] at hop
  rcases hop with rfl | rfl | rfl
  · simp [pick] at ha
  · simp [place] at ha
  · refine ⟨⟨by simp [held], ?_, ?_⟩, ?_⟩
    · simp [held, Goal.WF, Term.Scoped, IsType, HasType, tree, a, b, table, tBox, tObj]
    · simp [held, Eff.Formed, FList.Formed, CList.Formed, AtomLits, Goal.WF, Term.Scoped, IsType, HasType, tree, a, b,
        table, tBox, tObj]
    · simp [held, Goal.HasConst]

/-- An axiom without parameters, `(on a b) => (on b a)`. -/
def nullAx : Op := ⟨n!"axiom", [], .atom n!"on" [.const a, .const b], .mk .nil [(n!"on", [.const b, .const a])] [] .nil,
  true⟩
def nullTree : Ptree := { tree with ops := [nullAx], drvs := [], init := [on a b] }

theorem nullMade : (Pddl.make nullTree true 5).isOk = true := by decide +kernel
def nullP : Pddl := get _ nullMade
theorem nullP_made : Pddl.make nullTree true 5 = .ok nullP := get_eq _ _

/-- **C32, refuted for axioms without parameters:** they are never checked. -/
theorem C32_nullary_axiom_refuted :
    nullP.isValidState 5 (State.ofList [on a b]) = .ok true ∧
    nullP.initial = State.ofList [on a b] ∧
    ¬ AxiomsHold (nullTree.constants ++ nullTree.objects) nullTree.ops (· ∈ State.ofList [on a b]) := by
  refine ⟨by decide +kernel, by decide +kernel, ?_⟩
  intro h
  have ho : ¬ IsType (nullTree.constants ++ nullTree.objects) n!"on" := by
    simp [IsType, HasType, nullTree, tree, a, b, table, tBox, tObj]
  have h1 := h nullAx (by simp [nullTree]) rfl [] .nil
    (Or.inr (Or.inr ⟨by decide, ho, [a, b], .cons rfl (.cons rfl .nil), by decide +kernel⟩))
  rcases h1.2.1 n!"on" [.const b, .const a] (by simp) with ⟨h, -⟩ | ⟨-, h, -⟩ | ⟨-, -, os, h2, h3⟩
  · exact absurd h (by decide)
  · exact ho h
  · cases h2 with
    | cons e1 h2 =>
      cases h2 with
      | cons e2 h2 =>
        cases h2
        simp only [Denotes] at e1 e2
        subst e1 e2
        revert h3
        decide +kernel

end

end Symbolic
