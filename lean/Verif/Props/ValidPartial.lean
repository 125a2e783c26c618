import Verif.Lemmas.ValidPartial
import Verif.Props.Passes

/-!
# C95: `IsValidState` and `ConsistentState` on PartialStates agree
-/

namespace Symbolic

section
variable [StrHash]

theorem consistentPFix_of_passes {m : ObjMap} {axs : List Ax} {n k : Nat} {s u q : PartialState}
    (h : Passes (Pddl.consistentPassP m axs n axs) k s u) (hq : Pddl.consistentPassP m axs n axs u = .ok (false, q)) :
    ∀ {i : Nat}, k < i → consistentPFix m axs n i s = .ok true := by
  induction h with
  | none s =>
    intro i hi
    obtain ⟨i, rfl⟩ : ∃ j, i = j + 1 := ⟨i - 1, by omega⟩
    simp [consistentPFix, consistentPPass_of_pass false hq]
  | more h1 _ ih =>
    intro i hi
    obtain ⟨i, rfl⟩ : ∃ j, i = j + 1 := ⟨i - 1, by omega⟩
    simp only [consistentPFix, consistentPPass_of_pass false h1, Res.bind_ok, if_true, Bool.false_or]
    exact ih hq (by omega)

theorem passes_of_consistentPFix {m : ObjMap} {axs : List Ax} {n : Nat} : ∀ {i : Nat} {s : PartialState},
    consistentPFix m axs n i s = .ok true →
    ∃ k u, Passes (Pddl.consistentPassP m axs n axs) k s u ∧ Pddl.consistentPassP m axs n axs u = .ok (false, u)
  | 0, s, h => by simp [consistentPFix] at h
  | i + 1, s, h => by
    simp only [consistentPFix, Res.bind_eq_ok] at h
    obtain ⟨⟨v, c, r⟩, h1, h⟩ := h
    split at h
    · rename_i hv
      simp only at hv h
      subst hv
      obtain ⟨b, h2, rfl⟩ := pass_of_consistentPPass h1
      cases c
      · obtain rfl := consistentPassP_idle h2
        exact ⟨0, _, .none _, h2⟩
      · simp only [if_true] at h
        obtain ⟨k, u, h3, h4⟩ := passes_of_consistentPFix h
        exact ⟨k + 1, u, .more h2 h3, h4⟩
    · simp at h

/-- **C95.** If `ConsistentState(p)` returns then `IsValidState` accepts `p` as well as the result, and `ConsistentState` does
not change the result any more. -/
theorem C95_consistent_is_valid (P : Pddl) (fuel : Nat) (p q : PartialState) (h : P.consistentStateP fuel p = .ok q)
    (hf : 51 ≤ fuel) :
    P.isValidStateP fuel p = .ok true ∧ P.isValidStateP fuel q = .ok true ∧ P.consistentStateP fuel q = .ok q := by
  obtain ⟨k, hk, u, h1, h2⟩ := (C73_returns P fuel p q).1 h
  obtain rfl := consistentPassP_idle h2
  exact ⟨consistentPFix_of_passes h1 h2 (by omega), consistentPFix_of_passes (.none q) h2 (by omega),
    (C73_returns P fuel q q).2 ⟨0, by omega, q, .none q, h2⟩⟩

/-- **C95.** If `IsValidState` accepts `p` then `ConsistentState(p)` returns, except if the first 51 passes over the axioms all
change something; then it throws. -/
theorem C95_valid_is_consistent (P : Pddl) (fuel : Nat) (p : PartialState) (h : P.isValidStateP fuel p = .ok true) :
    (∃ q, P.consistentStateP fuel p = .ok q) ∨
      P.consistentStateP fuel p = .exc .runtimeError ∧
        ∃ u, Passes (Pddl.consistentPassP P.omap P.axioms fuel P.axioms) 51 p u := by
  obtain ⟨k, u, h1, h2⟩ := passes_of_consistentPFix h
  by_cases hk : k ≤ 50
  · exact .inl ⟨u, (C73_returns P fuel p u).2 ⟨k, hk, u, h1, h2⟩⟩
  · right
    obtain ⟨w, hw, hr⟩ : ∃ w, Passes (Pddl.consistentPassP P.omap P.axioms fuel P.axioms) 51 p w ∧
        ∃ r, Pddl.consistentPassP P.omap P.axioms fuel P.axioms w = .ok r := by
      obtain ⟨j, rfl⟩ : ∃ j, k = 51 + j := ⟨k - 51, by omega⟩
      clear h hk
      generalize 51 = i at h1 ⊢
      induction i generalizing p with
      | zero =>
        refine ⟨p, .none p, ?_⟩
        cases h1' : Pddl.consistentPassP P.omap P.axioms fuel P.axioms p with
        | ok r => exact ⟨r, rfl⟩
        | _ =>
          rw [Nat.zero_add] at h1
          cases h1 <;> simp_all
      | succ i ih =>
        rw [Nat.succ_add] at h1
        cases h1 with
        | more h3 h4 =>
          obtain ⟨w, a1, a2⟩ := ih _ h4
          exact ⟨w, .more h3 a1, a2⟩
    obtain ⟨r, hr⟩ := hr
    exact ⟨C73_throws P fuel p w r hw hr, w, hw⟩

/-- **C95.** If `IsValidState` rejects `p` then `ConsistentState(p)` does not return. -/
theorem C95_invalid (P : Pddl) (fuel : Nat) (p : PartialState) (h : P.isValidStateP fuel p = .ok false) (hf : 51 ≤ fuel)
    (q : PartialState) : P.consistentStateP fuel p ≠ .ok q := by
  intro hq
  have := (C95_consistent_is_valid P fuel p q hq hf).1
  rw [h] at this
  simp at this

end

/-! ## Examples -/

section
open Demo
attribute [local instance] lenHash

example : P.isValidStateP 51 ⟨State.ofList [inhand a], State.empty⟩ = .ok true :=
  (C95_consistent_is_valid P 51 ⟨State.ofList [inhand a], State.empty⟩
    ⟨State.ofList [inhand a], State.ofList [on a a, on a b, on a table]⟩ (by decide +kernel) (by decide)).1

example : ∃ q, P.consistentStateP 51 ⟨State.ofList [inhand a], State.empty⟩ = .ok q := by
  rcases C95_valid_is_consistent P 51 ⟨State.ofList [inhand a], State.empty⟩ (by decide +kernel) with h | ⟨h, -⟩
  · exact h
  · exact absurd h (by decide +kernel)

/-- A box in the hand is not on the table. -/
example (q : PartialState) : P.consistentStateP 51 ⟨State.ofList [inhand a, on a table], State.empty⟩ ≠ .ok q :=
  C95_invalid P 51 _ (by decide +kernel) (by decide) q

end

end Symbolic
