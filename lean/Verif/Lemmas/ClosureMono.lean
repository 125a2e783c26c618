import Verif.Lemmas.Closure

/-!
# ConsistentState of PartialStates with more budget
-/

namespace Symbolic
variable [StrHash]

theorem axApplyPLoop_mono (m : ObjMap) (axs : List Ax) (n : Nat) (ax : Ax) : ∀ (l : List (List Obj)) (s : PartialState),
    (axApplyPLoop m axs n ax l s).Le (axApplyPLoop m axs (n + 1) ax l s)
  | [], s => .refl _
  | as :: l, s => by
    simp only [axApplyPLoop]
    refine (Res.Le.refl _).bind fun b => Res.Le.bind ?_ fun r => (axApplyPLoop_mono m axs n ax l r.2).bind fun _ => .refl _
    split
    · exact Eff.apply_mono (fireN_mono m axs n) ax.op.eff _ _ _
    · exact .refl _

theorem consistentPassP_mono (m : ObjMap) (axs : List Ax) (n : Nat) : ∀ (l : List Ax) (s : PartialState),
    (Pddl.consistentPassP m axs n l s).Le (Pddl.consistentPassP m axs (n + 1) l s)
  | [], s => .refl _
  | ax :: l, s => by
    simp only [Pddl.consistentPassP]
    refine (axApplyPLoop_mono m axs n ax _ s).bind fun r => ?_
    split
    · exact .refl _
    · exact (consistentPassP_mono m axs n l r.2).bind fun _ => .refl _

theorem consistentFixP_mono (m : ObjMap) (axs : List Ax) (n : Nat) (i : Nat) (s : PartialState) :
    (Pddl.consistentFixP m axs n i s).Le (Pddl.consistentFixP m axs (n + 1) i s) := by
  induction h : Pddl.kMaxIterations + 1 - i generalizing i s with
  | zero =>
    rw [Pddl.consistentFixP, Pddl.consistentFixP.eq_1 m axs (n + 1)]
    refine (consistentPassP_mono m axs n axs s).bind fun r => ?_
    rw [dif_pos (by omega), dif_pos (by omega)]
    exact .refl _
  | succ k ih =>
    rw [Pddl.consistentFixP, Pddl.consistentFixP.eq_1 m axs (n + 1)]
    refine (consistentPassP_mono m axs n axs s).bind fun r => ?_
    split
    · exact .refl _
    · split
      · exact ih (i + 1) r.2 (by omega)
      · exact .refl _

theorem Pddl.consistentStateP_le (P : Pddl) (s : PartialState) {n k : Nat} (h : n ≤ k) :
    (P.consistentStateP n s).Le (P.consistentStateP k s) := by
  induction k, h using Nat.le_induction with
  | base => exact .refl _
  | succ k _ ih => exact ih.trans (consistentFixP_mono _ _ k 0 s)

theorem Pddl.consistentStateP_ok (P : Pddl) {s s' : PartialState} {n k : Nat} (h : n ≤ k) (e : P.consistentStateP n s = .ok s') :
    P.consistentStateP k s = .ok s' := by
  rcases P.consistentStateP_le s h with h | h
  · rw [h] at e; cases e
  · rw [h, e]

end Symbolic
