import Verif.Lemmas.Universe
import Verif.Lemmas.Returns

/-!
Applying all axioms until nothing changes.
-/

namespace Symbolic

section
variable [StrHash] {m : ObjMap} {axs : List Ax} {n : Nat} {L : List (Bool × Atom)}

/-- Applying an axiom to one of its arguments returns, and each change brings the state closer to `L`. -/
def Approaches (m : ObjMap) (axs : List Ax) (n : Nat) (L : List (Bool × Atom)) : Prop :=
  ∀ ax ∈ axs, ∀ as ∈ ax.arguments, ∀ s : State, (∃ b, ax.op.isValid m s as = .ok b) ∧
    ∃ r, ax.op.apply m axs n as s = .ok r ∧ gap L r.2 ≤ gap L s ∧ (r.1 ≠ 0 → gap L r.2 < gap L s)

theorem axApplyLoop_approaches (h : Approaches m axs n L) {ax : Ax} (hm : ax ∈ axs) : ∀ (l : List (List Obj)) (s : State),
    (∀ as ∈ l, as ∈ ax.arguments) →
    ∃ r, axApplyLoop m axs n ax l s = .ok r ∧ gap L r.2 ≤ gap L s ∧ (r.1 = true → gap L r.2 < gap L s)
  | [], s, _ => ⟨(false, s), rfl, le_refl _, by simp⟩
  | as :: l, s, hl => by
    obtain ⟨⟨b, hb⟩, r, hr, h1, h2⟩ := h ax hm as (hl as (by simp)) s
    have ih := fun s => axApplyLoop_approaches h hm l s (fun a ha => hl a (by simp [ha]))
    simp only [axApplyLoop, hb, Res.bind_ok]
    cases b
    · obtain ⟨r', h3, h4, h5⟩ := ih s
      exact ⟨_, by simp [h3], h4, by simpa using h5⟩
    · obtain ⟨r', h3, h4, h5⟩ := ih r.2
      refine ⟨(decide (r.1 ≠ 0) || r'.1, r'.2), by simp [hr, h3], le_trans h4 h1, fun hc => ?_⟩
      simp only [Bool.or_eq_true, decide_eq_true_eq] at hc
      rcases hc with hc | hc
      · have := h2 hc; simp only; omega
      · have := h5 hc; simp only; omega

theorem consistentPass_approaches (h : Approaches m axs n L) : ∀ (l : List Ax) (s : State), (∀ ax ∈ l, ax ∈ axs) →
    ∃ r, Pddl.consistentPass m axs n l s = .ok r ∧ gap L r.2 ≤ gap L s ∧ (r.1 = true → gap L r.2 < gap L s)
  | [], s, _ => ⟨(false, s), rfl, le_refl _, by simp⟩
  | ax :: l, s, hl => by
    obtain ⟨r, hr, h1, h2⟩ := axApplyLoop_approaches h (hl ax (by simp)) ax.arguments s (fun _ h => h)
    obtain ⟨r', h3, h4, h5⟩ := consistentPass_approaches h l r.2 (fun a ha => hl a (by simp [ha]))
    refine ⟨(r.1 || r'.1, r'.2), by simp [Pddl.consistentPass, Ax.apply, hr, h3], le_trans h4 h1, fun hc => ?_⟩
    simp only [Bool.or_eq_true] at hc
    rcases hc with hc | hc
    · have := h2 hc; simp only; omega
    · have := h5 hc; simp only; omega

theorem consistentFix_approaches (h : Approaches m axs n L) : ∀ (k : Nat) (s : State), gap L s < k →
    ∃ s', Pddl.consistentFix m axs n k s = .ok s'
  | 0, _, hk => by omega
  | k + 1, s, hk => by
    obtain ⟨r, hr, h1, h2⟩ := consistentPass_approaches h axs s (fun _ h => h)
    simp only [Pddl.consistentFix, hr, Res.bind_ok]
    split
    · rename_i hc
      have := h2 hc
      exact consistentFix_approaches h k r.2 (by omega)
    · exact ⟨_, rfl⟩

/-! ## More budget -/

theorem axApplyLoop_mono (m : ObjMap) (axs : List Ax) (n : Nat) (ax : Ax) : ∀ (l : List (List Obj)) (s : State),
    (axApplyLoop m axs n ax l s).Le (axApplyLoop m axs (n + 1) ax l s)
  | [], s => .refl _
  | as :: l, s => by
    simp only [axApplyLoop]
    refine (Res.Le.refl _).bind fun b => Res.Le.bind ?_ fun r => (axApplyLoop_mono m axs n ax l r.2).bind fun _ => .refl _
    split
    · exact Op.apply_le _ _ _ _ _ _
    · exact .refl _

theorem consistentPass_mono (m : ObjMap) (axs : List Ax) (n : Nat) : ∀ (l : List Ax) (s : State),
    (Pddl.consistentPass m axs n l s).Le (Pddl.consistentPass m axs (n + 1) l s)
  | [], s => .refl _
  | ax :: l, s => by
    simp only [Pddl.consistentPass]
    exact (axApplyLoop_mono m axs n ax _ s).bind fun r => (consistentPass_mono m axs n l r.2).bind fun _ => .refl _

theorem consistentFix_mono (m : ObjMap) (axs : List Ax) (n : Nat) : ∀ (k : Nat) (s : State),
    (Pddl.consistentFix m axs n k s).Le (Pddl.consistentFix m axs (n + 1) (k + 1) s)
  | 0, s => Or.inl rfl
  | k + 1, s => by
    rw [Pddl.consistentFix, Pddl.consistentFix.eq_2 m axs (n + 1) s (k + 1)]
    refine (consistentPass_mono m axs n axs s).bind fun r => ?_
    split
    · exact consistentFix_mono m axs n k r.2
    · exact .refl _

theorem Pddl.consistentState_le (P : Pddl) (s : State) {n k : Nat} (h : n ≤ k) :
    (P.consistentState n s).Le (P.consistentState k s) := by
  induction k, h using Nat.le_induction with
  | base => exact .refl _
  | succ k _ ih => exact ih.trans (consistentFix_mono _ _ k k s)

/-! ## PartialStates -/

/-- The same for PartialStates, where the call may throw. -/
def ApproachesP (m : ObjMap) (axs : List Ax) (n : Nat) (L : List (Bool × Atom)) : Prop :=
  ∀ ax ∈ axs, ∀ as ∈ ax.arguments, ∀ s : PartialState, ax.op.isValid m s as ≠ .fuel ∧ ax.op.apply m axs n as s ≠ .fuel ∧
    ∀ r, ax.op.apply m axs n as s = .ok r → gap L r.2 ≤ gap L s ∧ (r.1 ≠ 0 → gap L r.2 < gap L s)

omit [StrHash] in
theorem optionalOf_ne_fuel {r : Res Bool} (h : r ≠ .fuel) : optionalOf r ≠ .fuel := by
  cases r with
  | exc e => cases e <;> simp [optionalOf]
  | fuel => exact absurd rfl h
  | _ => simp [optionalOf]

omit [StrHash] in
theorem catchExc_ne_fuel {r : Res α} (h : r ≠ .fuel) : catchExc r ≠ .fuel := by
  cases r with
  | fuel => exact absurd rfl h
  | _ => simp [catchExc]

omit [StrHash] in
theorem catchExc_some {r : Res α} {a : α} (h : catchExc r = .ok (some a)) : r = .ok a := by
  cases r <;> simp_all [catchExc]

theorem consistentPLoop_approaches (h : ApproachesP m axs n L) {ax : Ax} (hm : ax ∈ axs) :
    ∀ (l : List (List Obj)) (s : PartialState) (c : Bool), (∀ as ∈ l, as ∈ ax.arguments) →
    consistentPLoop m axs n ax l s c ≠ .fuel ∧ ∀ r, consistentPLoop m axs n ax l s c = .ok r → r.1 = true →
      gap L r.2.2 ≤ gap L s ∧ (r.2.1 = true → c = true ∨ gap L r.2.2 < gap L s)
  | [], s, c, _ => by simp [consistentPLoop]
  | as :: l, s, c, hl => by
    obtain ⟨h1, h2, h3⟩ := h ax hm as (hl as (by simp)) s
    have ih := fun s c => consistentPLoop_approaches h hm l s c (fun a ha => hl a (by simp [ha]))
    simp only [consistentPLoop]
    constructor
    · refine Res.bind_ne_fuel' (optionalOf_ne_fuel h1) fun v _ => ?_
      split
      · refine Res.bind_ne_fuel' (catchExc_ne_fuel h2) fun r hr => ?_
        split
        · simp
        · split
          · simp
          · exact (ih _ _).1
      · exact (ih _ _).1
    · intro r hr ht
      simp only [Res.bind_eq_ok] at hr
      obtain ⟨v, -, hr⟩ := hr
      split at hr
      · simp only [Res.bind_eq_ok] at hr
        obtain ⟨q, hq, hr⟩ := hr
        split at hr
        · simp only [Res.pure_eq, Res.ok.injEq] at hr
          subst hr; simp at ht
        · rename_i k s'
          obtain ⟨h4, h5⟩ := h3 _ (catchExc_some hq)
          split at hr
          · simp only [Res.pure_eq, Res.ok.injEq] at hr
            subst hr; simp at ht
          · obtain ⟨h6, h7⟩ := (ih _ _).2 r hr ht
            refine ⟨le_trans h6 h4, fun hc => ?_⟩
            rcases h7 hc with h | h
            · simp only [Bool.or_eq_true, decide_eq_true_eq] at h
              rcases h with h | h
              · exact .inl h
              · have := h5 (by simp only; omega)
                simp only at this
                exact .inr (by omega)
            · simp only at h4
              exact .inr (by omega)
      · exact (ih _ _).2 r hr ht

theorem consistentPPass_approaches (h : ApproachesP m axs n L) : ∀ (l : List Ax) (s : PartialState) (c : Bool),
    (∀ ax ∈ l, ax ∈ axs) →
    consistentPPass m axs n l s c ≠ .fuel ∧ ∀ r, consistentPPass m axs n l s c = .ok r → r.1 = true →
      gap L r.2.2 ≤ gap L s ∧ (r.2.1 = true → c = true ∨ gap L r.2.2 < gap L s)
  | [], s, c, _ => by simp [consistentPPass]
  | ax :: l, s, c, hl => by
    obtain ⟨h1, h2⟩ := consistentPLoop_approaches h (hl ax (by simp)) ax.arguments s c (fun _ h => h)
    have ih := fun s c => consistentPPass_approaches h l s c (fun a ha => hl a (by simp [ha]))
    simp only [consistentPPass]
    constructor
    · refine Res.bind_ne_fuel' h1 fun r _ => ?_
      split
      · exact (ih _ _).1
      · simp
    · intro r hr ht
      simp only [Res.bind_eq_ok] at hr
      obtain ⟨q, hq, hr⟩ := hr
      split at hr
      · rename_i hc
        obtain ⟨h3, h4⟩ := h2 q hq hc
        obtain ⟨h6, h7⟩ := (ih _ _).2 r hr ht
        refine ⟨le_trans h6 h3, fun hc => ?_⟩
        rcases h7 hc with h | h
        · rcases h4 h with h | h
          · exact .inl h
          · exact .inr (by omega)
        · exact .inr (by omega)
      · rename_i hc
        simp only [Res.pure_eq, Res.ok.injEq] at hr
        subst hr; exact absurd ht hc

theorem consistentPFix_approaches (h : ApproachesP m axs n L) : ∀ (k : Nat) (s : PartialState), gap L s < k →
    consistentPFix m axs n k s ≠ .fuel
  | 0, _, hk => by omega
  | k + 1, s, hk => by
    obtain ⟨h1, h2⟩ := consistentPPass_approaches h axs s false (fun _ h => h)
    simp only [consistentPFix]
    refine Res.bind_ne_fuel' h1 fun r hr => ?_
    split
    · rename_i ht
      split
      · rename_i hc
        obtain ⟨h3, h4⟩ := h2 r hr ht
        have := (h4 hc).resolve_left (by simp)
        exact consistentPFix_approaches h k r.2.2 (by omega)
      · simp
    · simp

theorem axApplyPLoop_ne_fuel {ax : Ax} (hv : ∀ as (s : PartialState), ax.op.isValid m s as ≠ .fuel)
    (h : ∀ as (s : PartialState), ax.op.apply m axs n as s ≠ .fuel) : ∀ (l : List (List Obj)) (s : PartialState),
    axApplyPLoop m axs n ax l s ≠ .fuel
  | [], s => by simp [axApplyPLoop]
  | as :: l, s => by
    simp only [axApplyPLoop]
    refine Res.bind_ne_fuel (optionalOf_ne_fuel (hv as s)) fun v => Res.bind_ne_fuel ?_ fun r =>
      Res.bind_ne_fuel (axApplyPLoop_ne_fuel hv h l r.2) fun _ => by simp
    split
    · exact h as s
    · simp

theorem consistentPassP_ne_fuel : ∀ (l : List Ax) (s : PartialState),
    (∀ ax ∈ l, ∀ as (s : PartialState), ax.op.isValid m s as ≠ .fuel ∧ ax.op.apply m axs n as s ≠ .fuel) →
    Pddl.consistentPassP m axs n l s ≠ .fuel
  | [], s, _ => by simp [Pddl.consistentPassP]
  | ax :: l, s, h => by
    simp only [Pddl.consistentPassP]
    refine Res.bind_ne_fuel (axApplyPLoop_ne_fuel (fun as s => (h ax (by simp) as s).1)
      (fun as s => (h ax (by simp) as s).2) _ _) fun r => ?_
    split
    · simp
    · exact Res.bind_ne_fuel (consistentPassP_ne_fuel l _ (fun a ha => h a (by simp [ha]))) fun _ => by simp

theorem consistentFixP_ne_fuel
    (h : ∀ ax ∈ axs, ∀ as (s : PartialState), ax.op.isValid m s as ≠ .fuel ∧ ax.op.apply m axs n as s ≠ .fuel)
    (i : Nat) (s : PartialState) : Pddl.consistentFixP m axs n i s ≠ .fuel := by
  rw [Pddl.consistentFixP]
  refine Res.bind_ne_fuel (consistentPassP_ne_fuel axs s h) fun r => ?_
  split
  · simp
  · split
    · exact consistentFixP_ne_fuel h (i + 1) r.2
    · simp
termination_by Pddl.kMaxIterations + 1 - i
decreasing_by rename_i h _; simp [Pddl.kMaxIterations] at h ⊢; omega

end

end Symbolic
