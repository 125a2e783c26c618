import Verif.Lemmas.PartialAxiom

/-!
# `IsValidState` and `ConsistentState` on PartialStates run the same passes
-/

namespace Symbolic

variable [StrHash] {m : ObjMap} {fire : Fire PartialState} {axs : List Ax} {fuel : Nat}

/-! ## Change codes are at most 2 -/

theorem applySimple_code {sign : Bool} {pred : Name} {ts : List Term} {params args : List Obj} {s : PartialState}
    {r : Nat × PartialState} (h : applySimple m fire sign pred ts params args s = .ok r) : r.1 ≤ 2 := by
  have hb : ∀ b : Bool, b.toNat ≤ 1 := by decide
  have key : ∀ x : Atom, (if sign = true then StateLike.insert s x else StateLike.erase s x).1 ≤ 2 := by
    intro x
    cases sign
    · exact Nat.add_le_add (hb _) (hb _)
    · exact Nat.add_le_add (hb _) (hb _)
  simp only [applySimple, Res.bind_eq_ok] at h
  obtain ⟨os, -, h⟩ := h
  split at h
  · simp only [Res.bind_eq_ok] at h
    obtain ⟨_, -, _, -, h⟩ := h
    split at h
    · simp only [Res.pure_eq, Res.ok.injEq] at h
      subst h; simp
    · simp at h
  · simp only [Res.bind_eq_ok] at h
    obtain ⟨_, -, h⟩ := h
    split at h
    · simp only [Res.pure_eq, Res.ok.injEq] at h
      subst h; simp
    · simp at h
  · have key := key (Atom.ofObjs pred os)
    generalize (if sign = true then StateLike.insert s (Atom.ofObjs pred os) else StateLike.erase s (Atom.ofObjs pred os)) = u at h key
    split at h
    · simp only [Res.pure_eq, Res.ok.injEq] at h
      subst h; exact key
    · simp only [Res.bind_eq_ok, Res.pure_eq, Res.ok.injEq] at h
      obtain ⟨_, -, h⟩ := h
      subst h; exact key

theorem applySimples_code {sign : Bool} {params args : List Obj} : ∀ {l : List (Name × List Term)} {s : PartialState}
    {r : Nat × PartialState}, applySimples m fire sign params args l s = .ok r → r.1 ≤ 2
  | [], s, r, h => by
    simp only [applySimples, Res.ok.injEq] at h
    subst h; simp
  | (pred, ts) :: l, s, r, h => by
    simp only [applySimples, Res.bind_eq_ok, Res.pure_eq, Res.ok.injEq] at h
    obtain ⟨r1, h1, r2, h2, rfl⟩ := h
    have := applySimple_code h1
    have := applySimples_code h2
    simp only
    omega

theorem loopEff_code {f : List Obj → PartialState → Res (Nat × PartialState)}
    (hf : ∀ {os s r}, f os s = .ok r → r.1 ≤ 2) : ∀ {l : List (List Obj)} {s : PartialState} {r : Nat × PartialState},
    loopEff f l s = .ok r → r.1 ≤ 2
  | [], s, r, h => by
    simp only [loopEff, Res.ok.injEq] at h
    subst h; simp
  | os :: l, s, r, h => by
    simp only [loopEff, Res.bind_eq_ok, Res.pure_eq, Res.ok.injEq] at h
    obtain ⟨r1, h1, r2, h2, rfl⟩ := h
    have := hf h1
    have := loopEff_code hf h2
    simp only
    omega

mutual
theorem Eff.apply_code : ∀ (e : Eff) {params args : List Obj} {s : PartialState} {r : Nat × PartialState},
    e.apply m fire params args s = .ok r → r.1 ≤ 2
  | .mk fs adds dels cs, params, args, s, r, h => by
    simp only [Eff.apply, Res.bind_eq_ok, Res.pure_eq, Res.ok.injEq] at h
    obtain ⟨r1, h1, r2, h2, r3, h3, r4, h4, rfl⟩ := h
    have := FList.apply_code fs h1
    have := applySimples_code h2
    have := applySimples_code h3
    have := CList.apply_code cs h4
    simp only
    omega
theorem FList.apply_code : ∀ (e : FList) {params args : List Obj} {s : PartialState} {r : Nat × PartialState},
    e.apply m fire params args s = .ok r → r.1 ≤ 2
  | .nil, params, args, s, r, h => by
    simp only [FList.apply, Res.ok.injEq] at h
    subst h; simp
  | .cons vars e rest, params, args, s, r, h => by
    simp only [FList.apply, Res.bind_eq_ok, Res.pure_eq, Res.ok.injEq] at h
    obtain ⟨tuples, -, r1, h1, r2, h2, rfl⟩ := h
    have := loopEff_code (fun h => Eff.apply_code e h) h1
    have := FList.apply_code rest h2
    simp only
    omega
theorem CList.apply_code : ∀ (e : CList) {params args : List Obj} {s : PartialState} {r : Nat × PartialState},
    e.apply m fire params args s = .ok r → r.1 ≤ 2
  | .nil, params, args, s, r, h => by
    simp only [CList.apply, Res.ok.injEq] at h
    subst h; simp
  | .cons g e rest, params, args, s, r, h => by
    simp only [CList.apply, Res.bind_eq_ok, Res.pure_eq, Res.ok.injEq] at h
    obtain ⟨b, -, r1, h1, r2, h2, rfl⟩ := h
    have hr1 : r1.1 ≤ 2 := by
      split at h1
      · exact Eff.apply_code e h1
      · simp only [Res.ok.injEq] at h1
        subst h1; simp
    have := CList.apply_code rest h2
    simp only
    omega
end

theorem Op.apply_code {op : Op} {as : List Obj} {s : PartialState} {r : Nat × PartialState}
    (h : op.apply m axs fuel as s = .ok r) : r.1 ≤ 2 := Eff.apply_code op.eff h

theorem axApplyPLoop_code {ax : Ax} : ∀ {l : List (List Obj)} {s : PartialState} {r : Nat × PartialState},
    axApplyPLoop m axs fuel ax l s = .ok r → r.1 ≤ 2
  | [], s, r, h => by
    simp only [axApplyPLoop, Res.ok.injEq] at h
    subst h; simp
  | as :: l, s, r, h => by
    simp only [axApplyPLoop, Res.bind_eq_ok, Res.pure_eq, Res.ok.injEq] at h
    obtain ⟨v, -, r1, h1, r2, h2, rfl⟩ := h
    have hr1 : r1.1 ≤ 2 := by
      split at h1
      · exact Op.apply_code h1
      · simp only [Res.ok.injEq] at h1
        subst h1; simp
    have := axApplyPLoop_code h2
    simp only
    omega

/-! ## The same passes -/

omit [StrHash] in
theorem or_pos (c : Bool) (i j : Nat) : (c || decide (max i j > 0)) = ((c || decide (i > 0)) || decide (j > 0)) := by
  have : decide (max i j > 0) = (decide (i > 0) || decide (j > 0)) := by
    rw [Bool.eq_iff_iff]
    simp only [Bool.or_eq_true, decide_eq_true_eq]
    omega
  rw [this, Bool.or_assoc]

theorem consistentPLoop_of_apply {ax : Ax} : ∀ {l : List (List Obj)} {s s' : PartialState} {k : Nat} (c : Bool),
    axApplyPLoop m axs fuel ax l s = .ok (k, s') → k ≤ 1 →
    consistentPLoop m axs fuel ax l s c = .ok (true, c || decide (k > 0), s')
  | [], s, s', k, c, h, _ => by
    simp only [axApplyPLoop, Res.ok.injEq, Prod.mk.injEq] at h
    obtain ⟨rfl, rfl⟩ := h
    simp [consistentPLoop]
  | as :: l, s, s', k, c, h, hk => by
    simp only [axApplyPLoop, Res.bind_eq_ok, Res.pure_eq, Res.ok.injEq, Prod.mk.injEq] at h
    obtain ⟨v, hv, ⟨i, r1⟩, h1, ⟨j, r2⟩, h2, rfl, rfl⟩ := h
    simp only at h2 hk ⊢
    simp only [consistentPLoop, hv, Res.bind_ok]
    by_cases e : v = some true
    · subst e
      simp only [if_true] at h1
      simp only [h1, catchExc, Res.bind_ok]
      rw [if_neg (by omega), consistentPLoop_of_apply _ h2 (by omega), or_pos]
    · simp only [e, if_false, Res.ok.injEq, Prod.mk.injEq] at h1
      obtain ⟨rfl, rfl⟩ := h1
      rw [Nat.zero_max]
      rcases v with _ | _ | _
      · exact consistentPLoop_of_apply c h2 (by omega)
      · exact consistentPLoop_of_apply c h2 (by omega)
      · exact absurd rfl e

theorem apply_of_consistentPLoop {ax : Ax} : ∀ {l : List (List Obj)} {s s' : PartialState} {c c' : Bool},
    consistentPLoop m axs fuel ax l s c = .ok (true, c', s') →
    ∃ k ≤ 1, axApplyPLoop m axs fuel ax l s = .ok (k, s') ∧ c' = (c || decide (k > 0))
  | [], s, s', c, c', h => by
    simp only [consistentPLoop, Res.ok.injEq, Prod.mk.injEq, true_and] at h
    obtain ⟨rfl, rfl⟩ := h
    exact ⟨0, by omega, rfl, by simp⟩
  | as :: l, s, s', c, c', h => by
    simp only [consistentPLoop, Res.bind_eq_ok] at h
    obtain ⟨v, hv, h⟩ := h
    by_cases e : v = some true
    · subst e
      simp only [Res.bind_eq_ok] at h
      obtain ⟨r, h1, h⟩ := h
      rcases r with _ | ⟨i, s1⟩
      · simp at h
      · simp only at h
        split at h
        · simp at h
        · rename_i hi
          obtain ⟨k, hk, h2, rfl⟩ := apply_of_consistentPLoop h
          have h1 : ax.op.apply m axs fuel as s = .ok (i, s1) := by
            cases e : ax.op.apply m axs fuel as s <;> simp_all [catchExc]
          exact ⟨max i k, by omega, by simp [axApplyPLoop, hv, h1, h2], (or_pos c i k).symm⟩
    · have h' : consistentPLoop m axs fuel ax l s c = .ok (true, c', s') := by
        rcases v with _ | _ | _
        · exact h
        · exact h
        · exact absurd rfl e
      obtain ⟨k, hk, h2, rfl⟩ := apply_of_consistentPLoop h'
      exact ⟨k, hk, by simp [axApplyPLoop, hv, e, h2], rfl⟩

theorem consistentPPass_of_pass : ∀ {l : List Ax} {s s' : PartialState} {b : Bool} (c : Bool),
    Pddl.consistentPassP m axs fuel l s = .ok (b, s') → consistentPPass m axs fuel l s c = .ok (true, c || b, s')
  | [], s, s', b, c, h => by
    simp only [Pddl.consistentPassP, Res.ok.injEq, Prod.mk.injEq] at h
    obtain ⟨rfl, rfl⟩ := h
    simp [consistentPPass]
  | ax :: l, s, s', b, c, h => by
    simp only [Pddl.consistentPassP, Res.bind_eq_ok] at h
    obtain ⟨⟨k, r1⟩, h1, h⟩ := h
    split at h
    · simp at h
    · rename_i hk
      simp only [Res.bind_eq_ok, Res.pure_eq, Res.ok.injEq, Prod.mk.injEq] at h
      obtain ⟨⟨b2, r2⟩, h2, rfl, rfl⟩ := h
      have hc := axApplyPLoop_code h1
      simp only at hk hc h2
      simp only [consistentPPass, consistentPLoop_of_apply c h1 (by omega), Res.bind_ok, if_true]
      rw [consistentPPass_of_pass _ h2, Bool.or_assoc]

theorem pass_of_consistentPPass : ∀ {l : List Ax} {s s' : PartialState} {c c' : Bool},
    consistentPPass m axs fuel l s c = .ok (true, c', s') →
    ∃ b, Pddl.consistentPassP m axs fuel l s = .ok (b, s') ∧ c' = (c || b)
  | [], s, s', c, c', h => by
    simp only [consistentPPass, Res.ok.injEq, Prod.mk.injEq, true_and] at h
    obtain ⟨rfl, rfl⟩ := h
    exact ⟨false, rfl, by simp⟩
  | ax :: l, s, s', c, c', h => by
    simp only [consistentPPass, Res.bind_eq_ok] at h
    obtain ⟨⟨v, c1, r1⟩, h1, h⟩ := h
    split at h
    · rename_i hv
      simp only at hv h
      subst hv
      obtain ⟨k, hk, h2, rfl⟩ := apply_of_consistentPLoop h1
      obtain ⟨b, h3, rfl⟩ := pass_of_consistentPPass h
      refine ⟨decide (k > 0) || b, ?_, by rw [Bool.or_assoc]⟩
      simp only [Pddl.consistentPassP, Ax.applyP, h2, Res.bind_ok]
      rw [if_neg (by omega)]
      simp [h3]
    · rename_i hv
      simp only [Res.pure_eq, Res.ok.injEq, Prod.mk.injEq] at h
      exact absurd h.1 hv

theorem consistentPassP_idle {l : List Ax} {s s' : PartialState} (h : Pddl.consistentPassP m axs fuel l s = .ok (false, s')) :
    s' = s := (consistentPassP_false h).1

end Symbolic
