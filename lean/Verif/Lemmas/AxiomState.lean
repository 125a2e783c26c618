import Verif.Model.Pddl
import Verif.Spec.Axioms
import Verif.Lemmas.Effects
import Verif.Lemmas.Fire
import Verif.Lemmas.Construct
import Verif.Lemmas.Derived

/-!
Lemmas on axioms and complete states: what it means that applying an axiom changes nothing; pruned instances.
-/

namespace Symbolic

/-! ## Applying without a change -/

section
variable {σ : Type}

theorem seq_zero_iff {a : Res (Nat × σ)} {f : σ → Res (Nat × σ)} {s : σ} (ha : ∀ t, a = .ok (0, t) → t = s)
    (hf : ∀ t u, f t = .ok (0, u) → u = t) :
    (do let r ← a; let r' ← f r.2; pure (max r.1 r'.1, r'.2)) = .ok (0, s) ↔ a = .ok (0, s) ∧ f s = .ok (0, s) := by
  constructor
  · intro h
    simp only [Res.bind_eq_ok, Res.pure_eq, Res.ok.injEq, Prod.mk.injEq] at h
    obtain ⟨⟨n, t⟩, h1, ⟨n', t'⟩, h2, h3, rfl⟩ := h
    simp only at h2 h3 ⊢
    have e1 : n = 0 := by omega
    have e2 : n' = 0 := by omega
    subst e1 e2
    have hu := hf _ _ h2
    subst hu
    exact ⟨h1, h2⟩
  · rintro ⟨h1, h2⟩
    simp [h1, h2]

theorem loopEff_zero_iff {f : List Obj → σ → Res (Nat × σ)} (hf : ∀ os s s', f os s = .ok (0, s') → s' = s) (s : σ) :
    ∀ l : List (List Obj), loopEff f l s = .ok (0, s) ↔ ∀ os ∈ l, f os s = .ok (0, s)
  | [] => by simp [loopEff]
  | os :: l => by
    rw [loopEff, seq_zero_iff (fun t => hf os s t) (fun t u h => loopEff_zero hf h), loopEff_zero_iff hf s l]
    simp
end

section
variable [StrHash] {objects : List Obj} {fire : Fire State}

theorem applySimple_zero_iff (sign : Bool) (pred : Name) (ts : List Term) (params args : List Obj) (s : State)
    (hlen : params.length = args.length) (hwf : Goal.WF objects (params.map Obj.name) (.atom pred ts)) :
    applySimple (ObjMap.create objects) fire sign pred ts params args s = .ok (0, s) ↔
      (SatAtom objects (· ∈ s) (Env.none.bind params args) pred ts ↔ sign = true) := by
  obtain ⟨b, h1, h2⟩ := eval_sat objects s (.atom pred ts) params args hlen hwf
  simp only [Sat] at h2
  rw [← h2]
  simp only [Goal.eval, evalAtom] at h1
  simp only [applySimple]
  rw [applyFn_terms params args ts (Nat.le_of_eq hlen)] at h1 ⊢
  simp only [Res.bind_ok] at h1 ⊢
  cases hk : atomKind (ObjMap.create objects) pred <;> simp only [hk] at h1 ⊢
  · simp only [Res.bind_eq_ok, Res.pure_eq, Res.ok.injEq] at h1
    obtain ⟨o1, ho1, o2, ho2, h3⟩ := h1
    rw [ho1, ho2]
    simp only [Res.bind_ok, h3]
    cases b <;> cases sign <;> simp
  · simp only [Res.bind_eq_ok, Res.pure_eq, Res.ok.injEq] at h1
    obtain ⟨o1, ho1, h3⟩ := h1
    rw [ho1]
    simp only [Res.bind_ok, h3]
    cases b <;> cases sign <;> simp
  · simp only [StateLike.contains, Res.ok.injEq] at h1
    have e : (if sign = true then StateLike.insert s (Atom.ofObjs pred (ts.map (Term.value params args)))
      else StateLike.erase s (Atom.ofObjs pred (ts.map (Term.value params args)))) =
      stepOp sign (Atom.ofObjs pred (ts.map (Term.value params args))) s := rfl
    rw [e, ← h1, ← State.mem_def, ← stepOp_code]
    constructor
    · intro h
      split at h
      · assumption
      · rename_i hne
        simp only [Res.bind_eq_ok, Res.pure_eq, Res.ok.injEq, Prod.mk.injEq] at h
        obtain ⟨_, -, h3, -⟩ := h
        exact absurd h3 hne
    · intro h
      rw [if_pos h]
      simp only [Res.pure_eq, Res.ok.injEq]
      exact Prod.ext h (stepOp_zero h)

theorem applySimples_zero_iff (sign : Bool) (params args : List Obj) (s : State) (hlen : params.length = args.length) :
    ∀ l : List (Name × List Term), AtomLits objects (params.map Obj.name) l →
    (applySimples (ObjMap.create objects) fire sign params args l s = .ok (0, s) ↔
      ∀ pred ts, (pred, ts) ∈ l → (SatAtom objects (· ∈ s) (Env.none.bind params args) pred ts ↔ sign = true))
  | [], _ => by simp [applySimples]
  | (pred, ts) :: l, h => by
    rw [applySimples, seq_zero_iff (fun t => applySimple_zero) (fun t u => applySimples_zero),
      applySimple_zero_iff sign pred ts params args s hlen (h pred ts (by simp)),
      applySimples_zero_iff sign params args s hlen l (fun p t hm => h p t (by simp [hm]))]
    constructor
    · rintro ⟨h1, h2⟩ p t hm
      rcases List.mem_cons.1 hm with e | hm
      · cases e; exact h1
      · exact h2 p t hm
    · intro h
      exact ⟨h pred ts (by simp), fun p t hm => h p t (by simp [hm])⟩

mutual
/-- Applying an implication changes nothing exactly when it is true. -/
theorem Eff.apply_says : ∀ (e : Eff) (params args : List Obj) (s : State), params.length = args.length →
    e.Formed objects (params.map Obj.name) →
    (e.apply (ObjMap.create objects) fire params args s = .ok (0, s) ↔
      e.Says objects (· ∈ s) (Env.none.bind params args))
  | .mk fs adds dels cs, params, args, s, hlen, hwf => by
    simp only [Eff.Formed] at hwf
    have shape : Eff.apply (ObjMap.create objects) fire (.mk fs adds dels cs) params args s = .ok (0, s) ↔
        FList.apply (ObjMap.create objects) fire fs params args s = .ok (0, s) ∧
        applySimples (ObjMap.create objects) fire true params args adds s = .ok (0, s) ∧
        applySimples (ObjMap.create objects) fire false params args dels s = .ok (0, s) ∧
        CList.apply (ObjMap.create objects) fire cs params args s = .ok (0, s) := by
      constructor
      · intro h
        simp only [Eff.apply, Res.bind_eq_ok, Res.pure_eq, Res.ok.injEq, Prod.mk.injEq] at h
        obtain ⟨⟨n1, t1⟩, h1, ⟨n2, t2⟩, h2, ⟨n3, t3⟩, h3, ⟨n4, t4⟩, h4, h5, h6⟩ := h
        simp only at h5 h2 h3 h4 h6
        have e1 : n1 = 0 := by omega
        have e2 : n2 = 0 := by omega
        have e3 : n3 = 0 := by omega
        have e4 : n4 = 0 := by omega
        subst e1 e2 e3 e4 h6
        have z1 := FList.apply_zero _ _ _ _ _ _ _ h1
        subst z1
        have z2 := applySimples_zero h2
        subst z2
        have z3 := applySimples_zero h3
        subst z3
        exact ⟨h1, h2, h3, h4⟩
      · rintro ⟨h1, h2, h3, h4⟩
        simp [Eff.apply, h1, h2, h3, h4]
    rw [shape, FList.apply_says fs params args s hlen hwf.1, applySimples_zero_iff true params args s hlen adds hwf.2.1,
      applySimples_zero_iff false params args s hlen dels hwf.2.2.1, CList.apply_says cs params args s hlen hwf.2.2.2]
    simp only [Eff.Says, iff_true, Bool.false_eq_true, iff_false]
theorem FList.apply_says : ∀ (e : FList) (params args : List Obj) (s : State), params.length = args.length →
    e.Formed objects (params.map Obj.name) →
    (e.apply (ObjMap.create objects) fire params args s = .ok (0, s) ↔
      e.Says objects (· ∈ s) (Env.none.bind params args))
  | .nil, params, args, s, _, _ => by simp [FList.apply, FList.Says]
  | .cons vars e rest, params, args, s, hlen, hwf => by
    simp only [FList.Formed] at hwf
    obtain ⟨l, hl, hmem⟩ := gen_create objects vars hwf.1
    simp only [FList.apply, hl, Res.bind_ok, FList.Says]
    rw [seq_zero_iff (fun t h => loopEff_zero (fun os s s' h => Eff.apply_zero _ _ e _ _ s s' h) h)
        (fun t u h => FList.apply_zero _ _ rest _ _ _ _ h),
      loopEff_zero_iff (fun os s s' h => Eff.apply_zero _ _ e _ _ s s' h), FList.apply_says rest params args s hlen hwf.2.2]
    refine and_congr ?_ Iff.rfl
    constructor
    · intro h os ho
      have := h os ((hmem os).2 ho)
      rw [Eff.apply_says e _ _ s (by simp [hlen, wellTyped_length ho]) (by simpa using hwf.2.1)] at this
      rwa [Env.bind_append _ _ _ _ _ hlen] at this
    · intro h os ho
      have ho' := (hmem os).1 ho
      rw [Eff.apply_says e _ _ s (by simp [hlen, wellTyped_length ho']) (by simpa using hwf.2.1),
        Env.bind_append _ _ _ _ _ hlen]
      exact h os ho'
theorem CList.apply_says : ∀ (e : CList) (params args : List Obj) (s : State), params.length = args.length →
    e.Formed objects (params.map Obj.name) →
    (e.apply (ObjMap.create objects) fire params args s = .ok (0, s) ↔
      e.Says objects (· ∈ s) (Env.none.bind params args))
  | .nil, params, args, s, _, _ => by simp [CList.apply, CList.Says]
  | .cons g e rest, params, args, s, hlen, hwf => by
    simp only [CList.Formed] at hwf
    obtain ⟨b, h1, h2⟩ := eval_sat objects s g params args hlen hwf.1
    have hc : StateLike.cond (σ := State) (g.eval (ObjMap.create objects) params s args) = .ok b := h1
    simp only [CList.apply, hc, Res.bind_ok, CList.Says]
    rw [seq_zero_iff _ (fun t u h => CList.apply_zero _ _ rest _ _ _ _ h), CList.apply_says rest params args s hlen hwf.2.2]
    · refine and_congr ?_ Iff.rfl
      cases b with
      | false => simp [← h2]
      | true => simp [← h2, Eff.apply_says e params args s hlen hwf.2.1]
    · intro t h
      cases b with
      | false => simp only [Bool.false_eq_true, if_false, Res.pure_eq, Res.ok.injEq, Prod.mk.injEq, true_and] at h; exact h.symm
      | true => exact Eff.apply_zero _ _ e _ _ _ _ h
end
end

/-! ## Quiet instances -/

section
variable [StrHash]

/-- The instance `as` of the axiom does nothing in `s`: its context is false, or applying it changes nothing. -/
def QuietInst (m : ObjMap) (axs : List Ax) (fuel : Nat) (ax : Ax) (s : State) (as : List Obj) : Prop :=
  ax.op.isValid m s as = .ok false ∨ (ax.op.isValid m s as = .ok true ∧ ax.op.apply m axs fuel as s = .ok (0, s))

theorem QuietInst.mono {m : ObjMap} {axs : List Ax} {n k : Nat} {ax : Ax} {s : State} {as : List Obj} (hnk : n ≤ k)
    (h : QuietInst m axs n ax s as) : QuietInst m axs k ax s as := by
  rcases h with h | ⟨h1, h2⟩
  · exact Or.inl h
  · exact Or.inr ⟨h1, by rw [Op.apply_mono m axs ax.op as s hnk (by rw [h2]; simp), h2]⟩

theorem consistentLoop_iff {m : ObjMap} {axs : List Ax} {fuel : Nat} {ax : Ax} {s : State} : ∀ l : List (List Obj),
    consistentLoop m axs fuel ax s l s = .ok true ↔ ∀ as ∈ l, QuietInst m axs fuel ax s as
  | [] => by simp [consistentLoop]
  | as :: l => by
    have ih := consistentLoop_iff (m := m) (axs := axs) (fuel := fuel) (ax := ax) (s := s) l
    simp only [consistentLoop, List.mem_cons, forall_eq_or_imp]
    rw [← ih, QuietInst]
    cases hv : ax.op.isValid m s as with
    | ok b =>
      cases b with
      | false => simp
      | true =>
        simp only [Res.bind_ok, if_true]
        cases ha : ax.op.apply m axs fuel as s with
        | ok r =>
          obtain ⟨n, t⟩ := r
          simp only [catchExc, Res.bind_ok]
          by_cases hn : n = 0
          · subst hn
            have := Eff.apply_zero _ _ _ _ _ _ _ ha
            subst this
            simp
          · simp [hn]
        | exc e => simp [catchExc]
        | ub => simp [catchExc]
        | fuel => simp [catchExc]
    | exc e => simp
    | ub => simp
    | fuel => simp

theorem axApplyLoop_quiet {m : ObjMap} {axs : List Ax} {fuel : Nat} {ax : Ax} {s : State} : ∀ l : List (List Obj),
    (∀ as ∈ l, QuietInst m axs fuel ax s as) → axApplyLoop m axs fuel ax l s = .ok (false, s)
  | [], _ => rfl
  | as :: l, h => by
    have ih := axApplyLoop_quiet l (fun a ha => h a (by simp [ha]))
    rcases h as (by simp) with h | ⟨h1, h2⟩
    · simp [axApplyLoop, h, ih]
    · simp [axApplyLoop, h1, h2, ih]

theorem axApplyLoop_ok {m : ObjMap} {axs : List Ax} {fuel : Nat} {ax : Ax} : ∀ (l : List (List Obj)) (s t : State),
    axApplyLoop m axs fuel ax l s = .ok (false, t) → t = s ∧ ∀ as ∈ l, QuietInst m axs fuel ax s as
  | [], s, t, h => by
    simp only [axApplyLoop, Res.ok.injEq, Prod.mk.injEq, true_and] at h
    exact ⟨h.symm, by simp⟩
  | as :: l, s, t, h => by
    simp only [axApplyLoop, Res.bind_eq_ok, Res.pure_eq, Res.ok.injEq, Prod.mk.injEq, Bool.or_eq_false_iff] at h
    obtain ⟨b, h1, ⟨n, u⟩, h2, ⟨b', t'⟩, h3, ⟨h4, h5⟩, rfl⟩ := h
    simp only at h3 h4 h5 ⊢
    subst h5
    have hn : n = 0 := by simpa using h4
    subst hn
    have hq : u = s ∧ QuietInst m axs fuel ax s as := by
      cases b with
      | false =>
        simp only [Bool.false_eq_true, if_false, Res.ok.injEq, Prod.mk.injEq, true_and] at h2
        exact ⟨h2.symm, Or.inl h1⟩
      | true =>
        simp only [if_true] at h2
        have := Eff.apply_zero _ _ _ _ _ _ _ h2
        subst this
        exact ⟨rfl, Or.inr ⟨h1, h2⟩⟩
    obtain ⟨rfl, hq⟩ := hq
    obtain ⟨h6, h7⟩ := axApplyLoop_ok l u t' h3
    refine ⟨h6, ?_⟩
    intro a ha
    rcases List.mem_cons.1 ha with rfl | ha
    · exact hq
    · exact h7 a ha

/-- Every instance of every axiom is quiet. -/
def AllQuiet (m : ObjMap) (axs : List Ax) (fuel : Nat) (l : List Ax) (s : State) : Prop :=
  ∀ ax ∈ l, ∀ as ∈ ax.arguments, QuietInst m axs fuel ax s as

theorem consistentPass_ok {m : ObjMap} {axs : List Ax} {fuel : Nat} : ∀ (l : List Ax) (s t : State),
    Pddl.consistentPass m axs fuel l s = .ok (false, t) → t = s ∧ AllQuiet m axs fuel l s
  | [], s, t, h => by
    simp only [Pddl.consistentPass, Res.ok.injEq, Prod.mk.injEq, true_and] at h
    exact ⟨h.symm, by simp [AllQuiet]⟩
  | ax :: l, s, t, h => by
    simp only [Pddl.consistentPass, Res.bind_eq_ok, Res.pure_eq, Res.ok.injEq, Prod.mk.injEq, Bool.or_eq_false_iff] at h
    obtain ⟨⟨b, u⟩, h1, ⟨b', t'⟩, h2, ⟨h3, h4⟩, rfl⟩ := h
    simp only at h2 h3 h4 ⊢
    subst h3 h4
    obtain ⟨rfl, hq⟩ := axApplyLoop_ok _ _ _ h1
    obtain ⟨h5, h6⟩ := consistentPass_ok l u t' h2
    refine ⟨h5, ?_⟩
    intro a ha
    rcases List.mem_cons.1 ha with rfl | ha
    · exact hq
    · exact h6 a ha

theorem consistentPass_quiet {m : ObjMap} {axs : List Ax} {fuel : Nat} {s : State} : ∀ l : List Ax,
    AllQuiet m axs fuel l s → Pddl.consistentPass m axs fuel l s = .ok (false, s)
  | [], _ => rfl
  | ax :: l, h => by
    simp [Pddl.consistentPass, Ax.apply, axApplyLoop_quiet _ (h ax (by simp)),
      consistentPass_quiet l (fun a ha => h a (by simp [ha]))]

theorem validLoop_iff {m : ObjMap} {axs : List Ax} {fuel : Nat} {s : State} : ∀ l : List Ax,
    Pddl.validLoop m axs fuel s l = .ok true ↔ AllQuiet m axs fuel l s
  | [] => by simp [Pddl.validLoop, AllQuiet]
  | ax :: l => by
    have ih := validLoop_iff (m := m) (axs := axs) (fuel := fuel) (s := s) l
    have hc := consistentLoop_iff (m := m) (axs := axs) (fuel := fuel) (ax := ax) (s := s) ax.arguments
    simp only [AllQuiet, List.mem_cons, forall_eq_or_imp] at ih ⊢
    rw [← hc, ← ih]
    simp only [Pddl.validLoop, Ax.isConsistent]
    cases consistentLoop m axs fuel ax s ax.arguments s with
    | ok b => cases b <;> simp
    | exc e => simp
    | ub => simp
    | fuel => simp

theorem consistentFix_ok {m : ObjMap} {axs : List Ax} {fuel : Nat} : ∀ (k : Nat) (s t : State),
    Pddl.consistentFix m axs fuel k s = .ok t → AllQuiet m axs fuel axs t
  | 0, s, t, h => by simp [Pddl.consistentFix] at h
  | k + 1, s, t, h => by
    simp only [Pddl.consistentFix, Res.bind_eq_ok] at h
    obtain ⟨⟨b, u⟩, h1, h2⟩ := h
    cases b with
    | true => exact consistentFix_ok k _ _ (by simpa using h2)
    | false =>
      simp only [Bool.false_eq_true, if_false, Res.pure_eq, Res.ok.injEq] at h2
      subst h2
      obtain ⟨rfl, h3⟩ := consistentPass_ok _ _ _ h1
      exact h3

theorem consistentFix_quiet {m : ObjMap} {axs : List Ax} {fuel k : Nat} {s : State} (h : AllQuiet m axs fuel axs s) :
    Pddl.consistentFix m axs fuel (k + 1) s = .ok s := by
  simp [Pddl.consistentFix, consistentPass_quiet _ h]

theorem AllQuiet.mono {m : ObjMap} {axs : List Ax} {n k : Nat} {l : List Ax} {s : State} (hnk : n ≤ k)
    (h : AllQuiet m axs n l s) : AllQuiet m axs k l s := fun ax hm as ha => (h ax hm as ha).mono hnk

end

end Symbolic
