import Verif.Lemmas.EffectRel
import Verif.Lemmas.Effects
import Verif.Lemmas.Derived

/-!
After an effect its literals hold, if nothing it triggers undoes them. Conditions are about predicates that nothing
changes.
-/

namespace Symbolic

variable [StrHash]

/-- The literal holds in the state. -/
def Holds (sign : Bool) (x : Atom) (s : State) : Prop := x ∈ s ↔ sign = true

/-- Literals of `L` that hold in `s` still hold in `t`. -/
def Keeps (L : Bool → Atom → Prop) (s t : State) : Prop := ∀ sign x, L sign x → Holds sign x s → Holds sign x t

theorem Keeps.refl (L : Bool → Atom → Prop) (s : State) : Keeps L s s := fun _ _ _ h => h

theorem Keeps.trans {L : Bool → Atom → Prop} {s t u : State} (h1 : Keeps L s t) (h2 : Keeps L t u) : Keeps L s u :=
  fun sign x hl h => h2 sign x hl (h1 sign x hl h)

theorem holds_stepOp {sign sign' : Bool} {x y : Atom} {s : State} (h : Holds sign y s)
    (hno : x = y → sign' = sign) : Holds sign y (stepOp sign' x s).2 := by
  unfold Holds at h ⊢
  rw [mem_stepOp]
  split
  · rename_i e
    rw [hno e.symm]
  · exact h

theorem keeps_rel {L A : Bool → Name → Prop} {M : Bool → Atom → Prop} (hM : ∀ sign x, M sign x → L sign x.pred)
    (hA : ∀ sign p, L sign p → ¬ A (!sign) p) :
    StepRel (σ := State) A (fun _ s t => Keeps M s t) (fun s t => Keeps M s t) where
  refl s := Keeps.refl M s
  comp h1 h2 := h1.trans h2
  insert s x hx sign y hl h := holds_stepOp (sign' := true) h (by
    rintro rfl
    cases sign with
    | true => rfl
    | false => exact absurd hx (hA _ _ (hM _ _ hl)))
  erase s x hx sign y hl h := holds_stepOp (sign' := false) h (by
    rintro rfl
    cases sign with
    | true => exact absurd hx (hA _ _ (hM _ _ hl))
    | false => rfl)
  fire h1 h2 := h1.trans h2
  toR h := h
  reflR s := Keeps.refl M s
  transR h1 h2 := h1.trans h2

/-- Firing keeps the literals of `M`. -/
def FireKeeps (M : Bool → Atom → Prop) (fire : Fire State) : Prop :=
  ∀ sign pred ps es as s s', fire sign pred ps es as s = .ok s' → Keeps M s s'

theorem fireN_keeps {m : ObjMap} {axs : List Ax} {M : Bool → Atom → Prop}
    (h : ∀ sign x, M sign x → ∀ ax ∈ axs, ¬ ax.op.eff.Touches (!sign) x.pred) (n : Nat) :
    FireKeeps M (fireN (σ := State) m axs n) := by
  have hs := keeps_rel (L := fun sign p => ∃ x, M sign x ∧ x.pred = p)
    (A := fun sign p => ∃ ax ∈ axs, ax.op.eff.Touches sign p) (M := M) (fun sign x hx => ⟨x, hx, rfl⟩)
    (by rintro sign p ⟨x, hx, rfl⟩ ⟨ax, ha, ht⟩; exact h sign x hx ax ha ht)
  cases n with
  | zero =>
    intro _ _ _ _ _ _ _ hf
    exact fireLoop_rel hs.reflR hs.transR (by intro _ _ _ _ _ _ _ h; simp at h) hf
  | succ n =>
    intro _ _ _ _ _ _ _ hf
    exact fireLoop_rel hs.reflR hs.transR (fun ax hax _ _ _ _ _ h => hs.toR (n := 0) (Eff.apply_rel hs (fireN_rel hs
      (fun ax ha _ sign p ht => ⟨ax, ha, ht⟩) n) ax.op.eff _ _ _ _ (fun sign p ht => ⟨ax, hax, ht⟩) h)) hf

/-- The relation "the predicates of `R` are unchanged" is kept by every step that does not touch them. -/
theorem agree_rel (R : Name → Prop) :
    StepRel (σ := State) (fun _ p => ¬ R p) (fun _ s t => AgreePreds R t s) (fun s t => AgreePreds R t s) where
  refl s := fun _ _ => Iff.rfl
  comp h1 h2 := fun x hx => (h2 x hx).trans (h1 x hx)
  insert s x hx y hy := by
    have : y ≠ x := by rintro rfl; exact hx hy
    change y ∈ (stepOp true x s).2 ↔ _
    rw [mem_stepOp, if_neg this]
  erase s x hx y hy := by
    have : y ≠ x := by rintro rfl; exact hx hy
    change y ∈ (stepOp false x s).2 ↔ _
    rw [mem_stepOp, if_neg this]
  fire h1 h2 := fun x hx => (h2 x hx).trans (h1 x hx)
  toR h := h
  reflR s := fun _ _ => Iff.rfl
  transR h1 h2 := fun x hx => (h2 x hx).trans (h1 x hx)

theorem AgreePreds.trans' {R : Name → Prop} {s t u : State} (h1 : AgreePreds R s t) (h2 : AgreePreds R t u) :
    AgreePreds R s u := fun x hx => (h1 x hx).trans (h2 x hx)

/-- Firing does not change the predicates of `R`. -/
abbrev FireAgrees (R : Name → Prop) (fire : Fire State) : Prop :=
  FireRel (fun _ p => ¬ R p) (fun s t => AgreePreds R t s) fire

section
variable {objects : List Obj} {M : Bool → Atom → Prop} {fire : Fire State} {R : Name → Prop} {s₀ : State}

theorem applySimples_achieves (hM : ∀ x, M true x → ¬ M false x) (hf : FireKeeps M fire) (sign : Bool)
    (params args : List Obj) (hlen : params.length = args.length) :
    ∀ (l : List (Name × List Term)) (s : State) (r : Nat × State), WFLits objects (params.map Obj.name) l →
    (∀ x, Lists (Env.none.bind params args) l x → M sign x) →
    applySimples (ObjMap.create objects) fire sign params args l s = .ok r →
    Keeps M s r.2 ∧ ∀ x, Lists (Env.none.bind params args) l x → Holds sign x r.2
  | [], s, r, _, _, h => by
    simp only [applySimples, Res.ok.injEq] at h
    subst h
    exact ⟨Keeps.refl M s, by simp [Lists]⟩
  | (pred, ts) :: l, s, r, hwf, hL, h => by
    simp only [applySimples, Res.bind_eq_ok, Res.pure_eq, Res.ok.injEq] at h
    obtain ⟨r1, h1, r2, h2, rfl⟩ := h
    have h0 := hwf pred ts (by simp)
    have hk := (atomKind_create objects pred).2.2.2 h0.2
    set a := Atom.ofObjs pred (ts.map (Term.value params args)) with ha
    have hlist : ∀ x, Lists (Env.none.bind params args) ((pred, ts) :: l) x ↔
        x = a ∨ Lists (Env.none.bind params args) l x := by
      intro x
      rw [lists_iff hlen hwf, lists_iff hlen (objects := objects) (l := l) (fun p t hm => hwf p t (by simp [hm]))]
      simp only [List.mem_cons, exists_eq_or_imp, ha]
    have hMa : M sign a := hL a ((hlist a).2 (Or.inl rfl))
    have hstep : Keeps M s r1.2 ∧ Holds sign a r1.2 := by
      simp only [applySimple, applyFn_terms params args ts (Nat.le_of_eq hlen), Res.bind_ok, hk] at h1
      have e : (if sign = true then StateLike.insert s (Atom.ofObjs pred (ts.map (Term.value params args)))
          else StateLike.erase s (Atom.ofObjs pred (ts.map (Term.value params args)))) = stepOp sign a s := rfl
      rw [e] at h1
      have hk1 : Keeps M s (stepOp sign a s).2 := by
        intro sg y hy hh
        refine holds_stepOp hh ?_
        rintro rfl
        cases sg <;> cases sign
        · rfl
        · exact absurd hy (hM _ hMa)
        · exact absurd hMa (hM _ hy)
        · rfl
      have hk2 : Holds sign a (stepOp sign a s).2 := by
        unfold Holds; rw [mem_stepOp]; simp
      split at h1
      · simp only [Res.pure_eq, Res.ok.injEq] at h1
        subst h1
        exact ⟨hk1, hk2⟩
      · simp only [Res.bind_eq_ok, Res.pure_eq, Res.ok.injEq] at h1
        obtain ⟨s', h3, rfl⟩ := h1
        have := hf _ _ _ _ _ _ _ h3
        exact ⟨hk1.trans this, this _ _ hMa hk2⟩
    obtain ⟨k1, k2⟩ := applySimples_achieves hM hf sign params args hlen l r1.2 r2
      (fun p t hm => hwf p t (by simp [hm])) (fun x hx => hL x ((hlist x).2 (Or.inr hx))) h2
    refine ⟨hstep.1.trans k1, ?_⟩
    intro x hx
    rcases (hlist x).1 hx with rfl | hx
    · exact k1 _ _ hMa hstep.2
    · exact k2 x hx

mutual
theorem Eff.apply_achieves (hM : ∀ x, M true x → ¬ M false x) (hf : FireKeeps M fire) (hfr : FireAgrees R fire) :
    ∀ (e : Eff) (params args : List Obj) (s : State) (r : Nat × State), params.length = args.length →
    e.WF objects (params.map Obj.name) → AgreePreds R s s₀ → (∀ p, e.Reads p → R p) →
    (∀ sign p, e.Touches sign p → ¬ R p) →
    (∀ sign x, Makes objects (· ∈ s₀) sign (Env.none.bind params args) e x → M sign x) →
    e.apply (ObjMap.create objects) fire params args s = .ok r →
    Keeps M s r.2 ∧ ∀ sign x, Makes objects (· ∈ s₀) sign (Env.none.bind params args) e x → Holds sign x r.2
  | .mk fs adds dels cs, params, args, s, r, hlen, hwf, ha, hr, ht, hL, h => by
    simp only [Eff.WF] at hwf
    simp only [Eff.Reads] at hr
    simp only [Eff.Touches] at ht
    simp only [Eff.apply, Res.bind_eq_ok, Res.pure_eq, Res.ok.injEq] at h
    obtain ⟨r1, h1, r2, h2, r3, h3, r4, h4, rfl⟩ := h
    simp only [Makes] at hL ⊢
    have g1 : AgreePreds R r1.2 s := FList.apply_rel (agree_rel R) hfr fs _ _ _ _
      (fun sg p h => ht sg p (Or.inl h)) h1
    have g2 : AgreePreds R r2.2 r1.2 := applySimples_rel (agree_rel R) hfr
      (fun p h => ht true p (Or.inr (Or.inl ⟨rfl, h⟩))) h2
    have g3 : AgreePreds R r3.2 r2.2 := applySimples_rel (agree_rel R) hfr
      (fun p h => ht false p (Or.inr (Or.inr (Or.inl ⟨rfl, h⟩)))) h3
    obtain ⟨a1, b1⟩ := FList.apply_achieves hM hf hfr fs params args s r1 hlen hwf.1 ha
      (fun p h => hr p (Or.inl h)) (fun sg p h => ht sg p (Or.inl h))
      (fun sign x hx => hL sign x (Or.inl hx)) h1
    obtain ⟨a2, b2⟩ := applySimples_achieves hM hf true params args hlen adds r1.2 r2 hwf.2.1
      (fun x hx => hL true x (Or.inr (Or.inl ⟨rfl, hx⟩))) h2
    obtain ⟨a3, b3⟩ := applySimples_achieves hM hf false params args hlen dels r2.2 r3 hwf.2.2.1
      (fun x hx => hL false x (Or.inr (Or.inr (Or.inl ⟨rfl, hx⟩)))) h3
    obtain ⟨a4, b4⟩ := CList.apply_achieves hM hf hfr cs params args r3.2 r4 hlen hwf.2.2.2
      (((g3.trans' g2).trans' g1).trans' ha)
      (fun p h => hr p (Or.inr h)) (fun sg p h => ht sg p (Or.inr (Or.inr (Or.inr h))))
      (fun sign x hx => hL sign x (Or.inr (Or.inr (Or.inr hx)))) h4
    refine ⟨((a1.trans a2).trans a3).trans a4, ?_⟩
    rintro sign x (hx | ⟨rfl, hx⟩ | ⟨rfl, hx⟩ | hx)
    · exact ((a2.trans a3).trans a4) _ _ (hL _ _ (Or.inl hx)) (b1 sign x hx)
    · exact (a3.trans a4) _ _ (hL _ _ (Or.inr (Or.inl ⟨rfl, hx⟩))) (b2 x hx)
    · exact a4 _ _ (hL _ _ (Or.inr (Or.inr (Or.inl ⟨rfl, hx⟩)))) (b3 x hx)
    · exact b4 sign x hx

theorem FList.apply_achieves (hM : ∀ x, M true x → ¬ M false x) (hf : FireKeeps M fire) (hfr : FireAgrees R fire) :
    ∀ (e : FList) (params args : List Obj) (s : State) (r : Nat × State), params.length = args.length →
    e.WF objects (params.map Obj.name) → AgreePreds R s s₀ → (∀ p, e.Reads p → R p) →
    (∀ sign p, e.Touches sign p → ¬ R p) →
    (∀ sign x, MakesF objects (· ∈ s₀) sign (Env.none.bind params args) e x → M sign x) →
    e.apply (ObjMap.create objects) fire params args s = .ok r →
    Keeps M s r.2 ∧ ∀ sign x, MakesF objects (· ∈ s₀) sign (Env.none.bind params args) e x → Holds sign x r.2
  | .nil, params, args, s, r, _, _, _, _, _, _, h => by
    simp only [FList.apply, Res.ok.injEq] at h
    subst h
    exact ⟨Keeps.refl M s, by simp [MakesF]⟩
  | .cons vars e rest, params, args, s, r, hlen, hwf, ha, hr, ht, hL, h => by
    simp only [FList.WF] at hwf
    simp only [FList.Reads] at hr
    simp only [FList.Touches] at ht
    simp only [FList.apply, Res.bind_eq_ok, Res.pure_eq, Res.ok.injEq] at h
    obtain ⟨l, hl, r1, h1, r2, h2, rfl⟩ := h
    have hm := fun os => mem_gen_create (args := os) hwf.1 hl
    simp only [MakesF] at hL ⊢
    have hloop : ∀ (l' : List (List Obj)), (∀ os ∈ l', WellTyped objects vars os) → ∀ (s : State) (r1 : Nat × State),
        AgreePreds R s s₀ →
        loopEff (fun os s => Eff.apply (ObjMap.create objects) fire e (params ++ vars) (args ++ os) s) l' s = .ok r1 →
        Keeps M s r1.2 ∧ AgreePreds R r1.2 s₀ ∧ ∀ os ∈ l', ∀ sign x,
          Makes objects (· ∈ s₀) sign ((Env.none.bind params args).bind vars os) e x → Holds sign x r1.2 := by
      intro l'
      induction l' with
      | nil =>
        intro _ s r1 ha h1
        simp only [loopEff, Res.ok.injEq] at h1
        subst h1
        exact ⟨Keeps.refl M s, ha, by simp⟩
      | cons os l' ih =>
        intro hw s r1 ha h1
        simp only [loopEff, Res.bind_eq_ok, Res.pure_eq, Res.ok.injEq] at h1
        obtain ⟨q1, g1, q2, g2, rfl⟩ := h1
        have hos := hw os (by simp)
        have hb := Env.bind_append Env.none params args vars os hlen
        obtain ⟨a1, b1⟩ := Eff.apply_achieves hM hf hfr e (params ++ vars) (args ++ os) s q1
          (by simp [hlen, hos.length]) (by simpa using hwf.2.1) ha (fun p h => hr p (Or.inl h))
          (fun sg p h => ht sg p (Or.inl h))
          (by rw [hb]; exact fun sign x hx => hL sign x (Or.inl ⟨os, hos, hx⟩)) g1
        rw [hb] at b1
        have c1 : AgreePreds R q1.2 s := Eff.apply_rel (agree_rel R) hfr e _ _ _ _
          (fun sg p h => ht sg p (Or.inl h)) g1
        obtain ⟨a2, c2, b2⟩ := ih (fun os ho => hw os (by simp [ho])) q1.2 q2 (c1.trans' ha) g2
        refine ⟨a1.trans a2, c2, ?_⟩
        intro os' ho sign x hx
        rcases List.mem_cons.1 ho with rfl | ho
        · exact a2 _ _ (hL _ _ (Or.inl ⟨_, hos, hx⟩)) (b1 _ _ hx)
        · exact b2 os' ho sign x hx
    obtain ⟨a1, c1, b1⟩ := hloop l (fun os ho => (hm os).1 ho) s r1 ha h1
    obtain ⟨a2, b2⟩ := FList.apply_achieves hM hf hfr rest params args r1.2 r2 hlen hwf.2.2 c1
      (fun p h => hr p (Or.inr h)) (fun sg p h => ht sg p (Or.inr h))
      (fun sign x hx => hL sign x (Or.inr hx)) h2
    refine ⟨a1.trans a2, ?_⟩
    rintro sign x (⟨os, ho, hx⟩ | hx)
    · exact a2 _ _ (hL _ _ (Or.inl ⟨os, ho, hx⟩)) (b1 os ((hm os).2 ho) sign x hx)
    · exact b2 sign x hx

theorem CList.apply_achieves (hM : ∀ x, M true x → ¬ M false x) (hf : FireKeeps M fire) (hfr : FireAgrees R fire) :
    ∀ (e : CList) (params args : List Obj) (s : State) (r : Nat × State), params.length = args.length →
    e.WF objects (params.map Obj.name) → AgreePreds R s s₀ → (∀ p, e.Reads p → R p) →
    (∀ sign p, e.Touches sign p → ¬ R p) →
    (∀ sign x, MakesC objects (· ∈ s₀) sign (Env.none.bind params args) e x → M sign x) →
    e.apply (ObjMap.create objects) fire params args s = .ok r →
    Keeps M s r.2 ∧ ∀ sign x, MakesC objects (· ∈ s₀) sign (Env.none.bind params args) e x → Holds sign x r.2
  | .nil, params, args, s, r, _, _, _, _, _, _, h => by
    simp only [CList.apply, Res.ok.injEq] at h
    subst h
    exact ⟨Keeps.refl M s, by simp [MakesC]⟩
  | .cons g e rest, params, args, s, r, hlen, hwf, ha, hr, ht, hL, h => by
    simp only [CList.WF] at hwf
    simp only [CList.Reads] at hr
    simp only [CList.Touches] at ht
    simp only [CList.apply, Res.bind_eq_ok, Res.pure_eq, Res.ok.injEq] at h
    obtain ⟨b, hb, r1, h1, r2, h2, rfl⟩ := h
    simp only [MakesC] at hL ⊢
    obtain ⟨b', e1, e2⟩ := eval_stable (g := g) ha hlen hwf.1 (fun p n h => hr p (Or.inl ⟨n, h⟩))
    have hbb : b = b' := by
      have : StateLike.cond (σ := State) (Goal.eval g (ObjMap.create objects) params s args) = .ok b' := e1
      rw [this] at hb; simpa using hb.symm
    subst hbb
    cases b with
    | true =>
      have hg := e2.1 rfl
      simp only [if_true] at h1
      obtain ⟨a1, b1⟩ := Eff.apply_achieves hM hf hfr e params args s r1 hlen hwf.2.1 ha
        (fun p h => hr p (Or.inr (Or.inl h))) (fun sg p h => ht sg p (Or.inl h))
        (fun sign x hx => hL sign x (Or.inl ⟨hg, hx⟩)) h1
      have c1 : AgreePreds R r1.2 s := Eff.apply_rel (agree_rel R) hfr e _ _ _ _
        (fun sg p h => ht sg p (Or.inl h)) h1
      obtain ⟨a2, b2⟩ := CList.apply_achieves hM hf hfr rest params args r1.2 r2 hlen hwf.2.2 (c1.trans' ha)
        (fun p h => hr p (Or.inr (Or.inr h))) (fun sg p h => ht sg p (Or.inr h))
        (fun sign x hx => hL sign x (Or.inr hx)) h2
      refine ⟨a1.trans a2, ?_⟩
      rintro sign x (⟨-, hx⟩ | hx)
      · exact a2 _ _ (hL _ _ (Or.inl ⟨hg, hx⟩)) (b1 sign x hx)
      · exact b2 sign x hx
    | false =>
      simp only [Bool.false_eq_true, if_false, Res.ok.injEq] at h1
      subst h1
      obtain ⟨a2, b2⟩ := CList.apply_achieves hM hf hfr rest params args s r2 hlen hwf.2.2 ha
        (fun p h => hr p (Or.inr (Or.inr h))) (fun sg p h => ht sg p (Or.inr h))
        (fun sign x hx => hL sign x (Or.inr hx)) h2
      refine ⟨a2, ?_⟩
      rintro sign x (⟨hg, -⟩ | hx)
      · exact absurd (e2.2 hg) (by simp)
      · exact b2 sign x hx
end
end

omit [StrHash] in
mutual
/-- What an effect makes true or false depends only on the predicates its conditions read. -/
theorem makes_congr {objects : List Obj} {S T : Atom → Prop} (sign : Bool) : ∀ (e : Eff) (env : Env) (x : Atom),
    (∀ y, e.Reads y.pred → (S y ↔ T y)) → (Makes objects S sign env e x ↔ Makes objects T sign env e x)
  | .mk fs adds dels cs, env, x, h => by
    simp only [Eff.Reads] at h
    simp only [Makes, makesF_congr sign fs env x (fun y hy => h y (Or.inl hy)),
      makesC_congr sign cs env x (fun y hy => h y (Or.inr hy))]
theorem makesF_congr {objects : List Obj} {S T : Atom → Prop} (sign : Bool) : ∀ (e : FList) (env : Env) (x : Atom),
    (∀ y, e.Reads y.pred → (S y ↔ T y)) → (MakesF objects S sign env e x ↔ MakesF objects T sign env e x)
  | .nil, env, x, h => by simp [MakesF]
  | .cons vars e rest, env, x, h => by
    simp only [FList.Reads] at h
    simp only [MakesF, makesF_congr sign rest env x (fun y hy => h y (Or.inr hy))]
    exact or_congr (exists_congr fun os => and_congr_right fun _ =>
      makes_congr sign e (env.bind vars os) x (fun y hy => h y (Or.inl hy))) Iff.rfl
theorem makesC_congr {objects : List Obj} {S T : Atom → Prop} (sign : Bool) : ∀ (e : CList) (env : Env) (x : Atom),
    (∀ y, e.Reads y.pred → (S y ↔ T y)) → (MakesC objects S sign env e x ↔ MakesC objects T sign env e x)
  | .nil, env, x, h => by simp [MakesC]
  | .cons g e rest, env, x, h => by
    simp only [CList.Reads] at h
    simp only [MakesC, makesC_congr sign rest env x (fun y hy => h y (Or.inr (Or.inr hy))),
      makes_congr sign e env x (fun y hy => h y (Or.inr (Or.inl hy))),
      sat_congr (g := g) (S := S) (T := T) (env := env) (objects := objects) (fun y hy => h y (Or.inl hy))]
end

omit [StrHash] in
mutual
/-- What an unconditional effect makes true or false does not depend on the state. -/
theorem makes_noCond (objects : List Obj) (S T : Atom → Prop) (sign : Bool) : ∀ (e : Eff) (env : Env) (x : Atom),
    e.NoCond → (Makes objects S sign env e x ↔ Makes objects T sign env e x)
  | .mk fs adds dels cs, env, x, h => by
    simp only [Eff.NoCond] at h
    obtain ⟨h1, rfl⟩ := h
    simp only [Makes, MakesC, makesF_noCond objects S T sign fs env x h1]
theorem makesF_noCond (objects : List Obj) (S T : Atom → Prop) (sign : Bool) : ∀ (e : FList) (env : Env) (x : Atom),
    e.NoCond → (MakesF objects S sign env e x ↔ MakesF objects T sign env e x)
  | .nil, env, x, h => by simp [MakesF]
  | .cons vars e rest, env, x, h => by
    simp only [FList.NoCond] at h
    simp only [MakesF, makesF_noCond objects S T sign rest env x h.2]
    refine or_congr ⟨?_, ?_⟩ Iff.rfl
    · rintro ⟨os, ho, hm⟩
      exact ⟨os, ho, (makes_noCond objects S T sign e _ x h.1).1 hm⟩
    · rintro ⟨os, ho, hm⟩
      exact ⟨os, ho, (makes_noCond objects S T sign e _ x h.1).2 hm⟩
end

end Symbolic
