import Verif.Lemmas.Effects

/-!
# Relations kept by every effect, conditional or not, with any axioms
-/

namespace Symbolic

variable {σ : Type} [StateLike σ]

/-- `Q n s t`: an application from `s` to `t` that reports `n`; `R s t`: a chain of fired axioms. `A sign p`: which
insertions and removals may happen. -/
structure StepRel (A : Bool → Name → Prop) (Q : Nat → σ → σ → Prop) (R : σ → σ → Prop) : Prop where
  refl : ∀ s, Q 0 s s
  comp : ∀ {n k s t u}, Q n s t → Q k t u → Q (max n k) s u
  insert : ∀ s (x : Atom), A true x.pred → Q (StateLike.insert s x).1 s (StateLike.insert s x).2
  erase : ∀ s (x : Atom), A false x.pred → Q (StateLike.erase s x).1 s (StateLike.erase s x).2
  fire : ∀ {n s t u}, Q n s t → R t u → Q n s u
  toR : ∀ {n s t}, Q n s t → R s t
  reflR : ∀ s, R s s
  transR : ∀ {s t u}, R s t → R t u → R s u

/-- Firing only moves along `R`. -/
def FireRel (A : Bool → Name → Prop) (R : σ → σ → Prop) (fire : Fire σ) : Prop :=
  ∀ sign pred ps es as s s', A sign pred → fire sign pred ps es as s = .ok s' → R s s'

section
variable {A : Bool → Name → Prop} {Q : Nat → σ → σ → Prop} {R : σ → σ → Prop}

theorem applySimple_rel (hs : StepRel A Q R) {m : ObjMap} {fire : Fire σ} (hf : FireRel A R fire) {sign : Bool}
    {pred : Name} (hA : A sign pred) {ts : List Term} {params args : List Obj} {s : σ} {r : Nat × σ}
    (h : applySimple m fire sign pred ts params args s = .ok r) : Q r.1 s r.2 := by
  simp only [applySimple, Res.bind_eq_ok] at h
  obtain ⟨os, -, h⟩ := h
  cases hk : atomKind m pred <;> simp only [hk, Res.bind_eq_ok] at h
  · obtain ⟨a, -, b, -, h⟩ := h
    split at h
    · simp only [Res.pure_eq, Res.ok.injEq] at h; subst h; exact hs.refl s
    · simp at h
  · obtain ⟨a, -, h⟩ := h
    split at h
    · simp only [Res.pure_eq, Res.ok.injEq] at h; subst h; exact hs.refl s
    · simp at h
  · cases sign
    · simp only [Bool.false_eq_true, if_false] at h
      have hq := hs.erase s (Atom.ofObjs pred os) hA
      split at h
      · simp only [Res.pure_eq, Res.ok.injEq] at h
        rw [← h]; exact hq
      · simp only [Res.bind_eq_ok, Res.pure_eq, Res.ok.injEq] at h
        obtain ⟨s', h1, h2⟩ := h
        rw [← h2]; exact hs.fire hq (hf _ _ _ _ _ _ _ hA h1)
    · simp only [if_true] at h
      have hq := hs.insert s (Atom.ofObjs pred os) hA
      split at h
      · simp only [Res.pure_eq, Res.ok.injEq] at h
        rw [← h]; exact hq
      · simp only [Res.bind_eq_ok, Res.pure_eq, Res.ok.injEq] at h
        obtain ⟨s', h1, h2⟩ := h
        rw [← h2]; exact hs.fire hq (hf _ _ _ _ _ _ _ hA h1)

theorem applySimples_rel (hs : StepRel A Q R) {m : ObjMap} {fire : Fire σ} (hf : FireRel A R fire) {sign : Bool}
    {params args : List Obj} : ∀ {l : List (Name × List Term)} {s : σ} {r : Nat × σ},
    (∀ p, ListsPred l p → A sign p) → applySimples m fire sign params args l s = .ok r → Q r.1 s r.2
  | [], s, r, _, h => by
    simp only [applySimples, Res.ok.injEq] at h; subst h; exact hs.refl s
  | (pred, ts) :: l, s, r, hA, h => by
    simp only [applySimples, Res.bind_eq_ok, Res.pure_eq, Res.ok.injEq] at h
    obtain ⟨r1, h1, r2, h2, rfl⟩ := h
    exact hs.comp (applySimple_rel hs hf (hA pred ⟨ts, by simp⟩) h1)
      (applySimples_rel hs hf (fun p ⟨ts', hm⟩ => hA p ⟨ts', by simp [hm]⟩) h2)

theorem loopEff_rel (hs : StepRel A Q R) {f : List Obj → σ → Res (Nat × σ)}
    (hf : ∀ os s r, f os s = .ok r → Q r.1 s r.2) :
    ∀ {l : List (List Obj)} {s : σ} {r : Nat × σ}, loopEff f l s = .ok r → Q r.1 s r.2
  | [], s, r, h => by simp only [loopEff, Res.ok.injEq] at h; subst h; exact hs.refl s
  | os :: l, s, r, h => by
    simp only [loopEff, Res.bind_eq_ok, Res.pure_eq, Res.ok.injEq] at h
    obtain ⟨r1, h1, r2, h2, rfl⟩ := h
    exact hs.comp (hf _ _ _ h1) (loopEff_rel hs hf h2)

mutual
theorem Eff.apply_rel (hs : StepRel A Q R) {m : ObjMap} {fire : Fire σ} (hf : FireRel A R fire) :
    ∀ (e : Eff) (params args : List Obj) (s : σ) (r : Nat × σ), (∀ sign p, e.Touches sign p → A sign p) →
    e.apply m fire params args s = .ok r → Q r.1 s r.2
  | .mk fs adds dels cs, params, args, s, r, hA, h => by
    simp only [Eff.apply, Res.bind_eq_ok, Res.pure_eq, Res.ok.injEq] at h
    obtain ⟨r1, h1, r2, h2, r3, h3, r4, h4, rfl⟩ := h
    have q1 := FList.apply_rel hs hf fs _ _ _ _ (fun sg p ht => hA sg p (by simp [Eff.Touches, ht])) h1
    have q2 := applySimples_rel hs hf (fun p hl => hA true p (by simp [Eff.Touches, hl])) h2
    have q3 := applySimples_rel hs hf (fun p hl => hA false p (by simp [Eff.Touches, hl])) h3
    have q4 := CList.apply_rel hs hf cs _ _ _ _ (fun sg p ht => hA sg p (by simp [Eff.Touches, ht])) h4
    exact hs.comp (hs.comp q1 q2) (hs.comp q3 q4)
theorem FList.apply_rel (hs : StepRel A Q R) {m : ObjMap} {fire : Fire σ} (hf : FireRel A R fire) :
    ∀ (e : FList) (params args : List Obj) (s : σ) (r : Nat × σ), (∀ sign p, e.Touches sign p → A sign p) →
    e.apply m fire params args s = .ok r → Q r.1 s r.2
  | .nil, params, args, s, r, _, h => by
    simp only [FList.apply, Res.ok.injEq] at h; subst h; exact hs.refl s
  | .cons vars e rest, params, args, s, r, hA, h => by
    simp only [FList.apply, Res.bind_eq_ok, Res.pure_eq, Res.ok.injEq] at h
    obtain ⟨l, -, r1, h1, r2, h2, rfl⟩ := h
    exact hs.comp
      (loopEff_rel hs (fun os s r h => Eff.apply_rel hs hf e _ _ s r
        (fun sg p ht => hA sg p (by simp [FList.Touches, ht])) h) h1)
      (FList.apply_rel hs hf rest _ _ _ _ (fun sg p ht => hA sg p (by simp [FList.Touches, ht])) h2)
theorem CList.apply_rel (hs : StepRel A Q R) {m : ObjMap} {fire : Fire σ} (hf : FireRel A R fire) :
    ∀ (e : CList) (params args : List Obj) (s : σ) (r : Nat × σ), (∀ sign p, e.Touches sign p → A sign p) →
    e.apply m fire params args s = .ok r → Q r.1 s r.2
  | .nil, params, args, s, r, _, h => by
    simp only [CList.apply, Res.ok.injEq] at h; subst h; exact hs.refl s
  | .cons g e rest, params, args, s, r, hA, h => by
    simp only [CList.apply, Res.bind_eq_ok, Res.pure_eq, Res.ok.injEq] at h
    obtain ⟨b, -, r1, h1, r2, h2, rfl⟩ := h
    refine hs.comp ?_
      (CList.apply_rel hs hf rest _ _ _ _ (fun sg p ht => hA sg p (by simp [CList.Touches, ht])) h2)
    cases b
    · simp only [Bool.false_eq_true, if_false, Res.ok.injEq] at h1; subst h1; exact hs.refl s
    · exact Eff.apply_rel hs hf e _ _ s _ (fun sg p ht => hA sg p (by simp [CList.Touches, ht])) h1
end

omit [StateLike σ] in
theorem fireLoop_rel {run : Ax → List Obj → σ → Res (Nat × σ)} (hrefl : ∀ s, R s s)
    (htrans : ∀ {s t u}, R s t → R t u → R s u) {sign : Bool} {pred : Name} {params effParams args : List Obj} :
    ∀ {axs : List Ax} {s s' : σ}, (∀ ax ∈ axs, ax.pos = sign → ax.pred = pred → ∀ as s r, run ax as s = .ok r → R s r.2) →
    fireLoop run sign pred params effParams args axs s = .ok s' → R s s'
  | [], s, s', _, h => by simp only [fireLoop, Res.ok.injEq] at h; subst h; exact hrefl s
  | ax :: rest, s, s', hr, h => by
    have ih := fun s => fireLoop_rel (sign := sign) (pred := pred) (params := params) (effParams := effParams)
      (args := args) (s := s) (s' := s') hrefl htrans (axs := rest) (fun a ha => hr a (by simp [ha]))
    simp only [fireLoop] at h
    split at h
    · rename_i hc
      simp only [Res.bind_eq_ok] at h
      obtain ⟨mt, -, h⟩ := h
      cases mt with
      | none => exact ih s h
      | some mt =>
        simp only [Res.bind_eq_ok] at h
        obtain ⟨as, -, h⟩ := h
        cases as with
        | none => exact ih s h
        | some as =>
          simp only [Res.bind_eq_ok] at h
          obtain ⟨r, h1, h2⟩ := h
          exact htrans (hr ax (by simp) hc.1 hc.2 _ _ _ h1) (ih _ h2)
    · exact ih s h

theorem fireN_rel (hs : StepRel A Q R) {m : ObjMap} {axs : List Ax}
    (hA : ∀ ax ∈ axs, A ax.pos ax.pred → ∀ sign p, ax.op.eff.Touches sign p → A sign p) :
    ∀ n, FireRel A R (fireN (σ := σ) m axs n)
  | 0 => fun _ _ _ _ _ _ _ _ h => fireLoop_rel hs.reflR hs.transR (by intro _ _ _ _ _ _ _ h; simp at h) h
  | n + 1 => fun _ _ _ _ _ _ _ hsp h => fireLoop_rel hs.reflR hs.transR
    (fun ax hax h1 h2 _ _ _ h => hs.toR (Eff.apply_rel hs (fireN_rel hs hA n) ax.op.eff _ _ _ _
      (hA ax hax (by rw [h1, h2]; exact hsp)) h)) h

theorem Op.apply_rel' (hs : StepRel A Q R) {m : ObjMap} {axs : List Ax}
    (hA : ∀ ax ∈ axs, A ax.pos ax.pred → ∀ sign p, ax.op.eff.Touches sign p → A sign p) {op : Op}
    (hop : ∀ sign p, op.eff.Touches sign p → A sign p) {fuel : Nat} {args : List Obj} {s : σ} {r : Nat × σ}
    (h : op.apply m axs fuel args s = .ok r) : Q r.1 s r.2 :=
  Eff.apply_rel hs (fireN_rel hs hA fuel) op.eff _ _ _ _ hop h

theorem Op.apply_rel (hs : StepRel A Q R) {m : ObjMap} {axs : List Ax}
    (hA : ∀ ax ∈ axs, ∀ sign p, ax.op.eff.Touches sign p → A sign p) {op : Op}
    (hop : ∀ sign p, op.eff.Touches sign p → A sign p) {fuel : Nat} {args : List Obj} {s : σ} {r : Nat × σ}
    (h : op.apply m axs fuel args s = .ok r) : Q r.1 s r.2 :=
  Op.apply_rel' hs (fun ax hax _ => hA ax hax) hop h

end

end Symbolic
