import Verif.Spec.Cascade
import Verif.Lemmas.PartialApply
import Verif.Lemmas.Universe
import Verif.Lemmas.TypeSound

/-!
# What an action and the axioms it triggers do
-/

namespace Symbolic

/-- More about the literals of a state. -/
class SignedLaw (σ : Type) [StateLike σ] [SignedState σ] : Prop where
  step_back : ∀ sign x (s : σ) sy, SignedState.Holds (stepS sign x s).2 sy → sy = (sign, x) ∨ SignedState.Holds s sy
  excl : ∀ (s : σ) sx, SignedState.Holds s sx → ¬ SignedState.Holds s (!sx.1, sx.2)
  step_two : ∀ sign x (s : σ), 1 < (stepS sign x s).1 → SignedState.Holds s (!sign, x)

instance [StrHash] : SignedLaw State where
  step_back := by
    rintro sign x s ⟨sg, y⟩ h
    change y ∈ (stepOp sign x s).2 ↔ sg = true at h
    rw [mem_stepOp] at h
    by_cases e : y = x
    · subst e
      left
      simp only [if_true] at h
      cases sign <;> cases sg <;> simp_all
    · right
      show y ∈ s ↔ sg = true
      simpa [e] using h
  excl := by
    rintro s ⟨sg, y⟩ h h'
    change y ∈ s ↔ sg = true at h
    change y ∈ s ↔ (!sg) = true at h'
    rw [h] at h'
    cases sg <;> simp at h'
  step_two := by
    intro sign x s h
    cases sign
    · change 1 < (if (s.erase x).1 then 1 else 0) at h
      split at h <;> omega
    · change 1 < (if (s.insert x).1 then 1 else 0) at h
      split at h <;> omega

instance [StrHash] : SignedLaw PartialState where
  step_back := by
    rintro sign x s ⟨sg, y⟩ h
    by_cases e : y = x
    · subst e
      left
      cases sign <;> cases sg
      · rfl
      · have h : y ∈ (s.pos.erase y).2 ∧ y ∉ (s.neg.insert y).2 := h
        rw [State.mem_erase] at h
        simp at h
      · have h : y ∈ (s.neg.erase y).2 ∧ y ∉ (s.pos.insert y).2 := h
        rw [State.mem_erase] at h
        simp at h
      · rfl
    · right
      cases sign <;> cases sg
      · have h : y ∈ (s.neg.insert x).2 ∧ y ∉ (s.pos.erase x).2 := h
        rw [State.mem_erase, State.mem_insert] at h
        show y ∈ s.neg ∧ y ∉ s.pos
        simpa [e] using h
      · have h : y ∈ (s.pos.erase x).2 ∧ y ∉ (s.neg.insert x).2 := h
        rw [State.mem_erase, State.mem_insert] at h
        show y ∈ s.pos ∧ y ∉ s.neg
        simpa [e] using h
      · have h : y ∈ (s.neg.erase x).2 ∧ y ∉ (s.pos.insert x).2 := h
        rw [State.mem_erase, State.mem_insert] at h
        show y ∈ s.neg ∧ y ∉ s.pos
        simpa [e] using h
      · have h : y ∈ (s.pos.insert x).2 ∧ y ∉ (s.neg.erase x).2 := h
        rw [State.mem_erase, State.mem_insert] at h
        show y ∈ s.pos ∧ y ∉ s.neg
        simpa [e] using h
  excl := by
    rintro s ⟨sg, y⟩ h h'
    cases sg
    · have h : y ∈ s.neg ∧ y ∉ s.pos := h
      have h' : y ∈ s.pos ∧ y ∉ s.neg := h'
      exact h.2 h'.1
    · have h : y ∈ s.pos ∧ y ∉ s.neg := h
      have h' : y ∈ s.neg ∧ y ∉ s.pos := h'
      exact h.2 h'.1
  step_two := by
    intro sign x s h
    cases sign
    · change 1 < (s.pos.erase x).1.toNat + (s.neg.insert x).1.toNat at h
      show x ∈ s.pos ∧ x ∉ s.neg
      have h3 : (s.pos.erase x).1 = decide (x ∈ s.pos) := State.erase_flag
      have h4 : (s.neg.insert x).1 = decide (x ∉ s.neg) := State.insert_flag
      rw [h3, h4] at h
      by_cases h1 : x ∈ s.pos <;> by_cases h2 : x ∈ s.neg <;> simp_all
    · change 1 < (s.neg.erase x).1.toNat + (s.pos.insert x).1.toNat at h
      show x ∈ s.neg ∧ x ∉ s.pos
      have h3 : (s.neg.erase x).1 = decide (x ∈ s.neg) := State.erase_flag
      have h4 : (s.pos.insert x).1 = decide (x ∉ s.pos) := State.insert_flag
      rw [h3, h4] at h
      by_cases h1 : x ∈ s.pos <;> by_cases h2 : x ∈ s.neg <;> simp_all

/-! ## Changes within a set of literals that is never undone -/

section
variable {σ : Type} [StateLike σ] [SignedState σ] {W M M₁ M₂ : Bool × Atom → Prop} {Tr : Bool × Atom → Bool × Atom → Prop}
  {s₀ s s' s'' : σ}

def FrameW (W : Bool × Atom → Prop) (s s' : σ) : Prop :=
  ∀ sx, (¬ SignedState.Holds s sx → SignedState.Holds s' sx → W sx) ∧
    (SignedState.Holds s sx → ¬ SignedState.Holds s' sx → W (!sx.1, sx.2))

def OneWayW (W : Bool × Atom → Prop) : Prop := ∀ sx : Bool × Atom, W sx → ¬ W (!sx.1, sx.2)

theorem FrameW.refl (s : σ) : FrameW W s s := fun _ => ⟨fun h h' => absurd h' h, fun h h' => absurd h h'⟩

theorem FrameW.trans (h : FrameW W s s') (h' : FrameW W s' s'') : FrameW W s s'' := by
  intro sx
  by_cases e : SignedState.Holds s' sx
  · exact ⟨fun h1 _ => (h sx).1 h1 e, fun _ h2 => (h' sx).2 e h2⟩
  · exact ⟨fun _ h2 => (h' sx).1 e h2, fun h1 _ => (h sx).2 h1 e⟩

theorem FrameW.keeps (hW : OneWayW W) (h : FrameW W s s') {sx : Bool × Atom} (hx : W sx) (hs : SignedState.Holds s sx) :
    SignedState.Holds s' sx := by
  by_contra hc
  exact hW sx hx ((h sx).2 hs hc)

/-- One run: changes only within `W`, the literals `M` are so afterwards, and so is what changes trigger. -/
structure Run (W : Bool × Atom → Prop) (Tr : Bool × Atom → Bool × Atom → Prop) (M : Bool × Atom → Prop) (s s' : σ) : Prop where
  frame : FrameW W s s'
  done : ∀ sx, M sx → SignedState.Holds s' sx
  trig : ∀ sx, ¬ SignedState.Holds s sx → SignedState.Holds s' sx → ∀ sy, Tr sx sy → SignedState.Holds s' sy

/-- What the run theorems are relative to: `W` is never undone and closed under what is triggered by literals that are not so
in `s₀`, and `L` lists it. -/
structure Closure (W : Bool × Atom → Prop) (Tr : Bool × Atom → Bool × Atom → Prop) (s₀ : σ) (L : List (Bool × Atom)) :
    Prop where
  oneWay : OneWayW W
  closed : ∀ sx, W sx → ¬ SignedState.Holds s₀ sx → ∀ sy, Tr sx sy → W sy
  list : ∀ sx, sx ∈ L ↔ W sx

variable {L : List (Bool × Atom)}

theorem Run.refl (s : σ) : Run W Tr (fun _ => False) s s :=
  ⟨.refl s, fun _ h => h.elim, fun _ h h' => absurd h' h⟩

theorem Closure.fresh (hC : Closure W Tr s₀ L) (hr : FrameW W s₀ s) {sx : Bool × Atom} (hx : W sx)
    (h : ¬ SignedState.Holds s sx) : ¬ SignedState.Holds s₀ sx := fun h0 => h (hr.keeps hC.oneWay hx h0)

theorem Run.trans (hC : Closure W Tr s₀ L) (hr : FrameW W s₀ s) (hM : ∀ sx, M₁ sx → W sx) (h : Run W Tr M₁ s s')
    (h' : Run W Tr M₂ s' s'') : Run W Tr (fun sx => M₁ sx ∨ M₂ sx) s s'' where
  frame := h.frame.trans h'.frame
  done := by
    rintro sx (hx | hx)
    · exact h'.frame.keeps hC.oneWay (hM sx hx) (h.done sx hx)
    · exact h'.done sx hx
  trig := by
    intro sx h1 h2 sy hy
    by_cases e : SignedState.Holds s' sx
    · have hw := (h.frame sx).1 h1 e
      exact h'.frame.keeps hC.oneWay (hC.closed sx hw (hC.fresh hr hw h1) sy hy) (h.trig sx h1 e sy hy)
    · exact h'.trig sx e h2 sy hy

theorem Run.congr (h : Run W Tr M s s') (he : ∀ sx, M₂ sx → M sx) : Run W Tr M₂ s s' :=
  ⟨h.frame, fun sx hx => h.done sx (he sx hx), h.trig⟩

theorem Closure.gap_le (hC : Closure W Tr s₀ L) (h : FrameW W s s') : gap L s' ≤ gap L s :=
  KeepsAll.gap fun sx hm hs => h.keeps hC.oneWay ((hC.list sx).1 hm) hs

/-- The call returns after such a run, reports a change exactly if there was one, and reports an opposite only if one was so
before. -/
def Ends (W : Bool × Atom → Prop) (Tr : Bool × Atom → Bool × Atom → Prop) (M : Bool × Atom → Prop) (s : σ)
    (r : Res (Nat × σ)) : Prop :=
  ∃ k s', r = .ok (k, s') ∧ Run W Tr M s s' ∧
    (k ≠ 0 → ∃ sx, W sx ∧ ¬ SignedState.Holds s sx ∧ SignedState.Holds s' sx) ∧ (k = 0 → s' = s) ∧
    (1 < k → ∃ sx, W sx ∧ SignedState.Holds s (!sx.1, sx.2))

theorem Ends.nothing (s : σ) : Ends W Tr (fun _ => False) s (.ok (0, s)) :=
  ⟨0, s, rfl, .refl s, fun h => absurd rfl h, fun _ => rfl, fun h => absurd h (by omega)⟩

theorem Ends.congr {r : Res (Nat × σ)} (h : Ends W Tr M s r) (he : ∀ sx, M₂ sx → M sx) : Ends W Tr M₂ s r := by
  obtain ⟨k, s', h1, h2, h3⟩ := h
  exact ⟨k, s', h1, h2.congr he, h3⟩

theorem Ends.seq (hC : Closure W Tr s₀ L) (hr : FrameW W s₀ s) (hM : ∀ sx, M₁ sx → W sx) {r : Res (Nat × σ)}
    {f : σ → Res (Nat × σ)} (h : Ends W Tr M₁ s r)
    (hf : ∀ s', FrameW W s₀ s' → gap L s' ≤ gap L s → Ends W Tr M₂ s' (f s')) :
    Ends W Tr (fun sx => M₁ sx ∨ M₂ sx) s (do let a ← r; let b ← f a.2; pure (max a.1 b.1, b.2)) := by
  obtain ⟨k, s', rfl, h2, h3, h4, h5⟩ := h
  obtain ⟨k', s'', e, h2', h3', h4', h5'⟩ := hf s' (hr.trans h2.frame) (hC.gap_le h2.frame)
  refine ⟨max k k', s'', by simp [e], h2.trans hC hr hM h2', fun hk => ?_, fun hk => ?_, fun hk => ?_⟩
  rotate_left
  · rw [h4' (by omega), h4 (by omega)]
  · by_cases hk1 : 1 < k
    · exact h5 hk1
    · obtain ⟨sx, a1, a2⟩ := h5' (by omega)
      refine ⟨sx, a1, ?_⟩
      by_contra hc
      exact hC.oneWay sx a1 ((h2.frame _).1 hc a2)
  by_cases e0 : k = 0
  · obtain ⟨sx, a1, a2, a3⟩ := h3' (by omega)
    exact ⟨sx, a1, fun hh => a2 (h2.frame.keeps hC.oneWay a1 hh), a3⟩
  · obtain ⟨sx, a1, a2, a3⟩ := h3 e0
    exact ⟨sx, a1, a2, h2'.frame.keeps hC.oneWay a1 a3⟩

end

/-! ## Effects -/

section
variable {σ : Type} [StateLike σ] [SignedState σ] {W : Bool × Atom → Prop} {Tr : Bool × Atom → Bool × Atom → Prop}
  {s₀ : σ} {L : List (Bool × Atom)} {objects : List Obj} {fire : Fire σ} {n : Nat} {S : Atom → Prop}
  {Q : Bool → Name → List Term → List Obj → List Obj → Prop} {C : Goal → List Obj → List Obj → Prop}

/-- The literal of an effect, instantiated. -/
def litAt (sign : Bool) (params args : List Obj) (pt : Name × List Term) : Bool × Atom :=
  (sign, Atom.ofObjs pt.1 (pt.2.map (Term.value params args)))

def LitEnds (objects : List Obj) (Q : Bool → Name → List Term → List Obj → List Obj → Prop) (W : Bool × Atom → Prop)
    (Tr : Bool × Atom → Bool × Atom → Prop) (s₀ : σ) (L : List (Bool × Atom)) (fire : Fire σ) (n : Nat) : Prop :=
  ∀ sign pred ts params args s, Q sign pred ts params args → W (litAt sign params args (pred, ts)) → FrameW W s₀ s →
    gap L s ≤ n →
    Ends W Tr (fun sx => sx = litAt sign params args (pred, ts)) s
      (applySimple (ObjMap.create objects) fire sign pred ts params args s)

def CondEnds (objects : List Obj) (C : Goal → List Obj → List Obj → Prop) (W : Bool × Atom → Prop) (S : Atom → Prop)
    (s₀ : σ) : Prop :=
  ∀ g params args (s : σ), C g params args → FrameW W s₀ s →
    ∃ b, StateLike.cond (σ := σ) (Goal.eval g (ObjMap.create objects) params s args) = .ok b ∧
      (b = true ↔ Sat objects S (Env.none.bind params args) g)

theorem applySimples_ends (hC : Closure W Tr s₀ L) (hL : LitEnds objects Q W Tr s₀ L fire n) (sign : Bool)
    (params args : List Obj) : ∀ (l : List (Name × List Term)) (s : σ),
    (∀ pred ts, (pred, ts) ∈ l → Q sign pred ts params args) → (∀ pt ∈ l, W (litAt sign params args pt)) → FrameW W s₀ s →
    gap L s ≤ n →
    Ends W Tr (fun sx => ∃ pt ∈ l, sx = litAt sign params args pt) s
      (applySimples (ObjMap.create objects) fire sign params args l s)
  | [], s, _, _, _, _ => (Ends.nothing s).congr (by simp)
  | (pred, ts) :: l, s, hq, hw, hr, hg => by
    refine ((hL sign pred ts params args s (hq _ _ (by simp)) (hw _ (by simp)) hr hg).seq hC hr
      (by rintro _ rfl; exact hw _ (by simp)) fun s' hr' hg' =>
        applySimples_ends hC hL sign params args l s' (fun p t h => hq p t (by simp [h])) (fun pt h => hw pt (by simp [h]))
          hr' (by omega)).congr ?_
    rintro sx ⟨pt, hm, rfl⟩
    rcases List.mem_cons.1 hm with rfl | hm
    · exact .inl rfl
    · exact .inr ⟨pt, hm, rfl⟩

theorem loopEff_ends (hC : Closure W Tr s₀ L) {f : List Obj → σ → Res (Nat × σ)} {M : List Obj → Bool × Atom → Prop} :
    ∀ (l : List (List Obj)) (s : σ), (∀ os ∈ l, ∀ sx, M os sx → W sx) →
    (∀ os ∈ l, ∀ s, FrameW W s₀ s → gap L s ≤ n → Ends W Tr (M os) s (f os s)) → FrameW W s₀ s → gap L s ≤ n →
    Ends W Tr (fun sx => ∃ os ∈ l, M os sx) s (loopEff f l s)
  | [], s, _, _, _, _ => (Ends.nothing s).congr (by simp)
  | os :: l, s, hw, hf, hr, hg => by
    refine ((hf os (by simp) s hr hg).seq hC hr (hw os (by simp)) fun s' hr' hg' =>
      loopEff_ends hC l s' (fun o h => hw o (by simp [h])) (fun o h => hf o (by simp [h])) hr' (by omega)).congr ?_
    rintro sx ⟨o, hm, hx⟩
    rcases List.mem_cons.1 hm with rfl | hm
    · exact .inl hx
    · exact .inr ⟨o, hm, hx⟩

theorem lists_lit {params args : List Obj} (hlen : params.length = args.length) {l : List (Name × List Term)}
    (hs : ∀ pred ts, (pred, ts) ∈ l → ∀ t ∈ ts, t.Scoped (params.map Obj.name)) (sign : Bool) (x : Atom) :
    Lists (Env.none.bind params args) l x ↔ ∃ pt ∈ l, (sign, x) = litAt sign params args pt := by
  constructor
  · rintro ⟨pred, ts, os, hm, hd, rfl⟩
    rw [forall₂_denotes hlen (hs pred ts hm)] at hd
    subst hd
    exact ⟨(pred, ts), hm, rfl⟩
  · rintro ⟨⟨pred, ts⟩, hm, h⟩
    simp only [litAt, Prod.mk.injEq, true_and] at h
    exact ⟨pred, ts, _, hm, (forall₂_denotes hlen (hs pred ts hm) _).2 rfl, h⟩

/-- Literals have bound variables. -/
def ScopedLits (Q : Bool → Name → List Term → List Obj → List Obj → Prop) : Prop :=
  ∀ sign pred ts params args, Q sign pred ts params args → params.length = args.length ∧
    ∀ t ∈ ts, t.Scoped (params.map Obj.name)

mutual
theorem Eff.apply_ends (hC : Closure W Tr s₀ L) (hQ : ScopedLits Q) (hL : LitEnds objects Q W Tr s₀ L fire n)
    (hc : CondEnds objects C W S s₀) : ∀ (e : Eff) (params args : List Obj) (s : σ), params.length = args.length →
    e.Each objects Q C params args →
    (∀ sx : Bool × Atom, Makes objects S sx.1 (Env.none.bind params args) e sx.2 → W sx) → FrameW W s₀ s → gap L s ≤ n →
    Ends W Tr (fun sx => Makes objects S sx.1 (Env.none.bind params args) e sx.2) s
      (e.apply (ObjMap.create objects) fire params args s)
  | .mk fs adds dels cs, params, args, s, hlen, he, hW, hr, hg => by
    simp only [Eff.Each] at he
    simp only [Makes] at hW
    have la := lists_lit (args := args) hlen (l := adds) (fun p t h => (hQ _ _ _ _ _ (he.2.1 p t h)).2)
    have ld := lists_lit (args := args) hlen (l := dels) (fun p t h => (hQ _ _ _ _ _ (he.2.2.1 p t h)).2)
    have h1 := FList.apply_ends hC hQ hL hc fs params args s hlen he.1 (fun sx h => hW sx (.inl h)) hr hg
    have wa : ∀ pt ∈ adds, W (litAt true params args pt) := fun pt h =>
      hW (litAt true params args pt) (.inr (.inl ⟨rfl, (la true _).2 ⟨pt, h, rfl⟩⟩))
    have wd : ∀ pt ∈ dels, W (litAt false params args pt) := fun pt h =>
      hW (litAt false params args pt) (.inr (.inr (.inl ⟨rfl, (ld false _).2 ⟨pt, h, rfl⟩⟩)))
    have h234 : ∀ s' : σ, FrameW W s₀ s' → gap L s' ≤ n → Ends W Tr (fun sx =>
        (∃ pt ∈ adds, sx = litAt true params args pt) ∨ (∃ pt ∈ dels, sx = litAt false params args pt) ∨
          MakesC objects S sx.1 (Env.none.bind params args) cs sx.2) s'
        (do
          let r2 ← applySimples (ObjMap.create objects) fire true params args adds s'
          let r34 ← (do
            let r3 ← applySimples (ObjMap.create objects) fire false params args dels r2.2
            let r4 ← CList.apply (ObjMap.create objects) fire cs params args r3.2
            pure (max r3.1 r4.1, r4.2))
          pure (max r2.1 r34.1, r34.2)) := fun s' hr' hg' =>
      (applySimples_ends hC hL true params args adds s' he.2.1 wa hr' hg').seq hC hr'
        (by rintro _ ⟨pt, h, rfl⟩; exact wa pt h)
        (f := fun u => do
            let r3 ← applySimples (ObjMap.create objects) fire false params args dels u
            let r4 ← CList.apply (ObjMap.create objects) fire cs params args r3.2
            pure (max r3.1 r4.1, r4.2)) fun s₂ hr₂ hg₂ =>
        (applySimples_ends hC hL false params args dels s₂ he.2.2.1 wd hr₂ (by omega)).seq hC hr₂
          (by rintro _ ⟨pt, h, rfl⟩; exact wd pt h) fun s₃ hr₃ hg₃ =>
          CList.apply_ends hC hQ hL hc cs params args s₃ hlen he.2.2.2 (fun sx h => hW sx (.inr (.inr (.inr h)))) hr₃ (by omega)
    have h := (h1.seq hC hr (fun sx h => hW sx (.inl h)) (M₂ := fun sx =>
        (∃ pt ∈ adds, sx = litAt true params args pt) ∨ (∃ pt ∈ dels, sx = litAt false params args pt) ∨
          MakesC objects S sx.1 (Env.none.bind params args) cs sx.2) (f := fun s' => do
          let r2 ← applySimples (ObjMap.create objects) fire true params args adds s'
          let r34 ← (do
            let r3 ← applySimples (ObjMap.create objects) fire false params args dels r2.2
            let r4 ← CList.apply (ObjMap.create objects) fire cs params args r3.2
            pure (max r3.1 r4.1, r4.2))
          pure (max r2.1 r34.1, r34.2)) fun s' hr' hg' => h234 s' hr' (by omega)).congr
      (M₂ := fun sx => Makes objects S sx.1 (Env.none.bind params args) (.mk fs adds dels cs) sx.2) (by
        rintro ⟨sg, x⟩ hx
        simp only [Makes] at hx
        rcases hx with h | ⟨rfl, h⟩ | ⟨rfl, h⟩ | h
        · exact .inl h
        · exact .inr (.inl ((la true x).1 h))
        · exact .inr (.inr (.inl ((ld false x).1 h)))
        · exact .inr (.inr (.inr h)))
    obtain ⟨k, s', e1, e2, e3⟩ := h
    simp only [Res.bind_eq_ok, Res.pure_eq, Res.ok.injEq, Prod.mk.injEq] at e1
    obtain ⟨r1, a1, r2, ⟨r3, a3, r4, ⟨r5, a5, r6, a6, a7⟩, a8⟩, a9, a10⟩ := e1
    subst a7; subst a8; subst a10
    refine ⟨k, r6.2, ?_, e2, e3⟩
    simp only [Eff.apply, a1, a3, a5, a6, Res.bind_ok, Res.pure_eq, Res.ok.injEq, Prod.mk.injEq, and_true]
    rw [← a9, Nat.max_assoc]

theorem FList.apply_ends (hC : Closure W Tr s₀ L) (hQ : ScopedLits Q) (hL : LitEnds objects Q W Tr s₀ L fire n)
    (hc : CondEnds objects C W S s₀) : ∀ (e : FList) (params args : List Obj) (s : σ), params.length = args.length →
    e.Each objects Q C params args →
    (∀ sx : Bool × Atom, MakesF objects S sx.1 (Env.none.bind params args) e sx.2 → W sx) → FrameW W s₀ s → gap L s ≤ n →
    Ends W Tr (fun sx => MakesF objects S sx.1 (Env.none.bind params args) e sx.2) s
      (e.apply (ObjMap.create objects) fire params args s)
  | .nil, params, args, s, _, _, _, _, _ => by
    simp only [FList.apply]
    exact (Ends.nothing s).congr (by simp [MakesF])
  | .cons vars e rest, params, args, s, hlen, he, hW, hr, hg => by
    simp only [FList.Each] at he
    simp only [MakesF] at hW
    obtain ⟨l, hl, hmem⟩ := gen_create objects vars he.1
    simp only [FList.apply, hl, Res.bind_ok]
    refine ((loopEff_ends hC (n := n)
      (M := fun os sx => Makes objects S sx.1 ((Env.none.bind params args).bind vars os) e sx.2) l s
      (fun os ho sx h => hW sx (.inl ⟨os, (hmem os).1 ho, h⟩)) (fun os ho s' hr' hg' => ?_) hr hg).seq hC hr ?_
      fun s' hr' hg' => FList.apply_ends hC hQ hL hc rest params args s' hlen he.2.2 (fun sx h => hW sx (.inr h)) hr'
        (by omega)).congr ?_
    · have hw := (hmem os).1 ho
      rw [← Env.bind_append _ _ _ _ _ hlen]
      refine Eff.apply_ends hC hQ hL hc e (params ++ vars) (args ++ os) s' (by simp [hlen, hw.length]) (he.2.1 os hw)
        (fun sx h => ?_) hr' hg'
      rw [Env.bind_append _ _ _ _ _ hlen] at h
      exact hW sx (.inl ⟨os, hw, h⟩)
    · rintro sx ⟨os, ho, h⟩
      exact hW sx (.inl ⟨os, (hmem os).1 ho, h⟩)
    · rintro sx h
      simp only [MakesF] at h
      rcases h with ⟨os, hw, h⟩ | h
      · exact .inl ⟨os, (hmem os).2 hw, h⟩
      · exact .inr h

theorem CList.apply_ends (hC : Closure W Tr s₀ L) (hQ : ScopedLits Q) (hL : LitEnds objects Q W Tr s₀ L fire n)
    (hc : CondEnds objects C W S s₀) : ∀ (e : CList) (params args : List Obj) (s : σ), params.length = args.length →
    e.Each objects Q C params args →
    (∀ sx : Bool × Atom, MakesC objects S sx.1 (Env.none.bind params args) e sx.2 → W sx) → FrameW W s₀ s → gap L s ≤ n →
    Ends W Tr (fun sx => MakesC objects S sx.1 (Env.none.bind params args) e sx.2) s
      (e.apply (ObjMap.create objects) fire params args s)
  | .nil, params, args, s, _, _, _, _, _ => by
    simp only [CList.apply]
    exact (Ends.nothing s).congr (by simp [MakesC])
  | .cons g e rest, params, args, s, hlen, he, hW, hr, hg => by
    simp only [CList.Each] at he
    simp only [MakesC] at hW
    obtain ⟨b, hb, hs⟩ := hc g params args s he.1 hr
    simp only [CList.apply, hb, Res.bind_ok]
    cases b with
    | true =>
      have hs := hs.1 rfl
      simp only [if_true]
      refine ((Eff.apply_ends hC hQ hL hc e params args s hlen he.2.1 (fun sx h => hW sx (.inl ⟨hs, h⟩)) hr hg).seq hC hr
        (fun sx h => hW sx (.inl ⟨hs, h⟩)) fun s' hr' hg' =>
          CList.apply_ends hC hQ hL hc rest params args s' hlen he.2.2 (fun sx h => hW sx (.inr h)) hr' (by omega)).congr ?_
      intro sx h
      simp only [MakesC] at h
      exact h.imp (fun h => h.2) id
    | false =>
      have hs : ¬ Sat objects S (Env.none.bind params args) g := fun h => by simpa using hs.2 h
      refine (Ends.seq hC hr (M₁ := fun _ => False) (fun _ h => h.elim) (Ends.nothing s) fun s' hr' hg' =>
          CList.apply_ends hC hQ hL hc rest params args s' hlen he.2.2 (fun sx h => hW sx (.inr h)) hr' (by omega)).congr ?_
      intro sx h
      simp only [MakesC] at h
      exact .inr (h.resolve_left fun h => hs h.1)
end

end

end Symbolic
