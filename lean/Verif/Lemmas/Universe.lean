import Verif.Spec.Construct
import Verif.Lemmas.Terminate
import Verif.Lemmas.Effects

/-!
# Axioms that never undo each other stop firing

Everything an axiom can write is among finitely many signed atoms. If no predicate is both added and deleted by axioms,
the number of those that have not been achieved decreases with every change.
-/

namespace Symbolic

/-! ## Signed atoms of a state -/

/-- Insert or erase. -/
def stepS {σ : Type} [StateLike σ] (sign : Bool) (x : Atom) (s : σ) : Nat × σ :=
  if sign then StateLike.insert s x else StateLike.erase s x

/-- When a signed atom has been achieved. -/
class SignedState (σ : Type) [StateLike σ] where
  Holds : σ → Bool × Atom → Prop
  step_self : ∀ sign x (s : σ), Holds (stepS sign x s).2 (sign, x)
  step_other : ∀ sign x (s : σ) sy, sy ≠ (!sign, x) → Holds s sy → Holds (stepS sign x s).2 sy
  step_zero : ∀ sign x (s : σ), (stepS sign x s).1 = 0 → (stepS sign x s).2 = s
  step_code : ∀ sign x (s : σ), (stepS sign x s).1 ≠ 0 → ¬ Holds s (sign, x)

instance [StrHash] : SignedState State where
  Holds s sx := sx.2 ∈ s ↔ sx.1 = true
  step_self sign x s := by
    show x ∈ (stepOp sign x s).2 ↔ sign = true
    rw [mem_stepOp]; simp
  step_other := by
    rintro sign x s ⟨sg, y⟩ hne h
    show y ∈ (stepOp sign x s).2 ↔ sg = true
    rw [mem_stepOp]
    split
    · subst x
      cases sign <;> cases sg <;> simp_all
    · exact h
  step_zero sign x s h := stepOp_zero h
  step_code sign x s h := fun hh => h (stepOp_code.2 hh)

instance [StrHash] : SignedState PartialState where
  Holds s sx := if sx.1 then sx.2 ∈ s.pos ∧ sx.2 ∉ s.neg else sx.2 ∈ s.neg ∧ sx.2 ∉ s.pos
  step_self sign x s := by
    cases sign
    · show x ∈ (s.neg.insert x).2 ∧ x ∉ (s.pos.erase x).2
      rw [State.mem_erase, State.mem_insert]; simp
    · show x ∈ (s.pos.insert x).2 ∧ x ∉ (s.neg.erase x).2
      rw [State.mem_erase, State.mem_insert]; simp
  step_other := by
    rintro sign x s ⟨sg, y⟩ hne h
    cases sign
    · cases sg
      · change y ∈ s.neg ∧ y ∉ s.pos at h
        show y ∈ (s.neg.insert x).2 ∧ y ∉ (s.pos.erase x).2
        rw [State.mem_erase, State.mem_insert]; simp [h]
      · change y ∈ s.pos ∧ y ∉ s.neg at h
        show y ∈ (s.pos.erase x).2 ∧ y ∉ (s.neg.insert x).2
        rw [State.mem_erase, State.mem_insert]
        have : y ≠ x := fun e => hne (by simp [e])
        simp [h, this]
    · cases sg
      · change y ∈ s.neg ∧ y ∉ s.pos at h
        show y ∈ (s.neg.erase x).2 ∧ y ∉ (s.pos.insert x).2
        rw [State.mem_erase, State.mem_insert]
        have : y ≠ x := fun e => hne (by simp [e])
        simp [h, this]
      · change y ∈ s.pos ∧ y ∉ s.neg at h
        show y ∈ (s.pos.insert x).2 ∧ y ∉ (s.neg.erase x).2
        rw [State.mem_erase, State.mem_insert]; simp [h]
  step_zero sign x s h := by
    cases sign
    · change (s.pos.erase x).1.toNat + (s.neg.insert x).1.toNat = 0 at h
      have h1 : (s.pos.erase x).1 = false := by cases hh : (s.pos.erase x).1 <;> simp_all
      have h2 : (s.neg.insert x).1 = false := by cases hh : (s.neg.insert x).1 <;> simp_all
      have h3 : (s.pos.erase x).1 = decide (x ∈ s.pos) := State.erase_flag
      have h4 : (s.neg.insert x).1 = decide (x ∉ s.neg) := State.insert_flag
      rw [h1] at h3; rw [h2] at h4
      show (⟨(s.pos.erase x).2, (s.neg.insert x).2⟩ : PartialState) = s
      ext a
      · show a ∈ (s.pos.erase x).2 ↔ _
        rw [State.mem_erase]
        constructor
        · exact fun h => h.2
        · intro ha; exact ⟨by rintro rfl; simp [ha] at h3, ha⟩
      · show a ∈ (s.neg.insert x).2 ↔ _
        rw [State.mem_insert]
        constructor
        · rintro (rfl | h)
          · by_contra hc; simp [hc] at h4
          · exact h
        · exact .inr
    · change (s.neg.erase x).1.toNat + (s.pos.insert x).1.toNat = 0 at h
      have h1 : (s.neg.erase x).1 = false := by cases hh : (s.neg.erase x).1 <;> simp_all
      have h2 : (s.pos.insert x).1 = false := by cases hh : (s.pos.insert x).1 <;> simp_all
      have h3 : (s.neg.erase x).1 = decide (x ∈ s.neg) := State.erase_flag
      have h4 : (s.pos.insert x).1 = decide (x ∉ s.pos) := State.insert_flag
      rw [h1] at h3; rw [h2] at h4
      show (⟨(s.pos.insert x).2, (s.neg.erase x).2⟩ : PartialState) = s
      ext a
      · show a ∈ (s.pos.insert x).2 ↔ _
        rw [State.mem_insert]
        constructor
        · rintro (rfl | h)
          · by_contra hc; simp [hc] at h4
          · exact h
        · exact .inr
      · show a ∈ (s.neg.erase x).2 ↔ _
        rw [State.mem_erase]
        constructor
        · exact fun h => h.2
        · intro ha; exact ⟨by rintro rfl; simp [ha] at h3, ha⟩
  step_code sign x s h := by
    intro hh
    cases sign
    · change x ∈ s.neg ∧ x ∉ s.pos at hh
      apply h
      show (s.pos.erase x).1.toNat + (s.neg.insert x).1.toNat = 0
      rw [State.erase_flag, State.insert_flag]; simp [hh]
    · change x ∈ s.pos ∧ x ∉ s.neg at hh
      apply h
      show (s.neg.erase x).1.toNat + (s.pos.insert x).1.toNat = 0
      rw [State.erase_flag, State.insert_flag]; simp [hh]

section
variable {σ : Type} [StateLike σ] [SignedState σ]

open Classical in
/-- How many of the signed atoms have not been achieved. -/
noncomputable def gap (L : List (Bool × Atom)) (s : σ) : Nat := L.countP (fun sx => ¬ SignedState.Holds s sx)

/-- What has been achieved stays so. -/
def KeepsAll (L : List (Bool × Atom)) (s t : σ) : Prop := ∀ sx ∈ L, SignedState.Holds s sx → SignedState.Holds t sx

theorem KeepsAll.refl (L : List (Bool × Atom)) (s : σ) : KeepsAll L s s := fun _ _ h => h
theorem KeepsAll.trans {L : List (Bool × Atom)} {s t u : σ} (h : KeepsAll L s t) (h' : KeepsAll L t u) : KeepsAll L s u :=
  fun sx hm hs => h' sx hm (h sx hm hs)

theorem gap_le (L : List (Bool × Atom)) (s : σ) : gap L s ≤ L.length := List.countP_le_length

theorem KeepsAll.gap {L : List (Bool × Atom)} {s t : σ} (h : KeepsAll L s t) : gap L t ≤ gap L s := by
  refine List.countP_mono_left fun sx hm hn => ?_
  simp only [decide_eq_true_eq] at hn ⊢
  exact fun hs => hn (h sx hm hs)

theorem gap_lt {s t : σ} {sx : Bool × Atom} : ∀ {L : List (Bool × Atom)}, KeepsAll L s t → sx ∈ L →
    ¬ SignedState.Holds s sx → SignedState.Holds t sx → gap L t < gap L s
  | [], _, hm, _, _ => by simp at hm
  | sy :: L, hk, hm, h1, h2 => by
    have hk' : KeepsAll L s t := fun z hz => hk z (by simp [hz])
    have hle := hk'.gap
    unfold Symbolic.gap at hle ⊢
    rw [List.countP_cons, List.countP_cons]
    by_cases e : sx = sy
    · subst e
      simp only [h1, h2, not_true_eq_false, not_false_eq_true, decide_false, decide_true, Bool.false_eq_true, if_false,
        if_true]
      omega
    · have hm' : sx ∈ L := by simpa [e] using hm
      have := gap_lt hk' hm' h1 h2
      unfold Symbolic.gap at this
      have h3 := hk sy (by simp)
      by_cases ha : SignedState.Holds s sy
      · simp only [ha, h3 ha, not_true_eq_false, decide_false, Bool.false_eq_true, if_false]; omega
      · by_cases hb : SignedState.Holds t sy <;>
          simp only [ha, hb, not_true_eq_false, not_false_eq_true, decide_false, decide_true, Bool.false_eq_true, if_false,
            if_true] <;> omega

end

/-! ## What an effect can write -/

/-- All terms satisfy `U`. -/
def LitsIn (U : Obj → Prop) (l : List (Name × List Term)) : Prop := ∀ p ts, (p, ts) ∈ l → ∀ t ∈ ts, U t.obj

mutual
def Eff.TermsIn (U : Obj → Prop) : Eff → Prop
  | .mk fs adds dels cs => FList.TermsIn U fs ∧ LitsIn U adds ∧ LitsIn U dels ∧ CList.TermsIn U cs
def FList.TermsIn (U : Obj → Prop) : FList → Prop
  | .nil => True
  | .cons _ e rest => Eff.TermsIn U e ∧ FList.TermsIn U rest
def CList.TermsIn (U : Obj → Prop) : CList → Prop
  | .nil => True
  | .cons _ e rest => Eff.TermsIn U e ∧ CList.TermsIn U rest
end

theorem Res.bind_ne_fuel' {r : Res α} {f : α → Res β} (h : r ≠ .fuel) (hf : ∀ a, r = .ok a → f a ≠ .fuel) :
    (r >>= f) ≠ .fuel := by
  cases r with
  | ok a => exact hf a rfl
  | exc e => simp
  | ub => simp
  | fuel => exact absurd rfl h

section
variable {σ : Type} [StateLike σ]

/-- `I n s`: `s` was reached with change code `n`; `J n s`: the same before triggered axioms run. -/
structure Guard (T : Prop) (U : Obj → Prop) (W : Bool → Name → Nat → Prop) (I J : Nat → σ → Prop) (fire : Fire σ) : Prop where
  zero : ∀ sign pred os n s, W sign pred os.length → (∀ o ∈ os, U o) → I n s →
    (stepS sign (Atom.ofObjs pred os) s).1 = 0 → I n (stepS sign (Atom.ofObjs pred os) s).2
  step : ∀ sign pred os n s, W sign pred os.length → (∀ o ∈ os, U o) → I n s →
    (stepS sign (Atom.ofObjs pred os) s).1 ≠ 0 →
    J (max n (stepS sign (Atom.ofObjs pred os) s).1) (stepS sign (Atom.ofObjs pred os) s).2
  fire_ne : T → ∀ sign pred ps es as n s, (∀ o ∈ es, U o) → (∀ o ∈ as, U o) → J n s → fire sign pred ps es as s ≠ .fuel
  fire_ok : ∀ sign pred ps es as n s s', (∀ o ∈ es, U o) → (∀ o ∈ as, U o) → J n s →
    fire sign pred ps es as s = .ok s' → I n s'

/-- The call does not run out of budget (if `T`), and keeps the invariant if it returns. -/
def Guarded (T : Prop) (I : Nat → σ → Prop) (n : Nat) (r : Res (Nat × σ)) : Prop :=
  (T → r ≠ .fuel) ∧ ∀ a, r = .ok a → I (max n a.1) a.2

variable {T : Prop} {U : Obj → Prop} {W : Bool → Name → Nat → Prop} {I J : Nat → σ → Prop} {fire : Fire σ} {objects : List Obj}

omit [StateLike σ] in
theorem Guarded.pure {n : Nat} {s : σ} (h : I n s) : Guarded T I n (.ok (0, s)) :=
  ⟨fun _ => by simp, by rintro a ⟨⟩; simpa using h⟩

omit [StateLike σ] in
theorem Guarded.seq {n : Nat} {r : Res (Nat × σ)} {f : σ → Res (Nat × σ)} (h : Guarded T I n r)
    (hf : ∀ k s, I k s → Guarded T I k (f s)) :
    Guarded T I n (do let a ← r; let b ← f a.2; Pure.pure (max a.1 b.1, b.2)) := by
  refine ⟨fun hT => Res.bind_ne_fuel' (h.1 hT) fun a ha => Res.bind_ne_fuel' ((hf _ _ (h.2 a ha)).1 hT) fun b _ => by simp, fun c hc => ?_⟩
  simp only [Res.bind_eq_ok, Res.pure_eq, Res.ok.injEq] at hc
  obtain ⟨a, ha, b, hb, rfl⟩ := hc
  have := (hf _ _ (h.2 a ha)).2 b hb
  rwa [Nat.max_assoc] at this

theorem applyFn_in {params props args os : List Obj} (h : applyFn params props args = .ok os) (hp : ∀ o ∈ props, U o)
    (ha : ∀ a ∈ args, U a) : (∀ o ∈ os, U o) ∧ os.length = props.length :=
  applyLoop_mem ha h fun _ _ hk => .inl (hp _ (List.mem_of_getElem? hk))

theorem applySimple_guard (G : Guard T U W I J fire) {sign : Bool} {pred : Name} {ts : List Term} {params args : List Obj}
    {m : ObjMap} (hW : W sign pred ts.length) (ht : ∀ t ∈ ts, U t.obj) (ha : ∀ o ∈ args, U o) {n : Nat} {s : σ}
    (hI : I n s) : Guarded T I n (applySimple m fire sign pred ts params args s) := by
  have hts : ∀ o ∈ ts.map Term.obj, U o := by simpa using ht
  unfold applySimple
  refine ⟨fun hT => Res.bind_ne_fuel' (applyFn_ne_fuel _ _ _) fun os ho => ?_, fun r h => ?_⟩
  · obtain ⟨h1, h2⟩ := applyFn_in ho hts ha
    rw [List.length_map] at h2
    cases atomKind m pred
    · refine Res.bind_ne_fuel (Res.index_ne_fuel _ _) fun a => Res.bind_ne_fuel (Res.index_ne_fuel _ _) fun b => ?_
      split <;> simp
    · refine Res.bind_ne_fuel (Res.index_ne_fuel _ _) fun a => ?_
      split <;> simp
    · dsimp only
      rw [show (if sign = true then StateLike.insert s (Atom.ofObjs pred os) else
        StateLike.erase s (Atom.ofObjs pred os)) = stepS sign (Atom.ofObjs pred os) s from rfl]
      split
      · simp
      · rename_i hc
        exact Res.bind_ne_fuel (G.fire_ne hT _ _ _ _ _ _ _ hts ha
          (G.step sign pred os n s (h2 ▸ hW) h1 hI hc)) fun _ => by simp
  · simp only [Res.bind_eq_ok] at h
    obtain ⟨os, ho, h⟩ := h
    obtain ⟨h1, h2⟩ := applyFn_in ho hts ha
    rw [List.length_map] at h2
    cases hk : atomKind m pred <;> simp only [hk, Res.bind_eq_ok] at h
    · obtain ⟨a, -, b, -, h⟩ := h
      split at h
      · simp only [Res.pure_eq, Res.ok.injEq] at h; subst h; simpa using hI
      · simp at h
    · obtain ⟨a, -, h⟩ := h
      split at h
      · simp only [Res.pure_eq, Res.ok.injEq] at h; subst h; simpa using hI
      · simp at h
    · rw [show (if sign = true then StateLike.insert s (Atom.ofObjs pred os) else
        StateLike.erase s (Atom.ofObjs pred os)) = stepS sign (Atom.ofObjs pred os) s from rfl] at h
      split at h
      · rename_i hc
        simp only [Res.pure_eq, Res.ok.injEq] at h
        subst h
        rw [hc, Nat.max_zero]
        exact G.zero sign pred os n s (h2 ▸ hW) h1 hI hc
      · rename_i hc
        simp only [Res.bind_eq_ok, Res.pure_eq, Res.ok.injEq] at h
        obtain ⟨s', h3, rfl⟩ := h
        exact G.fire_ok _ _ _ _ _ _ _ _ hts ha (G.step sign pred os n s (h2 ▸ hW) h1 hI hc) h3

theorem applySimples_guard (G : Guard T U W I J fire) {sign : Bool} {params args : List Obj} {m : ObjMap}
    (ha : ∀ o ∈ args, U o) : ∀ {l : List (Name × List Term)} {n : Nat} {s : σ},
    (∀ p ts, (p, ts) ∈ l → W sign p ts.length) → LitsIn U l → I n s →
    Guarded T I n (applySimples m fire sign params args l s)
  | [], n, s, _, _, hI => by rw [applySimples]; exact .pure hI
  | (pred, ts) :: l, n, s, hW, ht, hI => by
    rw [applySimples]
    exact (applySimple_guard G (hW pred ts (by simp)) (ht pred ts (by simp)) ha hI).seq fun k s h =>
      applySimples_guard G ha (fun p t hm => hW p t (by simp [hm])) (fun p t hm => ht p t (by simp [hm])) h

omit [StateLike σ] in
theorem loopEff_guard {f : List Obj → σ → Res (Nat × σ)} : ∀ {l : List (List Obj)} {n : Nat} {s : σ},
    (∀ os ∈ l, ∀ k s, I k s → Guarded T I k (f os s)) → I n s → Guarded T I n (loopEff f l s)
  | [], n, s, _, hI => by rw [loopEff]; exact .pure hI
  | os :: l, n, s, hf, hI => by
    rw [loopEff]
    exact (hf os (by simp) n s hI).seq fun k s h => loopEff_guard (fun os ho => hf os (by simp [ho])) h

variable [TotalState σ]

mutual
theorem Eff.apply_guard (G : Guard T U W I J fire) (hobj : ∀ o ∈ objects, U o) : ∀ (e : Eff) (params args : List Obj) (n : Nat)
    (s : σ), (∀ sign p k, e.Writes sign p k → W sign p k) → e.TermsIn U → (∀ o ∈ args, U o) → I n s →
    Guarded T I n (e.apply (ObjMap.create objects) fire params args s)
  | .mk fs adds dels cs, params, args, n, s, hW, ht, ha, hI => by
    simp only [Eff.Writes] at hW
    simp only [Eff.TermsIn] at ht
    have h1 := FList.apply_guard G hobj fs params args n s (fun sg p k h => hW sg p k (.inl h)) ht.1 ha hI
    have h2 := fun k s (hI : I k s) => applySimples_guard (m := ObjMap.create objects) (params := params) (sign := true) G ha
      (fun p ts hm => hW true p _ (.inr (.inl ⟨rfl, ts, hm, rfl⟩))) ht.2.1 hI
    have h3 := fun k s (hI : I k s) => applySimples_guard (m := ObjMap.create objects) (params := params) (sign := false) G ha
      (fun p ts hm => hW false p _ (.inr (.inr (.inl ⟨rfl, ts, hm, rfl⟩)))) ht.2.2.1 hI
    have h4 := fun k s (hI : I k s) => CList.apply_guard G hobj cs params args k s
      (fun sg p k h => hW sg p k (.inr (.inr (.inr h)))) ht.2.2.2 ha hI
    rw [Eff.apply]
    refine ⟨fun hT => Res.bind_ne_fuel' (h1.1 hT) fun a ha => Res.bind_ne_fuel' ((h2 _ _ (h1.2 a ha)).1 hT) fun b hb =>
      Res.bind_ne_fuel' ((h3 _ _ ((h2 _ _ (h1.2 a ha)).2 b hb)).1 hT) fun c hc =>
      Res.bind_ne_fuel' ((h4 _ _ ((h3 _ _ ((h2 _ _ (h1.2 a ha)).2 b hb)).2 c hc)).1 hT) fun d _ => by simp,
      fun r hr => ?_⟩
    simp only [Res.bind_eq_ok, Res.pure_eq, Res.ok.injEq] at hr
    obtain ⟨a, ha, b, hb, c, hc, d, hd, rfl⟩ := hr
    have := (h4 _ _ ((h3 _ _ ((h2 _ _ (h1.2 a ha)).2 b hb)).2 c hc)).2 d hd
    rwa [Nat.max_assoc, Nat.max_assoc, Nat.max_assoc, ← Nat.max_assoc a.1] at this
theorem FList.apply_guard (G : Guard T U W I J fire) (hobj : ∀ o ∈ objects, U o) : ∀ (e : FList) (params args : List Obj)
    (n : Nat) (s : σ), (∀ sign p k, e.Writes sign p k → W sign p k) → e.TermsIn U → (∀ o ∈ args, U o) → I n s →
    Guarded T I n (e.apply (ObjMap.create objects) fire params args s)
  | .nil, params, args, n, s, _, _, _, hI => by rw [FList.apply]; exact .pure hI
  | .cons vars e rest, params, args, n, s, hW, ht, ha, hI => by
    simp only [FList.Writes] at hW
    simp only [FList.TermsIn] at ht
    rw [FList.apply]
    refine ⟨fun hT => Res.bind_ne_fuel' (gen_ne_fuel _ _) fun l hl => ?_, fun r hr => ?_⟩
    · refine (Guarded.seq (T := T) (I := I) (n := n) (loopEff_guard (fun os ho k s h => ?_) hI) fun k s h =>
        FList.apply_guard G hobj rest params args k s (fun sg p k h => hW sg p k (.inr h)) ht.2 ha h).1 hT
      exact Eff.apply_guard G hobj e _ _ k s (fun sg p k h => hW sg p k (.inl h)) ht.1 (fun o hm => by
        rcases List.mem_append.1 hm with hm | hm
        · exact ha o hm
        · exact hobj o ((gen_mem hl ho).mem hm).1) h
    · rw [Res.bind_eq_ok] at hr
      obtain ⟨l, hl, hr⟩ := hr
      refine (Guarded.seq (T := T) (I := I) (n := n) (loopEff_guard (fun os ho k s h => ?_) hI) fun k s h =>
        FList.apply_guard G hobj rest params args k s (fun sg p k h => hW sg p k (.inr h)) ht.2 ha h).2 r hr
      exact Eff.apply_guard G hobj e _ _ k s (fun sg p k h => hW sg p k (.inl h)) ht.1 (fun o hm => by
        rcases List.mem_append.1 hm with hm | hm
        · exact ha o hm
        · exact hobj o ((gen_mem hl ho).mem hm).1) h
theorem CList.apply_guard (G : Guard T U W I J fire) (hobj : ∀ o ∈ objects, U o) : ∀ (e : CList) (params args : List Obj)
    (n : Nat) (s : σ), (∀ sign p k, e.Writes sign p k → W sign p k) → e.TermsIn U → (∀ o ∈ args, U o) → I n s →
    Guarded T I n (e.apply (ObjMap.create objects) fire params args s)
  | .nil, params, args, n, s, _, _, _, hI => by rw [CList.apply]; exact .pure hI
  | .cons g e rest, params, args, n, s, hW, ht, ha, hI => by
    simp only [CList.Writes] at hW
    simp only [CList.TermsIn] at ht
    rw [CList.apply]
    have key : ∀ b : Bool, Guarded T I n (if b = true then e.apply (ObjMap.create objects) fire params args s else pure (0, s)) := by
      intro b
      cases b
      · exact .pure hI
      · exact Eff.apply_guard G hobj e params args n s (fun sg p k h => hW sg p k (.inl h)) ht.1 ha hI
    have hrest := fun k s (h : I k s) => CList.apply_guard G hobj rest params args k s
      (fun sg p k h => hW sg p k (.inr h)) ht.2 ha h
    refine ⟨fun hT => Res.bind_ne_fuel (TotalState.cond _ (eval_ne_fuel objects g _ _ _)) fun b =>
      ((key b).seq hrest).1 hT, fun r hr => ?_⟩
    rw [Res.bind_eq_ok] at hr
    obtain ⟨b, -, hr⟩ := hr
    exact ((key b).seq hrest).2 r hr
end

omit [StateLike σ] [TotalState σ]

theorem axMatchLoop_in {actionParams axParams : List Obj} : ∀ (effs ctx : List Obj) (acc mt : AxMatch),
    (∀ o ∈ effs, U o) → (∀ o ∈ acc.args, U o) → axMatchLoop actionParams axParams effs ctx acc = .ok (some mt) →
    ∀ o ∈ mt.args, U o
  | [], _, acc, mt, _, h, hm => by
    simp only [axMatchLoop, Res.ok.injEq, Option.some.injEq] at hm
    exact hm ▸ h
  | _ :: _, [], _, _, _, _, h => by simp [axMatchLoop] at h
  | p :: effs, q :: ctx, acc, mt, he, h, hm => by
    have he' : ∀ o ∈ effs, U o := fun o ho => he o (by simp [ho])
    simp only [axMatchLoop] at hm
    cases hi : firstIdx q axParams <;> cases hj : firstIdx p actionParams <;> rw [hi, hj] at hm <;> simp only at hm
    · split at hm
      · exact axMatchLoop_in effs ctx acc mt he' h hm
      · simp at hm
    · refine axMatchLoop_in effs ctx _ mt he' ?_ hm; exact h
    · refine axMatchLoop_in effs ctx ⟨_, acc.idx, acc.future⟩ mt he' (fun o ho => ?_) hm
      rcases List.mem_or_eq_of_mem_set ho with ho | rfl
      · exact h o ho
      · exact he _ (by simp)
    · refine axMatchLoop_in effs ctx _ mt he' ?_ hm; exact h

theorem axMatchLoop_ne_fuel (params axParams : List Obj) : ∀ (es cs : List Obj) (acc : AxMatch),
    axMatchLoop params axParams es cs acc ≠ .fuel
  | [], cs, acc => by simp [axMatchLoop]
  | _ :: _, [], acc => by simp [axMatchLoop]
  | e :: es, c :: cs, acc => by
    simp only [axMatchLoop]
    cases firstIdx c axParams <;> cases firstIdx e params <;> simp only
    · split
      · exact axMatchLoop_ne_fuel _ _ _ _ _
      · simp
    · exact axMatchLoop_ne_fuel _ _ _ _ _
    · exact axMatchLoop_ne_fuel _ _ _ _ _
    · exact axMatchLoop_ne_fuel _ _ _ _ _

theorem futureOk_ne_fuel (args : List Obj) : ∀ l, futureOk args l ≠ .fuel
  | [] => by simp [futureOk]
  | (j, o) :: l => by
    simp only [futureOk]
    refine Res.bind_ne_fuel (Res.index_ne_fuel _ _) fun a => ?_
    split
    · exact futureOk_ne_fuel args l
    · simp

theorem AxMatch.apply_ne_fuel (mt : AxMatch) (args : List Obj) : mt.apply args ≠ .fuel := by
  unfold AxMatch.apply
  refine Res.bind_ne_fuel (futureOk_ne_fuel _ _) fun b => ?_
  split
  · exact Res.bind_ne_fuel (applyLoop_ne_fuel _ _ _) fun _ => by simp
  · simp

theorem AxMatch.apply_in {mt : AxMatch} {args as : List Obj} (h : mt.apply args = .ok (some as)) (hm : ∀ o ∈ mt.args, U o)
    (ha : ∀ o ∈ args, U o) : ∀ o ∈ as, U o := by
  simp only [AxMatch.apply, Res.bind_eq_ok] at h
  obtain ⟨b, -, h⟩ := h
  split at h
  · simp only [Res.bind_eq_ok, Res.pure_eq, Res.ok.injEq, Option.some.injEq] at h
    obtain ⟨r, h, rfl⟩ := h
    exact (applyLoop_mem ha h fun _ _ hk => .inl (hm _ (List.mem_of_getElem? hk))).1
  · simp at h

theorem fireLoop_guard {K : σ → Prop} {run : Ax → List Obj → σ → Res (Nat × σ)} {sign : Bool} {pred : Name}
    {params es args : List Obj} (he : ∀ o ∈ es, U o) (ha : ∀ o ∈ args, U o) : ∀ (axs : List Ax) (s : σ),
    (∀ ax ∈ axs, ∀ o ∈ ax.op.params, U o) →
    (∀ ax ∈ axs, ∀ as s, (∀ o ∈ as, U o) → K s → (T → run ax as s ≠ .fuel) ∧ ∀ r, run ax as s = .ok r → K r.2) → K s →
    (T → fireLoop run sign pred params es args axs s ≠ .fuel) ∧
      ∀ s', fireLoop run sign pred params es args axs s = .ok s' → K s'
  | [], s, _, _, hK => ⟨fun _ => by simp [fireLoop], by rintro s' ⟨⟩; exact hK⟩
  | ax :: axs, s, hp, hr, hK => by
    have ih := fun s => fireLoop_guard (sign := sign) (pred := pred) (params := params) he ha axs s
      (fun a hm => hp a (by simp [hm])) (fun a hm => hr a (by simp [hm]))
    simp only [fireLoop]
    split
    · cases hmt : axMatch params es ax.op.params ax.ctxArgs with
      | fuel => exact absurd hmt (axMatchLoop_ne_fuel _ _ _ _ _)
      | exc e => simp
      | ub => simp
      | ok mt =>
        simp only [Res.bind_ok]
        cases mt with
        | none => exact ih s hK
        | some mt =>
          have hin := axMatchLoop_in _ _ _ _ he (hp ax (by simp)) hmt
          simp only
          cases has : mt.apply args with
          | fuel => exact absurd has (AxMatch.apply_ne_fuel _ _)
          | exc e => simp
          | ub => simp
          | ok as =>
            simp only [Res.bind_ok]
            cases as with
            | none => exact ih s hK
            | some as =>
              obtain ⟨h1, h2⟩ := hr ax (by simp) as s (AxMatch.apply_in has hin ha) hK
              simp only
              cases hrun : run ax as s with
              | fuel => simp only [Res.bind_fuel]; exact ⟨fun hT => absurd hrun (h1 hT), by simp⟩
              | exc e => simp
              | ub => simp
              | ok r => simp only [Res.bind_ok]; exact ih r.2 (h2 r hrun)
    · exact ih s hK

end

/-! ## Firing -/

/-- The axioms write only signed atoms of `L`, and never both signs of one. -/
structure Monotone (objects : List Obj) (axs : List Ax) (U : Obj → Prop) (L : List (Bool × Atom)) : Prop where
  objects : ∀ o ∈ objects, U o
  params : ∀ ax ∈ axs, ∀ o ∈ ax.op.params, U o
  terms : ∀ ax ∈ axs, ax.op.eff.TermsIn U
  writes : ∀ ax ∈ axs, ∀ sign p (os : List Obj), ax.op.eff.Writes sign p os.length → (∀ o ∈ os, U o) →
    (sign, Atom.ofObjs p os) ∈ L
  sep : ∀ sx ∈ L, (!sx.1, sx.2) ∉ L

section
variable {σ : Type} [StateLike σ] [TotalState σ] [SignedState σ] {objects : List Obj} {axs : List Ax} {U : Obj → Prop}
  {L : List (Bool × Atom)}

omit [TotalState σ] in
theorem step_keeps (hM : Monotone objects axs U L) {sign : Bool} {x : Atom} (h : (sign, x) ∈ L) (s : σ) :
    KeepsAll L s (stepS sign x s).2 ∧ ((stepS sign x s).1 ≠ 0 → gap L (stepS sign x s).2 < gap L s) := by
  have hk : KeepsAll L s (stepS sign x s).2 := fun sy hy hs => SignedState.step_other sign x s sy (by
    rintro rfl
    exact hM.sep _ h hy) hs
  exact ⟨hk, fun hc => gap_lt hk h (SignedState.step_code _ _ _ hc) (SignedState.step_self _ _ _)⟩

theorem fireN_monotone (hM : Monotone objects axs U L) : ∀ (n : Nat) (sign : Bool) (pred : Name)
    (params es args : List Obj) (s : σ), (∀ o ∈ es, U o) → (∀ o ∈ args, U o) →
    (gap L s < n → fireN (ObjMap.create objects) axs n sign pred params es args s ≠ .fuel) ∧
      ∀ s', fireN (ObjMap.create objects) axs n sign pred params es args s = .ok s' → KeepsAll L s s'
  | 0, sign, pred, params, es, args, s, _, _ => by
    refine ⟨by simp, fun s' h => ?_⟩
    have : ∀ (l : List Ax) (s : σ), fireLoop (fun _ _ _ => .fuel) sign pred params es args l s = .ok s' → s' = s := by
      intro l
      induction l with
      | nil => intro s h; simp only [fireLoop, Res.ok.injEq] at h; exact h.symm
      | cons ax l ih =>
        intro s h
        simp only [fireLoop] at h
        split at h
        · simp only [Res.bind_eq_ok] at h
          obtain ⟨mt, -, h⟩ := h
          cases mt with
          | none => exact ih s h
          | some mt =>
            simp only [Res.bind_eq_ok] at h
            obtain ⟨as, -, h⟩ := h
            cases as with
            | none => exact ih s h
            | some as => simp at h
        · exact ih s h
    rw [this axs s h]; exact .refl _ _
  | n + 1, sign, pred, params, es, args, s, he, ha => by
    have ih := fireN_monotone hM n
    have hstep : ∀ ax ∈ axs, ∀ sg p (os : List Obj), ax.op.eff.Writes sg p os.length → (∀ o ∈ os, U o) → ∀ s : σ, _ :=
      fun ax hm sg p os hw ho s => step_keeps (s := s) hM (hM.writes ax hm sg p os hw ho)
    refine fireLoop_guard (T := gap L s < n + 1) (K := fun t => KeepsAll L s t) he ha axs s hM.params
      (fun ax hm as t has hK => ?_) (.refl _ _)
    have G : Guard (gap L s < n + 1) U (fun sg p k => ax.op.eff.Writes sg p k) (fun _ u => KeepsAll L s u)
        (fun _ u => KeepsAll L s u ∧ (gap L s < n + 1 → gap L u < n)) (fireN (ObjMap.create objects) axs n) := by
      refine ⟨fun sg p os k u hw ho hI h0 => ?_, fun sg p os k u hw ho hI h0 => ?_, ?_, ?_⟩
      · rw [SignedState.step_zero _ _ _ h0]; exact hI
      · obtain ⟨h1, h2⟩ := step_keeps hM (hM.writes ax hm sg p os hw ho) u
        have := h2 h0
        have := hI.gap
        exact ⟨hI.trans h1, fun hT => by omega⟩
      · intro hT sg p ps es as k u he ha hJ
        exact (ih sg p ps es as u he ha).1 (hJ.2 hT)
      · intro sg p ps es as k u u' he ha hJ h
        exact hJ.1.trans ((ih sg p ps es as u he ha).2 u' h)
    have := Eff.apply_guard G hM.objects ax.op.eff ax.op.params as 0 t (fun _ _ _ h => h) (hM.terms ax hm) has hK
    exact ⟨this.1, fun r hr => this.2 r hr⟩

/-- Applying one instance of an axiom. -/
theorem Ax.run_monotone (hM : Monotone objects axs U L) {ax : Ax} (hm : ax ∈ axs) {as : List Obj} (has : ∀ o ∈ as, U o)
    (n : Nat) (s : σ) :
    (L.length ≤ n → ax.op.apply (ObjMap.create objects) axs n as s ≠ .fuel) ∧
      ∀ r, ax.op.apply (ObjMap.create objects) axs n as s = .ok r →
        KeepsAll L s r.2 ∧ (r.1 ≠ 0 → gap L r.2 < gap L s) := by
  have G : Guard (L.length ≤ n) U (fun sg p k => ax.op.eff.Writes sg p k)
      (fun c u => KeepsAll L s u ∧ (c ≠ 0 → gap L u < gap L s)) (fun _ u => KeepsAll L s u ∧ gap L u < gap L s)
      (fireN (ObjMap.create objects) axs n) := by
    refine ⟨fun sg p os k u hw ho hI h0 => ?_, fun sg p os k u hw ho hI h0 => ?_, ?_, ?_⟩
    · rw [SignedState.step_zero _ _ _ h0]; exact hI
    · obtain ⟨h1, h2⟩ := step_keeps hM (hM.writes ax hm sg p os hw ho) u
      have := h2 h0
      have := hI.1.gap
      exact ⟨hI.1.trans h1, by omega⟩
    · intro hT sg p ps es as k u he ha hJ
      have := gap_le L s
      exact (fireN_monotone hM n sg p ps es as u he ha).1 (by omega)
    · intro sg p ps es as k u u' he ha hJ h
      have hk := (fireN_monotone hM n sg p ps es as u he ha).2 u' h
      have := hk.gap
      exact ⟨hJ.1.trans hk, fun _ => by omega⟩
  have := Eff.apply_guard G hM.objects ax.op.eff ax.op.params as 0 s (fun _ _ _ h => h) (hM.terms ax hm) has
    ⟨.refl _ _, by simp⟩
  exact ⟨this.1, fun r hr => by have := this.2 r hr; simpa using this⟩

/-- Applying any action triggers finitely many axioms. -/
theorem Op.apply_monotone (hM : Monotone objects axs U L) {op : Op} (ht : op.eff.TermsIn U) {as : List Obj}
    (has : ∀ o ∈ as, U o) (n : Nat) (hn : L.length < n) (s : σ) :
    op.apply (ObjMap.create objects) axs n as s ≠ .fuel := by
  have G : Guard True U (fun _ _ _ => True) (fun _ (_ : σ) => True) (fun _ _ => True)
      (fireN (ObjMap.create objects) axs n) := by
    refine ⟨by simp, by simp, fun _ sg p ps es as k u he ha _ => ?_, by simp⟩
    have := gap_le L u
    exact (fireN_monotone hM n sg p ps es as u he ha).1 (by omega)
  exact (Eff.apply_guard G hM.objects op.eff op.params as 0 s (fun _ _ _ _ => trivial) ht has trivial).1 trivial

end

/-! ## The finite universe -/

mutual
/-- The names of the terms. -/
def Eff.names : Eff → List Name
  | .mk fs adds dels cs => FList.names fs ++ litNames adds ++ litNames dels ++ CList.names cs
def FList.names : FList → List Name
  | .nil => []
  | .cons _ e rest => Eff.names e ++ FList.names rest
def CList.names : CList → List Name
  | .nil => []
  | .cons _ e rest => Eff.names e ++ CList.names rest
/-- Names in literals. -/
def litNames : List (Name × List Term) → List Name
  | [] => []
  | l :: ls => l.2.map (fun t => t.obj.name) ++ litNames ls
end

mutual
/-- Signed predicates with their numbers of arguments. -/
def Eff.lits : Eff → List (Bool × Name × Nat)
  | .mk fs adds dels cs => FList.lits fs ++ adds.map (fun l => (true, l.1, l.2.length)) ++
      dels.map (fun l => (false, l.1, l.2.length)) ++ CList.lits cs
def FList.lits : FList → List (Bool × Name × Nat)
  | .nil => []
  | .cons _ e rest => Eff.lits e ++ FList.lits rest
def CList.lits : CList → List (Bool × Name × Nat)
  | .nil => []
  | .cons _ e rest => Eff.lits e ++ CList.lits rest
end

theorem litNames_in {N : List Name} : ∀ {l : List (Name × List Term)}, (∀ n ∈ litNames l, n ∈ N) →
    LitsIn (fun o => o.name ∈ N) l
  | [], _ => fun p ts h => by simp at h
  | l :: ls, h => fun p ts hm t ht => by
    rcases List.mem_cons.1 hm with rfl | hm
    · exact h _ (by rw [litNames]; exact List.mem_append_left _ (List.mem_map.2 ⟨t, ht, rfl⟩))
    · exact litNames_in (fun n hn => h n (by rw [litNames]; exact List.mem_append_right _ hn)) p ts hm t ht

mutual
theorem Eff.termsIn_names {N : List Name} : ∀ (e : Eff), (∀ n ∈ e.names, n ∈ N) → e.TermsIn (fun o => o.name ∈ N)
  | .mk fs adds dels cs, h => by
    rw [Eff.names] at h
    rw [Eff.TermsIn]
    exact ⟨FList.termsIn_names fs fun n hn => h n (by simp [hn]), litNames_in fun n hn => h n (by simp [hn]),
      litNames_in fun n hn => h n (by simp [hn]), CList.termsIn_names cs fun n hn => h n (by simp [hn])⟩
theorem FList.termsIn_names {N : List Name} : ∀ (e : FList), (∀ n ∈ e.names, n ∈ N) → e.TermsIn (fun o => o.name ∈ N)
  | .nil, _ => trivial
  | .cons _ e rest, h => by
    rw [FList.names] at h
    rw [FList.TermsIn]
    exact ⟨Eff.termsIn_names e fun n hn => h n (by simp [hn]), FList.termsIn_names rest fun n hn => h n (by simp [hn])⟩
theorem CList.termsIn_names {N : List Name} : ∀ (e : CList), (∀ n ∈ e.names, n ∈ N) → e.TermsIn (fun o => o.name ∈ N)
  | .nil, _ => trivial
  | .cons _ e rest, h => by
    rw [CList.names] at h
    rw [CList.TermsIn]
    exact ⟨Eff.termsIn_names e fun n hn => h n (by simp [hn]), CList.termsIn_names rest fun n hn => h n (by simp [hn])⟩
end

mutual
theorem Eff.mem_lits {sign : Bool} {p : Name} {k : Nat} : ∀ (e : Eff), (sign, p, k) ∈ e.lits ↔ e.Writes sign p k
  | .mk fs adds dels cs => by
    rw [Eff.lits, Eff.Writes, List.mem_append, List.mem_append, List.mem_append, FList.mem_lits fs, CList.mem_lits cs]
    simp only [List.mem_map, Prod.mk.injEq, Prod.exists, or_assoc]
    constructor
    · rintro (h | ⟨a, b, h, rfl, rfl, rfl⟩ | ⟨a, b, h, rfl, rfl, rfl⟩ | h)
      · exact .inl h
      · exact .inr (.inl ⟨rfl, b, h, rfl⟩)
      · exact .inr (.inr (.inl ⟨rfl, b, h, rfl⟩))
      · exact .inr (.inr (.inr h))
    · rintro (h | ⟨rfl, b, h, rfl⟩ | ⟨rfl, b, h, rfl⟩ | h)
      · exact .inl h
      · exact .inr (.inl ⟨_, b, h, rfl, rfl, rfl⟩)
      · exact .inr (.inr (.inl ⟨_, b, h, rfl, rfl, rfl⟩))
      · exact .inr (.inr (.inr h))
theorem FList.mem_lits {sign : Bool} {p : Name} {k : Nat} : ∀ (e : FList), (sign, p, k) ∈ e.lits ↔ e.Writes sign p k
  | .nil => by simp [FList.lits, FList.Writes]
  | .cons _ e rest => by rw [FList.lits, FList.Writes, List.mem_append, Eff.mem_lits e, FList.mem_lits rest]
theorem CList.mem_lits {sign : Bool} {p : Name} {k : Nat} : ∀ (e : CList), (sign, p, k) ∈ e.lits ↔ e.Writes sign p k
  | .nil => by simp [CList.lits, CList.Writes]
  | .cons _ e rest => by rw [CList.lits, CList.Writes, List.mem_append, Eff.mem_lits e, CList.mem_lits rest]
end

mutual
theorem Eff.Writes.touches {sign : Bool} {p : Name} {k : Nat} : ∀ {e : Eff}, e.Writes sign p k → e.Touches sign p
  | .mk fs adds dels cs, h => by
    rw [Eff.Writes] at h
    rw [Eff.Touches]
    rcases h with h | ⟨h, ts, hm, -⟩ | ⟨h, ts, hm, -⟩ | h
    · exact .inl (FList.Writes.touches h)
    · exact .inr (.inl ⟨h, ts, hm⟩)
    · exact .inr (.inr (.inl ⟨h, ts, hm⟩))
    · exact .inr (.inr (.inr (CList.Writes.touches h)))
theorem FList.Writes.touches {sign : Bool} {p : Name} {k : Nat} : ∀ {e : FList}, e.Writes sign p k → e.Touches sign p
  | .nil, h => by simp [FList.Writes] at h
  | .cons _ e rest, h => by
    rw [FList.Writes] at h
    rw [FList.Touches]
    exact h.imp Eff.Writes.touches FList.Writes.touches
theorem CList.Writes.touches {sign : Bool} {p : Name} {k : Nat} : ∀ {e : CList}, e.Writes sign p k → e.Touches sign p
  | .nil, h => by simp [CList.Writes] at h
  | .cons _ e rest, h => by
    rw [CList.Writes] at h
    rw [CList.Touches]
    exact h.imp Eff.Writes.touches CList.Writes.touches
end

/-- All lists of `k` names. -/
def nameTuples (N : List Name) : Nat → List (List Name)
  | 0 => [[]]
  | k + 1 => N.flatMap fun n => (nameTuples N k).map (n :: ·)

theorem mem_nameTuples {N : List Name} : ∀ {ns : List Name}, (∀ n ∈ ns, n ∈ N) → ns ∈ nameTuples N ns.length
  | [], _ => by simp [nameTuples]
  | n :: ns, h => by
    rw [List.length_cons, nameTuples, List.mem_flatMap]
    exact ⟨n, h n (by simp), List.mem_map.2 ⟨ns, mem_nameTuples fun m hm => h m (by simp [hm]), rfl⟩⟩

/-- The signed atoms that axioms can write with these names. -/
def signedAtoms (axs : List Ax) (N : List Name) : List (Bool × Atom) :=
  (axs.flatMap fun ax => ax.op.eff.lits).flatMap fun l => (nameTuples N l.2.2).map fun ns => (l.1, ⟨l.2.1, ns⟩)

theorem mem_signedAtoms {axs : List Ax} {N : List Name} {sign : Bool} {x : Atom} (h : (sign, x) ∈ signedAtoms axs N) :
    ∃ ax ∈ axs, ax.op.eff.Touches sign x.pred := by
  simp only [signedAtoms, List.mem_flatMap, List.mem_map, Prod.mk.injEq] at h
  obtain ⟨⟨sg, p, k⟩, ⟨ax, hm, hl⟩, ns, -, rfl, rfl⟩ := h
  exact ⟨ax, hm, ((Eff.mem_lits _).1 hl).touches⟩

theorem monotone_of {objects : List Obj} {axs : List Ax} {N : List Name}
    (hsep : ∀ p, ¬ ((∃ ax ∈ axs, ax.op.eff.Touches true p) ∧ ∃ ax ∈ axs, ax.op.eff.Touches false p))
    (hobj : ∀ o ∈ objects, o.name ∈ N) (hpar : ∀ ax ∈ axs, ∀ o ∈ ax.op.params, o.name ∈ N)
    (hnames : ∀ ax ∈ axs, ∀ n ∈ ax.op.eff.names, n ∈ N) :
    Monotone objects axs (fun o => o.name ∈ N) (signedAtoms axs N) where
  objects := hobj
  params := hpar
  terms ax hm := Eff.termsIn_names _ (hnames ax hm)
  writes ax hm sign p os hw ho := by
    simp only [signedAtoms, List.mem_flatMap, List.mem_map, Prod.mk.injEq]
    refine ⟨(sign, p, os.length), ⟨ax, hm, (Eff.mem_lits _).2 hw⟩, os.map Obj.name, ?_, rfl, rfl⟩
    have := mem_nameTuples (N := N) (ns := os.map Obj.name) (by simpa using ho)
    simpa using this
  sep := by
    rintro ⟨sg, x⟩ h h'
    cases sg
    · exact hsep x.pred ⟨mem_signedAtoms h', mem_signedAtoms h⟩
    · exact hsep x.pred ⟨mem_signedAtoms h, mem_signedAtoms h'⟩

end Symbolic
