import Verif.Lemmas.RenameMake
import Mathlib.Data.List.Perm.Basic

/-!
Normal forms of arbitrary formulas and effects under a renaming: the same set of conjunctions, in an order that depends on
the hash function.
-/

namespace Symbolic

/-! ## Lists related up to order -/

/-- The second list is a permutation of one whose elements are related to those of the first. -/
def PermRel {α β : Type} (R : α → β → Prop) (l : List α) (l' : List β) : Prop := ∃ e, List.Forall₂ R l e ∧ e.Perm l'

section
variable {α β γ δ : Type} {R : α → β → Prop}

theorem PermRel.of_forall₂ {l : List α} {l' : List β} (h : List.Forall₂ R l l') : PermRel R l l' := ⟨l', h, .refl _⟩

theorem PermRel.nil : PermRel R [] [] := .of_forall₂ .nil

theorem PermRel.eq_nil {l : List α} {l' : List β} (h : PermRel R l l') : l = [] ↔ l' = [] := by
  obtain ⟨e, h1, h2⟩ := h
  constructor
  · rintro rfl; cases h1; exact h2.nil_eq.symm
  · rintro rfl
    have := h2.eq_nil
    subst this
    cases h1; rfl

theorem PermRel.append {l k : List α} {l' k' : List β} (h : PermRel R l l') (g : PermRel R k k') :
    PermRel R (l ++ k) (l' ++ k') := by
  obtain ⟨e, h1, h2⟩ := h
  obtain ⟨f, g1, g2⟩ := g
  exact ⟨e ++ f, List.rel_append h1 g1, h2.append g2⟩

theorem PermRel.left {l : List α} {l' : List β} (h : PermRel R l l') : ∀ a ∈ l, ∃ b ∈ l', R a b := by
  obtain ⟨e, h1, h2⟩ := h
  intro a ha
  have : ∃ b ∈ e, R a b := by
    clear h2
    induction h1 with
    | nil => simp at ha
    | cons h _ ih =>
      rcases List.mem_cons.1 ha with rfl | ha
      · exact ⟨_, by simp, h⟩
      · obtain ⟨b, hb, hr⟩ := ih ha
        exact ⟨b, by simp [hb], hr⟩
  obtain ⟨b, hb, hr⟩ := this
  exact ⟨b, h2.mem_iff.1 hb, hr⟩

theorem PermRel.right {l : List α} {l' : List β} (h : PermRel R l l') : ∀ b ∈ l', ∃ a ∈ l, R a b := by
  obtain ⟨e, h1, h2⟩ := h
  intro b hb
  have hb := h2.mem_iff.2 hb
  clear h2
  induction h1 with
  | nil => simp at hb
  | cons h _ ih =>
    rcases List.mem_cons.1 hb with rfl | hb
    · exact ⟨_, by simp, h⟩
    · obtain ⟨a, ha, hr⟩ := ih hb
      exact ⟨a, by simp [ha], hr⟩

theorem PermRel.map {S : γ → δ → Prop} {f : α → γ} {g : β → δ} (hf : ∀ a b, R a b → S (f a) (g b)) {l : List α} {l' : List β}
    (h : PermRel R l l') : PermRel S (l.map f) (l'.map g) := by
  obtain ⟨e, h1, h2⟩ := h
  refine ⟨e.map g, ?_, h2.map g⟩
  exact List.forall₂_map_left_iff.2 (List.forall₂_map_right_iff.2 (h1.imp fun a b => hf a b))

theorem PermRel.filter {p : α → Bool} {q : β → Bool} (hp : ∀ a b, R a b → p a = q b) {l : List α} {l' : List β}
    (h : PermRel R l l') : PermRel R (l.filter p) (l'.filter q) := by
  obtain ⟨e, h1, h2⟩ := h
  refine ⟨e.filter q, ?_, h2.filter q⟩
  clear h2
  induction h1 with
  | nil => exact .nil
  | cons h _ ih =>
    simp only [List.filter_cons, hp _ _ h]
    split
    · exact .cons h ih
    · exact ih

/-- Lists without repetition are related if each element of one is related to an element of the other, and to one only. -/
theorem PermRel.of_nodup (h1 : ∀ a b b', R a b → R a b' → b = b') (h2 : ∀ a a' b, R a b → R a' b → a = a') {l : List α}
    {l' : List β} (hl : l.Nodup) (hl' : l'.Nodup) (hf : ∀ a ∈ l, ∃ b ∈ l', R a b) (hb : ∀ b ∈ l', ∃ a ∈ l, R a b) :
    PermRel R l l' := by
  obtain ⟨e, he, hem⟩ : ∃ e, List.Forall₂ R l e ∧ ∀ b ∈ e, b ∈ l' := by
    clear hl hl' hb
    induction l with
    | nil => exact ⟨[], .nil, by simp⟩
    | cons a l ih =>
      obtain ⟨e, he, hem⟩ := ih fun x hx => hf x (by simp [hx])
      obtain ⟨b, hb, hr⟩ := hf a (by simp)
      exact ⟨b :: e, .cons hr he, by simp [hb]; exact hem⟩
  refine ⟨e, he, (List.perm_ext_iff_of_nodup ?_ hl').2 fun b => ⟨hem b, fun hb' => ?_⟩⟩
  · clear hf hb hem hl'
    induction he with
    | nil => exact .nil
    | @cons a b l e hr he ih =>
      rw [List.nodup_cons] at hl ⊢
      refine ⟨fun hbe => hl.1 ?_, ih hl.2⟩
      obtain ⟨a', ha', hr'⟩ := (PermRel.of_forall₂ he).right b hbe
      rw [h2 a a' b hr hr']
      exact ha'
  · obtain ⟨a, ha, hr⟩ := hb b hb'
    obtain ⟨b', hb'', hr'⟩ := (PermRel.of_forall₂ he).left a ha
    rw [h1 a b b' hr hr']
    exact hb''

/-- Combinations of related lists of options. -/
theorem PermRel.combo {os : List (List α)} {os' : List (List β)} (h : PermRel (PermRel R) os os') {c : List α}
    (hc : List.Forall₂ (fun a o => a ∈ o) c os) : ∃ c', List.Forall₂ (fun a o => a ∈ o) c' os' ∧ PermRel R c c' := by
  obtain ⟨e, h1, h2⟩ := h
  obtain ⟨d, hd, hr⟩ : ∃ d, List.Forall₂ (fun a o => a ∈ o) d e ∧ List.Forall₂ R c d := by
    clear h2
    induction h1 generalizing c with
    | nil => cases hc; exact ⟨[], .nil, .nil⟩
    | cons h _ ih =>
      cases hc with
      | cons ha hc =>
        obtain ⟨d, hd, hr⟩ := ih hc
        obtain ⟨b, hb, hab⟩ := h.left _ ha
        exact ⟨b :: d, .cons hb hd, .cons hab hr⟩
  obtain ⟨c', g1, g2⟩ := List.perm_comp_forall₂ h2.symm (r := fun o a => a ∈ o) (v := d) hd.flip
  exact ⟨c', g1.flip, d, hr, g2.symm⟩

end

/-! ## Evaluation never fails on propositions with enough arguments -/

/-- `=` has two arguments and a test of a type has one, or more. -/
def FitAtom (m : ObjMap) (a : Atom) : Prop := (a.pred = n!"=" → 2 ≤ a.args.length) ∧ (m.has a.pred = true → 1 ≤ a.args.length)

theorem evaluateEquals_fit {c : NfCtx} {a : Atom} (h : FitAtom c.omap a) : ∃ e, evaluateEquals c a = .ok e := by
  unfold evaluateEquals
  split
  · exact ⟨_, rfl⟩
  · rename_i he
    have h2 := h.1 (by simpa using he)
    rw [Res.index_lt (by omega : 0 < a.args.length), Res.index_lt (by omega : 1 < a.args.length)]
    exact ⟨_, rfl⟩

theorem evaluateType_fit {c : NfCtx} {a : Atom} (h : FitAtom c.omap a) : ∃ e, evaluateType c a = .ok e := by
  unfold evaluateType
  split
  · exact ⟨_, rfl⟩
  · rename_i he
    have h2 := h.2 (by simpa using he)
    rw [Res.index_lt (by omega : 0 < a.args.length)]
    exact ⟨_, rfl⟩

section
variable [StrHash]

/-- All propositions of the conjunction have enough arguments. -/
def FitConj (m : ObjMap) (p : PartialState) : Prop := (∀ a ∈ p.pos, FitAtom m a) ∧ ∀ a ∈ p.neg, FitAtom m a

def FitDnf (m : ObjMap) (d : Dnf) : Prop := ∀ p ∈ d, FitConj m p

theorem evaluateSingle_fit {m : ObjMap} {f : Atom → Res (Option Bool)} (hf : ∀ a, FitAtom m a → ∃ e, f a = .ok e)
    {p : PartialState} (h : FitConj m p) (h1 : p.size = 1) : ∃ e, evaluateSingle f p = .ok e := by
  unfold evaluateSingle
  rcases single_cases h1 with ⟨a, hp, hi, -⟩ | ⟨a, hn, hi, -⟩
  · obtain ⟨e, he⟩ := hf a (h.1 a (State.mem_elems.1 (by simp [hp])))
    simp [hi, hp, Res.index, he]
  · obtain ⟨e, he⟩ := hf a (h.2 a (State.mem_elems.1 (by simp [hn])))
    simp [hi, hn, Res.index, he]

theorem evaluateConj_fit {c : NfCtx} {p : PartialState} (h : FitConj c.omap p) : ∃ e, evaluateConj c p = .ok e := by
  unfold evaluateConj
  by_cases h1 : p.size = 1
  · obtain ⟨e1, he1⟩ := evaluateSingle_fit (f := evaluateEquals c) (fun a => evaluateEquals_fit) h h1
    obtain ⟨e2, he2⟩ := evaluateSingle_fit (f := evaluateType c) (fun a => evaluateType_fit) h h1
    simp only [if_pos h1, he1, he2, Res.bind_ok]
    cases e1 with
    | some b => exact ⟨_, rfl⟩
    | none =>
      cases e2 with
      | some b => exact ⟨_, rfl⟩
      | none => exact ⟨_, rfl⟩
  · simp only [if_neg h1, Res.pure_eq, Res.bind_ok]
    exact ⟨_, rfl⟩

/-! ## What Simplify returns -/

theorem Subsumes.refl (p : PartialState) : Subsumes p p := ⟨fun _ h => h, fun _ h => h⟩

theorem Subsumes.trans {p q r : PartialState} (h : Subsumes p q) (g : Subsumes q r) : Subsumes p r :=
  ⟨fun a ha => g.1 a (h.1 a ha), fun a ha => g.2 a (h.2 a ha)⟩

theorem Subsumes.antisymm {p q : PartialState} (h : Subsumes p q) (g : Subsumes q p) : p = q :=
  PartialState.ext' (fun a => ⟨h.1 a, g.1 a⟩) fun a => ⟨h.2 a, g.2 a⟩

theorem insertConj_covers (conj : PartialState) (l : List PartialState) :
    ∀ x, x = conj ∨ x ∈ l → ∃ y ∈ insertConj conj l, Subsumes y x := by
  intro x hx
  unfold insertConj tryInsertSubset
  by_cases h1 : l.any (fun c => isSubset c conj) = true
  · simp only [h1, if_true]
    obtain ⟨c, hc, hs⟩ := List.any_eq_true.1 h1
    rcases hx with rfl | hx
    · exact ⟨c, hc, isSubset_iff.1 hs⟩
    · exact ⟨x, hx, .refl x⟩
  · rw [if_neg h1]
    by_cases h2 : l.any (fun c => isSubset conj c) = true
    · simp only [h2, if_true, mem_sortUnique]
      rcases hx with rfl | hx
      · obtain ⟨c, hc, hs⟩ := List.any_eq_true.1 h2
        exact ⟨x, List.mem_map.2 ⟨c, hc, by rw [if_pos hs]⟩, .refl x⟩
      · refine ⟨_, List.mem_map.2 ⟨x, hx, rfl⟩, ?_⟩
        split
        · rename_i hs; exact isSubset_iff.1 hs
        · exact .refl x
    · rw [if_neg h2]
      simp only [Bool.false_eq_true, if_false, List.mem_append, List.mem_singleton]
      exact ⟨x, hx.symm, .refl x⟩

/-- The loop of `Simplify`: it stops at a true conjunction; otherwise the minimal ones of those that are neither true nor false
remain. -/
theorem simplifyLoop_min {c : NfCtx} : ∀ (l ret : List PartialState), (∀ p ∈ l, ∃ e, evaluateConj c p = .ok e) → Antichain ret →
    ((∃ p ∈ l, evaluateConj c p = .ok (some true)) ∧ simplifyLoop c l ret = .ok none) ∨
    ((∀ p ∈ l, evaluateConj c p ≠ .ok (some true)) ∧ ∃ m, simplifyLoop c l ret = .ok (some m) ∧ Antichain m ∧
      (∀ p ∈ m, p ∈ ret ∨ p ∈ l ∧ evaluateConj c p = .ok none) ∧
      ∀ p, p ∈ ret ∨ p ∈ l ∧ evaluateConj c p = .ok none → ∃ q ∈ m, Subsumes q p)
  | [], ret, _, ha => .inr ⟨by simp, ret, rfl, ha, fun p h => .inl h, by
      rintro p (h | h)
      · exact ⟨p, h, .refl p⟩
      · simp at h⟩
  | conj :: rest, ret, he, ha => by
    obtain ⟨e, h1⟩ := he conj (by simp)
    have he' := fun p hp => he p (List.mem_cons_of_mem conj hp)
    unfold simplifyLoop
    simp only [h1, Res.bind_ok]
    match e, h1 with
    | none, h1 =>
      obtain ⟨i1, i2, -, -⟩ := insertConj_spec conj ret ha
      have i3 := insertConj_covers conj ret
      rcases simplifyLoop_min rest (insertConj conj ret) he' i1 with ⟨⟨p, hp, ht⟩, hl⟩ | ⟨hn, m, j1, j2, j3, j4⟩
      · exact .inl ⟨⟨p, by simp [hp], ht⟩, hl⟩
      · refine .inr ⟨?_, m, j1, j2, ?_, ?_⟩
        · intro p hp
          rcases List.mem_cons.1 hp with rfl | hp
          · rw [h1]; simp
          · exact hn p hp
        · intro p hp
          rcases j3 p hp with h | ⟨h, hh⟩
          · rcases i2 p h with rfl | h
            · exact .inr ⟨by simp, h1⟩
            · exact .inl h
          · exact .inr ⟨by simp [h], hh⟩
        · intro p hp
          have : (p = conj ∨ p ∈ ret) ∨ p ∈ rest ∧ evaluateConj c p = .ok none := by
            rcases hp with h | ⟨h, hh⟩
            · exact .inl (.inr h)
            · rcases List.mem_cons.1 h with rfl | h
              · exact .inl (.inl rfl)
              · exact .inr ⟨h, hh⟩
          rcases this with h | h
          · obtain ⟨y, hy, hs⟩ := i3 p h
            obtain ⟨z, hz, hs'⟩ := j4 y (.inl hy)
            exact ⟨z, hz, hs'.trans hs⟩
          · exact j4 p (.inr h)
    | some true, h1 => exact .inl ⟨⟨conj, by simp, h1⟩, rfl⟩
    | some false, h1 =>
      rcases simplifyLoop_min rest ret he' ha with ⟨⟨p, hp, ht⟩, hl⟩ | ⟨hn, m, j1, j2, j3, j4⟩
      · exact .inl ⟨⟨p, by simp [hp], ht⟩, hl⟩
      · refine .inr ⟨?_, m, j1, j2, ?_, ?_⟩
        · intro p hp
          rcases List.mem_cons.1 hp with rfl | hp
          · rw [h1]; simp
          · exact hn p hp
        · intro p hp
          rcases j3 p hp with h | ⟨h, hh⟩
          · exact .inl h
          · exact .inr ⟨by simp [h], hh⟩
        · rintro p (h | ⟨h, hh⟩)
          · exact j4 p (.inl h)
          · rcases List.mem_cons.1 h with rfl | h
            · rw [h1] at hh; simp at hh
            · exact j4 p (.inr ⟨h, hh⟩)

theorem sortUnique_nodup (l : List PartialState) : (sortUnique l).Nodup := by
  refine (sortUnique_sorted l).imp ?_
  rintro a b h rfl
  rw [PartialState.lt_strictTotal.irrefl] at h
  simp at h

/-- `Simplify`. -/
theorem simplify_min {c : NfCtx} {d : Dnf} (hd : d ≠ []) (he : ∀ p ∈ d, ∃ e, evaluateConj c p = .ok e) :
    ((∃ p ∈ d, evaluateConj c p = .ok (some true)) ∧ simplify c d = .ok (some [])) ∨
    ((∀ p ∈ d, evaluateConj c p ≠ .ok (some true)) ∧ (∀ p ∈ d, evaluateConj c p ≠ .ok none) ∧ simplify c d = .ok none) ∨
    ((∀ p ∈ d, evaluateConj c p ≠ .ok (some true)) ∧ (∃ p ∈ d, evaluateConj c p = .ok none) ∧
      ∃ m, simplify c d = .ok (some m) ∧ m.Nodup ∧ Antichain m ∧ (∀ p ∈ m, p ∈ d ∧ evaluateConj c p = .ok none) ∧
        ∀ p ∈ d, evaluateConj c p = .ok none → ∃ q ∈ m, Subsumes q p) := by
  unfold simplify
  rw [if_neg hd]
  rcases simplifyLoop_min d [] he (by intro a ha; simp at ha) with ⟨h, hl⟩ | ⟨hn, m, h1, h2, h3, h4⟩
  · exact .inl ⟨h, by rw [hl]; rfl⟩
  · simp only [h1, Res.bind_ok]
    have h3' : ∀ p ∈ m, p ∈ d ∧ evaluateConj c p = .ok none := fun p hp => (h3 p hp).resolve_left (by simp)
    by_cases hm : m = []
    · refine .inr (.inl ⟨hn, ?_, by rw [if_pos hm]; rfl⟩)
      intro p hp hh
      obtain ⟨q, hq, -⟩ := h4 p (.inr ⟨hp, hh⟩)
      rw [hm] at hq; simp at hq
    · obtain ⟨p, hp⟩ := List.exists_mem_of_ne_nil m hm
      refine .inr (.inr ⟨hn, ⟨p, h3' p hp⟩, sortUnique m, by rw [if_neg hm]; rfl, sortUnique_nodup m, ?_, ?_, ?_⟩)
      · intro a ha b hb
        exact h2 a (mem_sortUnique.1 ha) b (mem_sortUnique.1 hb)
      · intro p hp
        exact h3' p (mem_sortUnique.1 hp)
      · intro p hp hh
        obtain ⟨q, hq, hs⟩ := h4 p (.inr ⟨hp, hh⟩)
        exact ⟨q, mem_sortUnique.2 hq, hs⟩

end

/-! ## Two hash functions -/

section
variable {ρ : Renaming} (hρ : ρ.Proper) {h₁ h₂ : StrHash}

theorem SameState.right_unique {s : @State h₁} {t t' : @State h₂} (h : SameState ρ s t) (h' : SameState ρ s t') : t = t' :=
  @State.ext h₂ _ _ fun b => (h b).trans (h' b).symm

theorem SamePartial.right_unique {p : @PartialState h₁} {q q' : @PartialState h₂} (h : SamePartial ρ p q)
    (h' : SamePartial ρ p q') : q = q' :=
  @PartialState.ext' h₂ _ _ (fun b => (h.1 b).trans (h'.1 b).symm) fun b => (h.2 b).trans (h'.2 b).symm

include hρ

theorem SameState.has {s : @State h₁} {t : @State h₂} (h : SameState ρ s t) (a : Atom) : t.Has (a.rename ρ) ↔ s.Has a := by
  rw [h (a.rename ρ)]
  constructor
  · rintro ⟨x, hx, e⟩
    rw [Atom.rename_inj hρ e]
    exact hx
  · intro ha
    exact ⟨a, ha, rfl⟩

theorem SamePartial.left_unique {p p' : @PartialState h₁} {q : @PartialState h₂} (h : SamePartial ρ p q)
    (h' : SamePartial ρ p' q) : p = p' :=
  @PartialState.ext' h₁ _ _ (fun a => (h.1.has hρ a).symm.trans (h'.1.has hρ a)) fun a => (h.2.has hρ a).symm.trans (h'.2.has hρ a)

theorem Subsumes.of_rename {p p' : @PartialState h₁} {q q' : @PartialState h₂} (h : SamePartial ρ p q) (h' : SamePartial ρ p' q')
    (hs : @Subsumes h₂ q' q) : @Subsumes h₁ p' p :=
  ⟨fun a ha => (h.1.has hρ a).1 (hs.1 _ ((h'.1.has hρ a).2 ha)), fun a ha => (h.2.has hρ a).1 (hs.2 _ ((h'.2.has hρ a).2 ha))⟩

omit hρ in
theorem Subsumes.rename {p p' : @PartialState h₁} {q q' : @PartialState h₂} (h : SamePartial ρ p q) (h' : SamePartial ρ p' q')
    (hs : @Subsumes h₁ p' p) : @Subsumes h₂ q' q := by
  refine ⟨fun b hb => ?_, fun b hb => ?_⟩
  · obtain ⟨a, ha, rfl⟩ := (h'.1 b).1 hb
    exact (h.1 _).2 ⟨a, hs.1 a ha, rfl⟩
  · obtain ⟨a, ha, rfl⟩ := (h'.2 b).1 hb
    exact (h.2 _).2 ⟨a, hs.2 a ha, rfl⟩

/-- The same conjunctions up to names, and up to order. -/
def DnfRel (ρ : Renaming) {h₁ h₂ : StrHash} (d : @Dnf h₁) (d' : @Dnf h₂) : Prop := PermRel (SamePartial ρ) d d'

/-- The same, and all propositions have enough arguments. -/
def DnfFit (ρ : Renaming) (m : ObjMap) {h₁ h₂ : StrHash} (d : @Dnf h₁) (d' : @Dnf h₂) : Prop := DnfRel ρ d d' ∧ @FitDnf h₁ m d

theorem simplify_permRel {c : NfCtx} {d : @Dnf h₁} {d' : @Dnf h₂} (hl : ∀ p ∈ d, ∃ q ∈ d', SamePartial ρ p q)
    (hr : ∀ q ∈ d', ∃ p ∈ d, SamePartial ρ p q) (hf : @FitDnf h₁ c.omap d) :
    SameOutcome (OptRel (DnfFit ρ c.omap)) (@simplify h₁ c d) (@simplify h₂ (c.rename ρ) d') := by
  by_cases hd : d = []
  · have hd' : d' = [] := by
      by_contra h
      obtain ⟨q, hq⟩ := List.exists_mem_of_ne_nil d' h
      obtain ⟨p, hp, -⟩ := hr q hq
      rw [hd] at hp; simp at hp
    subst hd; subst hd'
    exact ⟨PermRel.nil, by intro p hp; simp at hp⟩
  have hd' : d' ≠ [] := by
    obtain ⟨p, hp⟩ := List.exists_mem_of_ne_nil d hd
    obtain ⟨q, hq, -⟩ := hl p hp
    exact List.ne_nil_of_mem hq
  have e1 : ∀ p ∈ d, ∃ e, @evaluateConj h₁ c p = .ok e := fun p hp => @evaluateConj_fit h₁ _ _ (hf p hp)
  have ev : ∀ {p : @PartialState h₁} {q : @PartialState h₂}, SamePartial ρ p q → @evaluateConj h₂ (c.rename ρ) q = @evaluateConj h₁ c p :=
    fun h => evaluateConj_rename hρ c h
  have e2 : ∀ q ∈ d', ∃ e, @evaluateConj h₂ (c.rename ρ) q = .ok e := fun q hq => by
    obtain ⟨p, hp, h⟩ := hr q hq
    obtain ⟨e, he⟩ := e1 p hp
    exact ⟨e, (ev h).trans he⟩
  have lr : ∀ v, (∃ p ∈ d, @evaluateConj h₁ c p = v) → ∃ q ∈ d', @evaluateConj h₂ (c.rename ρ) q = v := by
    rintro v ⟨p, hp, hv⟩
    obtain ⟨q, hq, h⟩ := hl p hp
    exact ⟨q, hq, (ev h).trans hv⟩
  have rl : ∀ v, (∃ q ∈ d', @evaluateConj h₂ (c.rename ρ) q = v) → ∃ p ∈ d, @evaluateConj h₁ c p = v := by
    rintro v ⟨q, hq, hv⟩
    obtain ⟨p, hp, h⟩ := hr q hq
    exact ⟨p, hp, (ev h).symm.trans hv⟩
  rcases @simplify_min h₁ c d hd e1 with ⟨t1, s1⟩ | ⟨n1, f1, s1⟩ | ⟨n1, f1, m, s1, nd1, ac1, sub1, cov1⟩ <;>
    rcases @simplify_min h₂ (c.rename ρ) d' hd' e2 with ⟨t2, s2⟩ | ⟨n2, f2, s2⟩ | ⟨n2, f2, m', s2, nd2, ac2, sub2, cov2⟩ <;>
    rw [s1, s2]
  · exact ⟨PermRel.nil, by intro p hp; simp at hp⟩
  · obtain ⟨q, hq, hv⟩ := lr _ t1; exact absurd hv (n2 q hq)
  · obtain ⟨q, hq, hv⟩ := lr _ t1; exact absurd hv (n2 q hq)
  · obtain ⟨q, hq, hv⟩ := rl _ t2; exact absurd hv (n1 q hq)
  · trivial
  · obtain ⟨q, hq, hv⟩ := rl _ f2; exact absurd hv (f1 q hq)
  · obtain ⟨q, hq, hv⟩ := rl _ t2; exact absurd hv (n1 q hq)
  · obtain ⟨q, hq, hv⟩ := lr _ f1; exact absurd hv (f2 q hq)
  · refine ⟨PermRel.of_nodup (fun p q q' h h' => h.right_unique h') (fun p p' q h h' => h.left_unique hρ h') nd1 nd2 ?_ ?_,
      fun p hp => hf p (sub1 p hp).1⟩
    · intro p hp
      obtain ⟨k1, k2⟩ := sub1 p hp
      obtain ⟨q, hq, h⟩ := hl p k1
      obtain ⟨q', hq', hs⟩ := cov2 q hq ((ev h).trans k2)
      obtain ⟨k3, k4⟩ := sub2 q' hq'
      obtain ⟨p', hp', h'⟩ := hr q' k3
      have hs1 : @Subsumes h₁ p' p := Subsumes.of_rename hρ h h' hs
      obtain ⟨p'', hp'', hs2⟩ := cov1 p' hp' ((ev h').symm.trans k4)
      have e : p'' = p := ac1 p'' hp'' p hp (@Subsumes.trans h₁ _ _ _ hs2 hs1)
      have e' : p' = p := by
        rw [e] at hs2
        exact @Subsumes.antisymm h₁ _ _ hs1 hs2
      rw [e'] at h'
      exact ⟨q', hq', h'⟩
    · intro q hq
      obtain ⟨k1, k2⟩ := sub2 q hq
      obtain ⟨p, hp, h⟩ := hr q k1
      obtain ⟨p', hp', hs⟩ := cov1 p hp ((ev h).symm.trans k2)
      obtain ⟨k3, k4⟩ := sub1 p' hp'
      obtain ⟨q', hq', h'⟩ := hl p' k3
      have hs1 : @Subsumes h₂ q' q := Subsumes.rename h h' hs
      obtain ⟨q'', hq'', hs2⟩ := cov2 q' hq' ((ev h').trans k4)
      have e : q'' = q := ac2 q'' hq'' q hq (@Subsumes.trans h₂ _ _ _ hs2 hs1)
      have e' : q' = q := by
        rw [e] at hs2
        exact @Subsumes.antisymm h₂ _ _ hs1 hs2
      rw [e'] at h'
      exact ⟨p', hp', h'⟩

omit hρ in
theorem FitDnf.flatten [StrHash] {m : ObjMap} {ds : List Dnf} (h : ∀ d ∈ ds, FitDnf m d) : FitDnf m ds.flatten := by
  intro p hp
  obtain ⟨d, hd, hp⟩ := List.mem_flatten.1 hp
  exact h d hd p hp

omit hρ in
theorem SamePartial.unionPerm {ps : List (@PartialState h₁)} {qs : List (@PartialState h₂)} (h : PermRel (SamePartial ρ) ps qs) :
    SamePartial ρ (@unionConj h₁ ps) (@unionConj h₂ qs) := by
  obtain ⟨e, h1, h2⟩ := h
  have h3 := SamePartial.union h1
  have : @unionConj h₂ e = @unionConj h₂ qs := by
    refine @PartialState.ext' h₂ _ _ (fun a => ?_) fun a => ?_
    · rw [(@mem_unionConj h₂ e a).1, (@mem_unionConj h₂ qs a).1]
      simp only [h2.mem_iff]
    · rw [(@mem_unionConj h₂ e a).2, (@mem_unionConj h₂ qs a).2]
      simp only [h2.mem_iff]
  rw [← this]
  exact h3

omit hρ in
theorem conjoin_eq [StrHash] (c : NfCtx) (ds : List Dnf) : conjoin c ds =
    if ds.filter (fun d => decide (d ≠ [])) = [] then .ok (some [])
    else simplify c ((cartesian (ds.filter fun d => decide (d ≠ []))).map unionConj) := by
  unfold conjoin
  set os := ds.filter (fun d => decide (d ≠ [])) with hos
  have hne : ∀ o ∈ os, o ≠ [] := fun o ho => by simpa using (List.mem_filter.1 ho).2
  have hctor : Comb.ctor os = .ok os := by
    unfold Comb.ctor
    rw [if_neg]
    simp only [List.any_eq_true, not_exists, not_and]
    intro o ho h
    exact hne o ho (List.isEmpty_iff.1 h)
  simp only [hctor, Res.bind_ok, comb_forward_ok PartialState.empty hne]
  by_cases h0 : os = []
  · simp [h0, simplify]
  · simp [h0]

omit hρ in
theorem fit_combo [StrHash] {m : ObjMap} {os : List Dnf} (h : ∀ d ∈ os, FitDnf m d) {combo : List PartialState}
    (hc : List.Forall₂ (fun a o => a ∈ o) combo os) : FitConj m (unionConj combo) := by
  have hall : ∀ t ∈ combo, FitConj m t := by
    intro t ht
    obtain ⟨o, ho, hto⟩ : ∃ o ∈ os, t ∈ o := by
      clear h
      induction hc with
      | nil => simp at ht
      | cons h1 _ ih =>
        rcases List.mem_cons.1 ht with rfl | ht
        · exact ⟨_, by simp, h1⟩
        · obtain ⟨o, ho, h⟩ := ih ht
          exact ⟨o, by simp [ho], h⟩
    exact h o ho t hto
  refine ⟨fun a ha => ?_, fun a ha => ?_⟩
  · obtain ⟨t, ht, hat⟩ := (mem_unionConj combo a).1.1 ha
    exact (hall t ht).1 a hat
  · obtain ⟨t, ht, hat⟩ := (mem_unionConj combo a).2.1 ha
    exact (hall t ht).2 a hat

omit hρ in
theorem PermRel.symm' {α β : Type} {R : α → β → Prop} {l : List α} {l' : List β} (h : PermRel R l l') :
    PermRel (fun b a => R a b) l' l := by
  obtain ⟨e, h1, h2⟩ := h
  obtain ⟨k, g1, g2⟩ := List.perm_comp_forall₂ h2.symm (r := fun b a => R a b) (v := l) h1.flip
  exact ⟨k, g1, g2⟩

omit hρ in
theorem PermRel.imp {α β : Type} {R S : α → β → Prop} (hrs : ∀ a b, R a b → S a b) {l : List α} {l' : List β} (h : PermRel R l l') :
    PermRel S l l' := by
  obtain ⟨e, h1, h2⟩ := h
  exact ⟨e, h1.imp hrs, h2⟩

theorem conjoin_permRel {c : NfCtx} {ds : List (@Dnf h₁)} {ds' : List (@Dnf h₂)} (h : PermRel (DnfRel ρ) ds ds')
    (hf : ∀ d ∈ ds, @FitDnf h₁ c.omap d) :
    SameOutcome (OptRel (DnfFit ρ c.omap)) (@conjoin h₁ c ds) (@conjoin h₂ (c.rename ρ) ds') := by
  rw [@conjoin_eq h₁, @conjoin_eq h₂]
  have hos : PermRel (DnfRel ρ) (ds.filter fun d => decide (d ≠ [])) (ds'.filter fun d => decide (d ≠ [])) := by
    refine h.filter fun d d' hd => ?_
    have := hd.eq_nil
    simp only [ne_eq, this]
  have hfo : ∀ d ∈ ds.filter (fun d => decide (d ≠ [])), @FitDnf h₁ c.omap d := fun d hd => hf d (List.mem_filter.1 hd).1
  revert hos hfo
  generalize ds.filter (fun d => decide (d ≠ [])) = os
  generalize ds'.filter (fun d => decide (d ≠ [])) = os'
  intro hos hfo
  by_cases h0 : os = []
  · rw [if_pos h0, if_pos (hos.eq_nil.1 h0)]
    exact ⟨PermRel.nil, by intro p hp; simp at hp⟩
  · rw [if_neg h0, if_neg fun e => h0 (hos.eq_nil.2 e)]
    refine simplify_permRel hρ ?_ ?_ ?_
    · intro p hp
      obtain ⟨combo, hc, rfl⟩ := List.mem_map.1 hp
      obtain ⟨c', hc', hr⟩ := PermRel.combo hos (Comb.mem_cartesian.1 hc)
      exact ⟨_, List.mem_map.2 ⟨c', Comb.mem_cartesian.2 hc', rfl⟩, SamePartial.unionPerm hr⟩
    · intro q hq
      obtain ⟨combo, hc, rfl⟩ := List.mem_map.1 hq
      have hos' : PermRel (PermRel fun q p => SamePartial ρ p q) os' os := hos.symm'.imp fun _ _ hd => PermRel.symm' hd
      obtain ⟨c', hc', hr⟩ := PermRel.combo hos' (Comb.mem_cartesian.1 hc)
      exact ⟨_, List.mem_map.2 ⟨c', Comb.mem_cartesian.2 hc', rfl⟩, SamePartial.unionPerm hr.symm'⟩
    · intro p hp
      obtain ⟨combo, hc, rfl⟩ := List.mem_map.1 hp
      exact @fit_combo h₁ _ _ hfo _ (Comb.mem_cartesian.1 hc)

theorem disjoin_permRel {c : NfCtx} {ds : List (@Dnf h₁)} {ds' : List (@Dnf h₂)} (h : PermRel (DnfRel ρ) ds ds')
    (hf : ∀ d ∈ ds, @FitDnf h₁ c.omap d) :
    SameOutcome (OptRel (DnfFit ρ c.omap)) (@disjoin h₁ c ds) (@disjoin h₂ (c.rename ρ) ds') := by
  refine simplify_permRel hρ ?_ ?_ (@FitDnf.flatten h₁ _ _ hf)
  · intro p hp
    obtain ⟨d, hd, hp⟩ := List.mem_flatten.1 hp
    obtain ⟨d', hd', hr⟩ := h.left d hd
    obtain ⟨q, hq, hpq⟩ := hr.left p hp
    exact ⟨q, List.mem_flatten.2 ⟨d', hd', hq⟩, hpq⟩
  · intro q hq
    obtain ⟨d', hd', hq⟩ := List.mem_flatten.1 hq
    obtain ⟨d, hd, hr⟩ := h.right d' hd'
    obtain ⟨p, hp, hpq⟩ := hr.right q hq
    exact ⟨p, List.mem_flatten.2 ⟨d, hd, hp⟩, hpq⟩

theorem negateDnf_permRel {c : NfCtx} {d : @Dnf h₁} {d' : @Dnf h₂} (h : DnfFit ρ c.omap d d') :
    SameOutcome (OptRel (DnfFit ρ c.omap)) (@negateDnf h₁ c d) (@negateDnf h₂ (c.rename ρ) d') := by
  refine conjoin_permRel hρ ?_ ?_
  · refine PermRel.map ?_ h.1
    intro p q hpq
    have key : ∀ {s : @State h₁} {t : @State h₂}, SameState ρ s t →
        PermRel (fun a b => b = Atom.rename ρ a) (@State.elems h₁ s) (@State.elems h₂ t) := by
      intro s t hst
      refine ⟨_, ?_, (hst.elems_perm hρ).symm⟩
      rw [List.forall₂_map_right_iff]
      exact List.forall₂_same.2 fun _ _ => rfl
    refine PermRel.append ?_ ?_
    · refine PermRel.map ?_ (key hpq.2)
      rintro a _ rfl
      exact ⟨SameState.ofList ρ [a], SameState.empty ρ⟩
    · refine PermRel.map ?_ (key hpq.1)
      rintro a _ rfl
      exact ⟨SameState.empty ρ, SameState.ofList ρ [a]⟩
  · intro l hl
    obtain ⟨p, hp, rfl⟩ := List.mem_map.1 hl
    intro x hx
    rcases List.mem_append.1 hx with hx | hx
    · obtain ⟨a, ha, rfl⟩ := List.mem_map.1 hx
      refine ⟨fun b hb => ?_, fun b hb => ?_⟩
      · have : b = a := by simpa using (@State.mem_ofList h₁ [a] b).1 hb
        subst this
        exact (h.2 p hp).2 b ((@State.mem_elems h₁ _ _).1 ha)
      · simp at hb
    · obtain ⟨a, ha, rfl⟩ := List.mem_map.1 hx
      refine ⟨fun b hb => ?_, fun b hb => ?_⟩
      · simp at hb
      · have : b = a := by simpa using (@State.mem_ofList h₁ [a] b).1 hb
        subst this
        exact (h.2 p hp).1 b ((@State.mem_elems h₁ _ _).1 ha)

end

/-! ## Formulas -/

section
variable {ρ : Renaming} (hρ : ρ.Proper) {h₁ h₂ : StrHash}

theorem applyLoop_length {args : List Obj} : ∀ {idx : List (Nat × Nat)} {buf os : List Obj}, applyLoop args idx buf = .ok os →
    os.length = buf.length
  | [], buf, os, h => by
    simp only [applyLoop, Res.ok.injEq] at h
    rw [h]
  | (i, j) :: rest, buf, os, h => by
    simp only [applyLoop] at h
    obtain ⟨a, -, h⟩ := Res.bind_eq_ok.1 h
    split at h
    · rw [applyLoop_length h, List.length_set]
    · cases h

/-- The object map has no empty lists and knows the types of the objects only. -/
def MapOk (m : ObjMap) (objects : List Obj) : Prop := m.NonEmpty ∧ ∀ p, m.has p = true → IsType objects p

theorem MapOk.create (objects : List Obj) : MapOk (ObjMap.create objects) objects :=
  ⟨ObjMap.nonEmpty_create objects, fun p => (ObjMap.has_create objects p).1⟩

theorem dnfAtom_fit {m : ObjMap} {objects params args : List Obj} {p : Name} {ts : List Term} {a : Atom} (hm : MapOk m objects) (h : dnfAtom params p ts args = .ok a)
    (hf : EnoughArgs objects p ts) : FitAtom m a := by
  unfold dnfAtom at h
  obtain ⟨os, h1, h2⟩ := Res.bind_eq_ok.1 h
  cases h2
  have hl : os.length = ts.length := by
    have := applyLoop_length h1
    rwa [List.length_map] at this
  unfold FitAtom
  simp only [Atom.ofObjs, List.length_map, hl]
  exact ⟨hf.1, fun h => hf.2 (hm.2 p h)⟩

/-- An outcome of the same kind, with a property of the first. -/
theorem SameOutcome.with_left {α β : Type} {R : α → β → Prop} {x : Res α} {y : Res β} (h : SameOutcome R x y) {p : α → Prop}
    (hp : ∀ a, x = .ok a → p a) : SameOutcome (fun a b => R a b ∧ p a) x y := by
  cases x <;> cases y <;> first | exact h | exact ⟨h, hp _ rfl⟩

theorem optRel_split {m : ObjMap} {ds : List (@Dnf h₁)} {ds' : List (@Dnf h₂)} (h : List.Forall₂ (DnfFit ρ m) ds ds') :
    PermRel (DnfRel ρ) ds ds' ∧ ∀ d ∈ ds, @FitDnf h₁ m d := by
  refine ⟨.of_forall₂ (h.imp fun _ _ x => x.1), fun d hd => ?_⟩
  obtain ⟨d', -, hh⟩ := (PermRel.of_forall₂ h).left d hd
  exact hh.2

theorem dnfSimple_fit [StrHash] {m : ObjMap} {objects params args : List Obj} (hm : MapOk m objects) : ∀ {l : List (Name × List Term)} {s t : State},
    dnfSimple params args l s = .ok t → (∀ x ∈ l, EnoughArgs objects x.1 x.2) → (∀ a ∈ s, FitAtom m a) →
    ∀ a ∈ t, FitAtom m a
  | [], s, t, h, _, hs => by
    simp only [dnfSimple, Res.ok.injEq] at h
    rwa [← h]
  | (p, ts) :: rest, s, t, h, hl, hs => by
    simp only [dnfSimple] at h
    obtain ⟨a, h1, h2⟩ := Res.bind_eq_ok.1 h
    refine dnfSimple_fit hm h2 (fun x hx => hl x (by simp [hx])) ?_
    intro b hb
    rcases State.mem_insert.1 hb with rfl | hb
    · exact dnfAtom_fit hm h1 (hl (p, ts) (by simp))
    · exact hs b hb

include hρ

set_option linter.unusedSectionVars false in
mutual
/-- The normal form of a formula. -/
theorem Goal.dnf_permRel {c : NfCtx} {objects : List Obj} (hm : MapOk c.omap objects) : ∀ (g : Goal) (params args : List Obj),
    g.EnoughArgs objects → SameOutcome (OptRel (DnfFit ρ c.omap)) (@Goal.dnf h₁ c g params args)
      (@Goal.dnf h₂ (c.rename ρ) (g.rename ρ) (params.map (Obj.rename ρ)) (args.map (Obj.rename ρ)))
  | .atom p ts, params, args, hf => by
    simp only [Goal.rename, Goal.dnf]
    refine ((dnfAtom_rename hρ params p ts args).with_left fun a ha => dnfAtom_fit hm ha hf).bind ?_
    rintro a _ ⟨rfl, hfa⟩
    refine ⟨.of_forall₂ (.cons ⟨SameState.ofList ρ [a], SameState.empty ρ⟩ .nil), ?_⟩
    intro p hp
    rw [List.mem_singleton.1 hp]
    refine ⟨fun b hb => ?_, fun b hb => by simp at hb⟩
    have : b = a := by simpa using (@State.mem_ofList h₁ [a] b).1 hb
    rw [this]
    exact hfa
  | .conj gs, params, args, hf => by
    simp only [Goal.rename, Goal.dnf]
    refine (Goal.dnfAll_permRel hm gs params args hf).bind ?_
    intro ds ds' h
    match ds, ds', h with
    | none, none, _ => trivial
    | some ds, some ds', h => exact conjoin_permRel hρ (optRel_split h).1 (optRel_split h).2
  | .disj gs, params, args, hf => by
    simp only [Goal.rename, Goal.dnf]
    refine (Goal.dnfAny_permRel hm gs params args hf).bind ?_
    intro ds ds' h
    exact disjoin_permRel hρ (optRel_split h).1 (optRel_split h).2
  | .neg g, params, args, hf => by
    simp only [Goal.rename, Goal.dnf]
    refine (Goal.dnf_permRel hm g params args hf).bind ?_
    intro d d' h
    match d, d', h with
    | none, none, _ => exact ⟨PermRel.nil, by intro p hp; simp at hp⟩
    | some d, some d', h => exact negateDnf_permRel hρ h
  | .all vars g, params, args, hf => by
    simp only [Goal.rename, Goal.dnf]
    have hg := genLoop_rename ρ (paramTypes_ne (m := c.omap) hm.1 vars)
    rw [← paramTypes_rename hρ] at hg
    refine hg.bind ?_
    rintro l _ rfl
    have hl := dnfLoop_rename (h₁ := h₁) (h₂ := h₂) (R := DnfFit ρ c.omap) (k := List.map (Obj.rename ρ)) true
      (f := fun os => @Goal.dnf h₁ c g (params ++ vars) (args ++ os))
      (g := fun os => @Goal.dnf h₂ (c.rename ρ) (g.rename ρ) (params.map (Obj.rename ρ) ++ vars.map (Obj.rename ρ))
        (args.map (Obj.rename ρ) ++ os))
      (fun os => by
        have := Goal.dnf_permRel hm g (params ++ vars) (args ++ os) hf
        simpa only [List.map_append] using this) l
    refine hl.bind ?_
    intro ds ds' h
    match ds, ds', h with
    | none, none, _ => trivial
    | some ds, some ds', h => exact conjoin_permRel hρ (optRel_split h).1 (optRel_split h).2
  | .ex vars g, params, args, hf => by
    simp only [Goal.rename, Goal.dnf]
    have hg := genLoop_rename ρ (paramTypes_ne (m := c.omap) hm.1 vars)
    rw [← paramTypes_rename hρ] at hg
    refine hg.bind ?_
    rintro l _ rfl
    have hl := dnfLoop_rename (h₁ := h₁) (h₂ := h₂) (R := DnfFit ρ c.omap) (k := List.map (Obj.rename ρ)) false
      (f := fun os => @Goal.dnf h₁ c g (params ++ vars) (args ++ os))
      (g := fun os => @Goal.dnf h₂ (c.rename ρ) (g.rename ρ) (params.map (Obj.rename ρ) ++ vars.map (Obj.rename ρ))
        (args.map (Obj.rename ρ) ++ os))
      (fun os => by
        have := Goal.dnf_permRel hm g (params ++ vars) (args ++ os) hf
        simpa only [List.map_append] using this) l
    refine hl.bind ?_
    intro ds ds' h
    match ds, ds', h with
    | none, none, _ => trivial
    | some ds, some ds', h => exact disjoin_permRel hρ (optRel_split h).1 (optRel_split h).2
  | .other, params, args, _ => trivial
theorem Goal.dnfAll_permRel {c : NfCtx} {objects : List Obj} (hm : MapOk c.omap objects) : ∀ (gs : List Goal)
    (params args : List Obj), Goal.EnoughArgsAll objects gs → SameOutcome (OptRel (List.Forall₂ (DnfFit ρ c.omap)))
      (@Goal.dnfAll h₁ c gs params args)
      (@Goal.dnfAll h₂ (c.rename ρ) (Goal.renameAll ρ gs) (params.map (Obj.rename ρ)) (args.map (Obj.rename ρ)))
  | [], params, args, _ => .nil
  | g :: gs, params, args, hf => by
    simp only [Goal.renameAll, Goal.dnfAll]
    refine (Goal.dnf_permRel hm g params args hf.1).bind ?_
    intro d d' h
    match d, d', h with
    | none, none, _ => trivial
    | some d, some d', h =>
      simp only
      refine (Goal.dnfAll_permRel hm gs params args hf.2).bind ?_
      intro r r' hr
      match r, r', hr with
      | none, none, _ => trivial
      | some r, some r', hr => exact .cons h hr
theorem Goal.dnfAny_permRel {c : NfCtx} {objects : List Obj} (hm : MapOk c.omap objects) : ∀ (gs : List Goal)
    (params args : List Obj), Goal.EnoughArgsAll objects gs → SameOutcome (List.Forall₂ (DnfFit ρ c.omap))
      (@Goal.dnfAny h₁ c gs params args)
      (@Goal.dnfAny h₂ (c.rename ρ) (Goal.renameAll ρ gs) (params.map (Obj.rename ρ)) (args.map (Obj.rename ρ)))
  | [], params, args, _ => .nil
  | g :: gs, params, args, hf => by
    simp only [Goal.renameAll, Goal.dnfAny]
    refine (Goal.dnf_permRel hm g params args hf.1).bind ?_
    intro d d' h
    refine (Goal.dnfAny_permRel hm gs params args hf.2).bind ?_
    intro r r' hr
    match d, d', h with
    | none, none, _ => exact hr
    | some d, some d', h => exact .cons h hr
end

mutual
/-- The normal form of an effect. -/
theorem Eff.dnf_permRel {c : NfCtx} {objects : List Obj} (hm : MapOk c.omap objects) : ∀ (e : Eff) (params args : List Obj),
    e.EnoughArgs objects → SameOutcome (OptRel (DnfFit ρ c.omap)) (@Eff.dnf h₁ c e params args)
      (@Eff.dnf h₂ (c.rename ρ) (e.rename ρ) (params.map (Obj.rename ρ)) (args.map (Obj.rename ρ)))
  | .mk fs adds dels cs, params, args, hf => by
    obtain ⟨hfs, hadds, hdels, hcs⟩ := hf
    simp only [Eff.rename, Eff.dnf]
    refine (FList.dnf_permRel hm fs params args hfs).bind ?_
    intro ds ds' hds
    match ds, ds', hds with
    | none, none, _ => trivial
    | some ds, some ds', hds =>
      simp only
      refine ((dnfSimple_rename hρ params args adds (SameState.empty ρ)).with_left fun s hs =>
        @dnfSimple_fit h₁ _ _ _ _ hm _ _ _ hs hadds (by simp)).bind ?_
      rintro pos pos' ⟨hpos, fpos⟩
      refine ((dnfSimple_rename hρ params args dels (SameState.empty ρ)).with_left fun s hs =>
        @dnfSimple_fit h₁ _ _ _ _ hm _ _ _ hs hdels (by simp)).bind ?_
      rintro neg neg' ⟨hneg, fneg⟩
      refine (CList.dnf_permRel hm cs params args hcs).bind ?_
      intro es es' hes
      rw [hpos.isEmpty hρ, hneg.isEmpty hρ]
      split
      · have hd : DnfFit ρ c.omap [@PartialState.mk h₁ pos neg] [@PartialState.mk h₂ pos' neg'] := by
          refine ⟨.of_forall₂ (.cons ⟨hpos, hneg⟩ .nil), ?_⟩
          intro p hp
          rw [List.mem_singleton.1 hp]
          exact ⟨fpos, fneg⟩
        have hall := List.rel_append (List.rel_append hds (.cons hd .nil)) hes
        exact conjoin_permRel hρ (optRel_split hall).1 (optRel_split hall).2
      · have hall := List.rel_append hds hes
        exact conjoin_permRel hρ (optRel_split hall).1 (optRel_split hall).2
theorem FList.dnf_permRel {c : NfCtx} {objects : List Obj} (hm : MapOk c.omap objects) : ∀ (fs : FList)
    (params args : List Obj), fs.EnoughArgs objects → SameOutcome (OptRel (List.Forall₂ (DnfFit ρ c.omap)))
      (@FList.dnf h₁ c fs params args)
      (@FList.dnf h₂ (c.rename ρ) (fs.rename ρ) (params.map (Obj.rename ρ)) (args.map (Obj.rename ρ)))
  | .nil, params, args, _ => .nil
  | .cons vars e rest, params, args, hf => by
    simp only [FList.rename, FList.dnf]
    have hg := genLoop_rename ρ (paramTypes_ne (m := c.omap) hm.1 vars)
    rw [← paramTypes_rename hρ] at hg
    refine hg.bind ?_
    rintro l _ rfl
    have hl := dnfLoop_rename (h₁ := h₁) (h₂ := h₂) (R := DnfFit ρ c.omap) (k := List.map (Obj.rename ρ)) true
      (f := fun os => @Eff.dnf h₁ c e (params ++ vars) (args ++ os))
      (g := fun os => @Eff.dnf h₂ (c.rename ρ) (e.rename ρ) (params.map (Obj.rename ρ) ++ vars.map (Obj.rename ρ))
        (args.map (Obj.rename ρ) ++ os))
      (fun os => by
        have := Eff.dnf_permRel hm e (params ++ vars) (args ++ os) hf.1
        simpa only [List.map_append] using this) l
    refine hl.bind ?_
    intro ds ds' hds
    match ds, ds', hds with
    | none, none, _ => trivial
    | some ds, some ds', hds =>
      simp only
      refine (FList.dnf_permRel hm rest params args hf.2).bind ?_
      intro r r' hr
      match r, r', hr with
      | none, none, _ => trivial
      | some r, some r', hr => exact List.rel_append hds hr
theorem CList.dnf_permRel {c : NfCtx} {objects : List Obj} (hm : MapOk c.omap objects) : ∀ (cs : CList)
    (params args : List Obj), cs.EnoughArgs objects → SameOutcome (List.Forall₂ (DnfFit ρ c.omap))
      (@CList.dnf h₁ c cs params args)
      (@CList.dnf h₂ (c.rename ρ) (cs.rename ρ) (params.map (Obj.rename ρ)) (args.map (Obj.rename ρ)))
  | .nil, params, args, _ => .nil
  | .cons g e rest, params, args, hf => by
    obtain ⟨hg, he, hrest⟩ := hf
    simp only [CList.rename, CList.dnf]
    have ih := CList.dnf_permRel hm rest params args hrest
    refine (Goal.dnf_permRel hρ hm g params args hg).bind ?_
    intro d d' h
    match d, d', h with
    | none, none, _ => exact ih
    | some d, some d', h =>
      simp only
      refine (Eff.dnf_permRel hm e params args he).bind ?_
      intro r r' hr
      have hnil : d = [] ↔ d' = [] := h.1.eq_nil
      by_cases h0 : d = []
      · rw [if_pos h0, if_pos (hnil.1 h0)]
        match r, r', hr with
        | none, none, _ => rfl
        | some r, some r', hr =>
          refine ih.bind ?_
          intro ds ds' hds
          exact .cons hr hds
      · rw [if_neg h0, if_neg fun e => h0 (hnil.2 e)]
        refine (negateDnf_permRel hρ h).bind ?_
        intro n n' hn
        match n, n', hn with
        | none, none, _ => exact ih
        | some n, some n', hn =>
          match r, r', hr with
          | none, none, _ =>
            refine ih.bind ?_
            intro ds ds' hds
            exact .cons hn hds
          | some r, some r', hr =>
            have hall : List.Forall₂ (DnfFit ρ c.omap) [n, r] [n', r'] := .cons hn (.cons hr .nil)
            refine (disjoin_permRel hρ (optRel_split hall).1 (optRel_split hall).2).bind ?_
            intro k k' hk
            match k, k', hk with
            | none, none, _ => rfl
            | some k, some k', hk =>
              refine ih.bind ?_
              intro ds ds' hds
              exact .cons hk hds
end

/-! ## Axioms -/

/-- What the printed axiom is computed from: the effects are unconditional or all atoms have enough arguments. -/
theorem stringify_rename {c : NfCtx} {objects : List Obj} (hm : MapOk c.omap objects) (op : Op)
    (hpre : (∃ x, contextOf op.pre = .ok x) ∨ op.pre.EnoughArgs objects) (heff : op.eff.NoCond ∨ op.eff.EnoughArgs objects) :
    @stringify h₂ (c.rename ρ) (op.rename ρ) = @stringify h₁ c op := by
  unfold stringify
  have hne : c.omap.NonEmpty := hm.1
  have k1 : @printed h₂ (@Goal.dnf h₂ (({ c with vars := op.params } : NfCtx).rename ρ) (op.pre.rename ρ)
      (op.params.map (Obj.rename ρ)) (op.params.map (Obj.rename ρ))) =
      @printed h₁ (@Goal.dnf h₁ { c with vars := op.params } op.pre op.params op.params) := by
    rcases hpre with ⟨x, hx⟩ | hf
    · exact printed_rename (literal_dnf_rename (h₁ := h₁) (h₂ := h₂) hρ { c with vars := op.params } hx op.params op.params)
    · exact printed_rename (Goal.dnf_permRel (h₁ := h₁) (h₂ := h₂) hρ (c := { c with vars := op.params }) hm op.pre op.params op.params hf)
  have k2 : @printed h₂ (@Eff.dnf h₂ (({ c with vars := op.params } : NfCtx).rename ρ) (op.eff.rename ρ)
      (op.params.map (Obj.rename ρ)) (op.params.map (Obj.rename ρ))) =
      @printed h₁ (@Eff.dnf h₁ { c with vars := op.params } op.eff op.params op.params) := by
    rcases heff with hnc | hf
    · exact printed_rename (Eff.dnf_rename (h₁ := h₁) (h₂ := h₂) hρ (c := { c with vars := op.params }) hne op.eff op.params op.params hnc)
    · exact printed_rename (Eff.dnf_permRel (h₁ := h₁) (h₂ := h₂) hρ (c := { c with vars := op.params }) hm op.eff op.params op.params hf)
  exact congrArg₂ (fun a b : Res Unit => a >>= fun _ => b) k1 k2

theorem Ax.make_rename {c : NfCtx} {objects : List Obj} (hm : MapOk c.omap objects) (axs : List Ax) (op : Op)
    (hpre : (∃ x, contextOf op.pre = .ok x) ∨ op.pre.EnoughArgs objects) (heff : op.eff.NoCond ∨ op.eff.EnoughArgs objects) :
    SameOutcome (fun a b => b = a.rename ρ) (@Ax.make h₁ c axs op)
      (@Ax.make h₂ (c.rename ρ) (axs.map (Ax.rename ρ)) (op.rename ρ)) := by
  have hne : c.omap.NonEmpty := hm.1
  unfold Ax.make
  have h1 : (op.rename ρ).create (c.rename ρ).omap (axs.map (Ax.rename ρ)) = op.create c.omap axs :=
    Op.create_rename hρ c.omap axs op
  rw [h1]
  refine SameOutcome.bind (R := Eq) (SameOutcome.refl (fun _ => rfl) _) ?_
  rintro _ _ -
  have hg := genLoop_rename ρ (paramTypes_ne hne op.params)
  rw [← paramTypes_rename hρ] at hg
  refine hg.bind ?_
  rintro l _ rfl
  have hp : SameOutcome (fun k k' => k' = k.map (List.map (Obj.rename ρ))) (@prepareLoop h₁ c op.pre op.params l)
      (@prepareLoop h₂ (c.rename ρ) (op.pre.rename ρ) (op.params.map (Obj.rename ρ)) (l.map (List.map (Obj.rename ρ)))) := by
    rcases hpre with ⟨x, hx⟩ | hf
    · exact prepareLoop_rename c op.params (literal_dnf_rename hρ c hx op.params) l
    · exact prepareLoop_rename c op.params (fun as => Goal.dnf_permRel hρ hm op.pre op.params as hf) l
  refine hp.bind ?_
  rintro args _ rfl
  refine (contextOf_rename op.pre).bind ?_
  rintro ctx _ rfl
  rw [stringify_rename hρ (h₁ := h₁) (h₂ := h₂) hm op hpre heff]
  refine SameOutcome.bind (R := Eq) (SameOutcome.refl (fun _ => rfl) _) ?_
  rintro _ _ -
  rfl

end

end Symbolic
