import Verif.Model.Order
import Verif.Spec.Order

namespace Symbolic

namespace StrictTotal
variable {lt : α → α → Bool} (h : StrictTotal lt)
include h

theorem asymm {a b : α} (hab : lt a b = true) : lt b a = false := by
  cases hba : lt b a with
  | false => rfl
  | true => have := h.trans _ _ _ hab hba; simp [h.irrefl] at this

theorem ne {a b : α} (hab : lt a b = true) : a ≠ b := by
  rintro rfl; simp [h.irrefl] at hab

theorem eq_of_not {a b : α} (h1 : lt a b = false) (h2 : lt b a = false) : a = b := by
  rcases h.total a b with h' | h' | h' <;> simp_all

/-- Every element that is not less is equal or greater. -/
theorem of_not {a b : α} (h1 : lt a b = false) : a = b ∨ lt b a = true := by
  rcases h.total a b with h' | h' | h' <;> simp_all

end StrictTotal

theorem lexLt_strictTotal {lt : α → α → Bool} (h : StrictTotal lt) : StrictTotal (lexLt lt) where
  irrefl := by
    intro a
    induction a with
    | nil => rfl
    | cons x xs ih => simp [lexLt, h.irrefl, ih]
  trans := by
    intro a
    induction a with
    | nil => intro b c; cases b <;> cases c <;> simp [lexLt]
    | cons x xs ih =>
      intro b c
      cases b with
      | nil => simp [lexLt]
      | cons y ys =>
        cases c with
        | nil => simp [lexLt]
        | cons z zs =>
          simp only [lexLt, Bool.or_eq_true, Bool.and_eq_true, Bool.not_eq_true']
          rintro (h1 | ⟨h1, h1'⟩) (h2 | ⟨h2, h2'⟩)
          · exact Or.inl (h.trans _ _ _ h1 h2)
          · rcases h.of_not h2 with rfl | h3
            · exact Or.inl h1
            · exact Or.inl (h.trans _ _ _ h1 h3)
          · rcases h.of_not h1 with rfl | h3
            · exact Or.inl h2
            · exact Or.inl (h.trans _ _ _ h3 h2)
          · rcases h.of_not h1 with rfl | h3
            · rcases h.of_not h2 with rfl | h4
              · exact Or.inr ⟨h.irrefl _, ih _ _ h1' h2'⟩
              · exact Or.inl h4
            · rcases h.of_not h2 with rfl | h4
              · exact Or.inl h3
              · exact Or.inl (h.trans _ _ _ h3 h4)
  total := by
    intro a
    induction a with
    | nil => intro b; cases b <;> simp [lexLt]
    | cons x xs ih =>
      intro b
      cases b with
      | nil => simp [lexLt]
      | cons y ys =>
        rcases h.total x y with h1 | rfl | h1
        · simp [lexLt, h1]
        · rcases ih ys with h2 | rfl | h2 <;> simp_all [lexLt, h.irrefl]
        · simp [lexLt, h1]

theorem pairLt_strictTotal {lt₁ : α → α → Bool} {lt₂ : β → β → Bool}
    (h₁ : StrictTotal lt₁) (h₂ : StrictTotal lt₂) : StrictTotal (pairLt lt₁ lt₂) where
  irrefl := by intro a; simp [pairLt, h₁.irrefl, h₂.irrefl]
  trans := by
    rintro ⟨a, a'⟩ ⟨b, b'⟩ ⟨c, c'⟩
    simp only [pairLt, Bool.or_eq_true, Bool.and_eq_true, Bool.not_eq_true']
    rintro (h1 | ⟨h1, h1'⟩) (h2 | ⟨h2, h2'⟩)
    · exact Or.inl (h₁.trans _ _ _ h1 h2)
    · rcases h₁.of_not h2 with rfl | h3
      · exact Or.inl h1
      · exact Or.inl (h₁.trans _ _ _ h1 h3)
    · rcases h₁.of_not h1 with rfl | h3
      · exact Or.inl h2
      · exact Or.inl (h₁.trans _ _ _ h3 h2)
    · rcases h₁.of_not h1 with rfl | h3
      · rcases h₁.of_not h2 with rfl | h4
        · exact Or.inr ⟨h₁.irrefl _, h₂.trans _ _ _ h1' h2'⟩
        · exact Or.inl h4
      · rcases h₁.of_not h2 with rfl | h4
        · exact Or.inl h3
        · exact Or.inl (h₁.trans _ _ _ h3 h4)
  total := by
    rintro ⟨a, a'⟩ ⟨b, b'⟩
    rcases h₁.total a b with h1 | rfl | h1
    · simp [pairLt, h1]
    · rcases h₂.total a' b' with h2 | rfl | h2 <;> simp_all [pairLt, h₁.irrefl]
    · simp [pairLt, h1]

theorem charLt_strictTotal : StrictTotal charLt where
  irrefl := by intro a; simp [charLt]
  trans := by intro a b c; simp only [charLt, decide_eq_true_eq]; omega
  total := by
    intro a b
    simp only [charLt, decide_eq_true_eq]
    rcases Nat.lt_trichotomy a.toNat b.toNat with h | h | h
    · exact Or.inl h
    · exact Or.inr (Or.inl (Char.toNat_inj.mp h))
    · exact Or.inr (Or.inr h)

theorem nameLt_strictTotal : StrictTotal nameLt := lexLt_strictTotal charLt_strictTotal

end Symbolic
