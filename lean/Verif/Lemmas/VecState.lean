import Verif.Model.VecState
import Verif.Lemmas.HashSet

/-! Sorted vectors without repetition. -/

namespace Symbolic
namespace UV
variable {α : Type} [DecidableEq α] [Elem α] [LawfulElem α]

theorem uniqueFrom_spec (last : α) : ∀ (l : List α), (last :: l).Pairwise (fun a b => Elem.lt b a = false) →
    Sorted' (last :: uniqueFrom last l) ∧ ∀ x, x ∈ last :: uniqueFrom last l ↔ x ∈ last :: l := by
  intro l
  induction l generalizing last with
  | nil => intro _; exact ⟨by simp [uniqueFrom], fun x => by simp [uniqueFrom]⟩
  | cons b l ih =>
    intro h
    rw [List.pairwise_cons] at h
    obtain ⟨h1, h2⟩ := h
    rw [uniqueFrom]
    split
    · rename_i e
      subst e
      obtain ⟨i1, i2⟩ := ih b h2
      refine ⟨i1, fun x => ?_⟩
      rw [i2 x]
      simp
    · rename_i hne
      obtain ⟨i1, i2⟩ := ih b h2
      have hlt : Elem.lt last b = true := by
        rcases LawfulElem.strict.total last b with h | h | h
        · exact h
        · exact absurd h.symm hne
        · rw [h1 b (by simp)] at h; cases h
      refine ⟨List.pairwise_cons.2 ⟨fun x hx => ?_, i1⟩, fun x => ?_⟩
      · rcases List.mem_cons.1 hx with rfl | hx'
        · exact hlt
        · exact LawfulElem.strict.trans _ _ _ hlt ((List.pairwise_cons.1 i1).1 x hx')
      · have := i2 x
        simp only [List.mem_cons] at this ⊢
        rw [this]

theorem ofList_spec (l : List α) : Sorted' (ofList l) ∧ ∀ x, x ∈ ofList l ↔ x ∈ l := by
  haveI : Std.Total (fun a b : α => Elem.lt b a = false) := ⟨fun a b => by
    rcases h : Elem.lt b a with _ | _
    · exact .inl rfl
    · refine .inr ?_
      rcases h' : Elem.lt a b with _ | _
      · rfl
      · have := LawfulElem.strict.trans _ _ _ h h'
        rw [LawfulElem.strict.irrefl] at this; cases this⟩
  haveI : IsTrans α (fun a b : α => Elem.lt b a = false) := ⟨fun a b c h1 h2 => by
    rcases h : Elem.lt c a with _ | _
    · rfl
    · rcases LawfulElem.strict.total b c with h' | h' | h'
      · rw [LawfulElem.strict.trans _ _ _ h' h] at h1; cases h1
      · subst h'; rw [h1] at h; cases h
      · rw [h'] at h2; cases h2⟩
  have hs := List.pairwise_insertionSort (fun a b : α => Elem.lt b a = false) l
  have hm : ∀ x, x ∈ l.insertionSort (fun a b : α => Elem.lt b a = false) ↔ x ∈ l := fun x => List.mem_insertionSort _
  unfold ofList
  generalize l.insertionSort (fun a b : α => Elem.lt b a = false) = k at hs hm
  cases k with
  | nil => exact ⟨by simp [unique], fun x => by rw [← hm x, unique]⟩
  | cons a k =>
    obtain ⟨h1, h2⟩ := uniqueFrom_spec a k hs
    exact ⟨h1, fun x => by rw [← hm x, unique]; exact h2 x⟩

end UV

namespace VecState
variable [StrHash]

theorem insertRange_spec (l : List Atom) : ∀ (s : VecState) (b : Bool), Sorted' s →
    let r := l.foldl (fun acc a => let r := insert acc.2 a; (acc.1 || r.1, r.2)) (b, s)
    Sorted' r.2 ∧ (∀ x, x ∈ r.2 ↔ x ∈ l ∨ x ∈ s) ∧ (r.1 = true ↔ b = true ∨ ∃ a ∈ l, a ∉ s) := by
  induction l with
  | nil => intro s b h; exact ⟨h, by simp, by simp⟩
  | cons a l ih =>
    intro s b h
    obtain ⟨i1, i2, i3⟩ := ih (insert s a).2 (b || (insert s a).1) (UV.insert_sorted h a)
    refine ⟨i1, fun x => ?_, ?_⟩
    · refine (i2 x).trans ?_
      rw [insert, UV.mem_insert h, List.mem_cons]
      tauto
    · refine i3.trans ?_
      have hmem : ∀ y, y ∉ (insert s a).2 ↔ y ≠ a ∧ y ∉ s := fun y => by rw [insert, UV.mem_insert h]; tauto
      simp only [Bool.or_eq_true, hmem]
      rw [insert, UV.insert_flag h]
      constructor
      · rintro ((h1 | h1) | ⟨y, h1, h2, h3⟩)
        · exact .inl h1
        · exact .inr ⟨a, by simp, h1⟩
        · exact .inr ⟨y, by simp [h1], h3⟩
      · rintro (h1 | ⟨y, h1, h2⟩)
        · exact .inl (.inl h1)
        · by_cases e : y = a
          · subst e; exact .inl (.inr h2)
          · rcases List.mem_cons.1 h1 with rfl | h1
            · exact absurd rfl e
            · exact .inr ⟨y, h1, e, h2⟩

end VecState
end Symbolic
