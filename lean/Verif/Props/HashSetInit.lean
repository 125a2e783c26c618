import Verif.Lemmas.State

/-!
# C01, C02: hash sets constructed from a list, for every type of elements
-/

namespace Symbolic
variable {α : Type} [DecidableEq α] [Elem α] [LawfulElem α]

/-- What calls do to a mathematical set. -/
def afterCalls (S : α → Prop) : List (HashSet.Op α) → α → Prop
  | [] => S
  | .insert a :: h => afterCalls (fun x => x = a ∨ S x) h
  | .erase a :: h => afterCalls (fun x => x ≠ a ∧ S x) h

theorem HashSet.ofList_inv (l : List α) : Inv (ofList l) ∧ ∀ x, x ∈ (ofList l).elems ↔ x ∈ l := by
  suffices ∀ (l : List α) (s : HashSet α), Inv s → Inv (l.foldl (fun s a => (s.insert a).2) s) ∧
      ∀ x, x ∈ (l.foldl (fun s a => (s.insert a).2) s).elems ↔ x ∈ l ∨ x ∈ s.elems by
    obtain ⟨h1, h2⟩ := this l HashSet.empty Inv.empty
    exact ⟨h1, fun x => (h2 x).trans (by simp [HashSet.empty, HashSet.elems])⟩
  intro l
  induction l with
  | nil => intro s h; exact ⟨h, by simp⟩
  | cons a l ih =>
    intro s h
    obtain ⟨h1, h2⟩ := ih _ (h.insert a)
    refine ⟨h1, fun x => (h2 x).trans ?_⟩
    rw [h.mem_insert a x, List.mem_cons]
    tauto

theorem HashSet.foldl_inv (h : List (Op α)) : ∀ (s : HashSet α) (S : α → Prop), Inv s → (∀ x, x ∈ s.elems ↔ S x) →
    Inv (h.foldl step s) ∧ ∀ x, x ∈ (h.foldl step s).elems ↔ afterCalls S h x := by
  induction h with
  | nil => intro s S hi hs; exact ⟨hi, hs⟩
  | cons o h ih =>
    intro s S hi hs
    cases o with
    | insert a => exact ih _ _ (hi.insert a) (fun x => (hi.mem_insert a x).trans (or_congr Iff.rfl (hs x)))
    | erase a => exact ih _ _ (hi.erase a) (fun x => (hi.mem_erase a x).trans (and_congr Iff.rfl (hs x)))

/-- **C01.** A hash set of any elements, constructed from a list and changed by any calls, contains exactly the elements of the
mathematical set; the elements it holds are those without repetition, and `size` is their number. -/
theorem C01_constructed (l : List α) (h : List (HashSet.Op α)) :
    (∀ x, (h.foldl HashSet.step (HashSet.ofList l)).contains x = true ↔ afterCalls (· ∈ l) h x) ∧
    ∃ es : List α, es.Nodup ∧ (∀ x, x ∈ es ↔ afterCalls (· ∈ l) h x) ∧ (h.foldl HashSet.step (HashSet.ofList l)).size = es.length := by
  obtain ⟨h1, h2⟩ := HashSet.ofList_inv l
  obtain ⟨h3, h4⟩ := HashSet.foldl_inv h _ _ h1 h2
  exact ⟨fun x => (h3.contains_iff x).trans (h4 x), _, h3.elems_nodup, h4, h3.size_eq⟩

/-- **C02.** Two such sets with the same elements are the same object: the same buckets with the same elements at the same places. -/
theorem C02_constructed (l l' : List α) (h h' : List (HashSet.Op α))
    (hm : ∀ x, afterCalls (· ∈ l) h x ↔ afterCalls (· ∈ l') h' x) :
    h.foldl HashSet.step (HashSet.ofList l) = h'.foldl HashSet.step (HashSet.ofList l') := by
  obtain ⟨h1, h2⟩ := HashSet.ofList_inv l
  obtain ⟨h3, h4⟩ := HashSet.foldl_inv h _ _ h1 h2
  obtain ⟨h5, h6⟩ := HashSet.ofList_inv l'
  obtain ⟨h7, h8⟩ := HashSet.foldl_inv h' _ _ h5 h6
  exact h3.ext h7 fun x => (h4 x).trans ((hm x).trans (h8 x).symm)

/-- Three atoms, one of them twice in the list and one removed again, in another order. -/
example [StrHash] : let a : Atom := ⟨n!"p", []⟩; let b : Atom := ⟨n!"q", [n!"x"]⟩; let c : Atom := ⟨n!"r", []⟩
    [HashSet.Op.erase c].foldl HashSet.step (HashSet.ofList [a, b, c, a]) = [HashSet.Op.insert a].foldl HashSet.step (HashSet.ofList [b]) := by
  intro a b c
  apply C02_constructed
  intro x
  simp only [afterCalls, List.mem_cons, List.not_mem_nil, or_false]
  constructor
  · tauto
  · rintro (rfl | rfl)
    · exact ⟨by decide, .inl rfl⟩
    · exact ⟨by decide, .inr (.inl rfl)⟩

end Symbolic
