import Verif.Model.State
import Verif.Lemmas.HashSetIter

/-!
Lemmas on `State` and `PartialState`: they behave as finite sets.
-/

namespace Symbolic
namespace State
variable [StrHash]

theorem mem_def {a : Atom} {s : State} : a ∈ s ↔ s.contains a = true := Iff.rfl

theorem contains_eq {s : State} {a : Atom} : s.contains a = decide (a ∈ s) := by
  cases h : s.contains a <;> simp [mem_def, h]

theorem mem_elems {s : State} {a : Atom} : a ∈ s.elems ↔ a ∈ s := (s.inv.contains_iff a).symm

theorem elems_nodup (s : State) : s.elems.Nodup := s.inv.elems_nodup

theorem size_eq (s : State) : s.size = s.elems.length := s.inv.size_eq

@[simp] theorem not_mem_empty (a : Atom) : a ∉ State.empty := by
  rw [← mem_elems]; simp [elems, empty, HashSet.elems, HashSet.empty]

@[ext] theorem ext {s t : State} (h : ∀ a, a ∈ s ↔ a ∈ t) : s = t := by
  have hv : s.val = t.val := by
    apply HashSet.Inv.ext s.inv t.inv
    intro a
    have := h a
    rw [← mem_elems, ← mem_elems] at this
    exact this
  cases s; cases t; simp only at hv; subst hv; rfl

@[simp] theorem mem_insert {s : State} {a x : Atom} : x ∈ (s.insert a).2 ↔ x = a ∨ x ∈ s := by
  rw [← mem_elems, ← mem_elems (s := s)]
  exact s.inv.mem_insert a x

@[simp] theorem mem_erase {s : State} {a x : Atom} : x ∈ (s.erase a).2 ↔ x ≠ a ∧ x ∈ s := by
  rw [← mem_elems, ← mem_elems (s := s)]
  exact s.inv.mem_erase a x

theorem insert_flag {s : State} {a : Atom} : (s.insert a).1 = decide (a ∉ s) := by
  have h : (s.insert a).1 = true ↔ a ∉ s.elems := s.inv.insert_flag a
  rw [mem_elems] at h
  cases hf : (s.insert a).1 <;> simp_all

theorem erase_flag {s : State} {a : Atom} : (s.erase a).1 = decide (a ∈ s) := by
  have h : (s.erase a).1 = true ↔ a ∈ s.elems := s.inv.erase_flag a
  rw [mem_elems] at h
  cases hf : (s.erase a).1 <;> simp_all

theorem insert_of_mem {s : State} {a : Atom} (h : a ∈ s) : (s.insert a).2 = s := by
  ext x; simp only [mem_insert]; constructor
  · rintro (rfl | h') <;> assumption
  · exact Or.inr

theorem erase_of_not_mem {s : State} {a : Atom} (h : a ∉ s) : (s.erase a).2 = s := by
  ext x; simp only [mem_erase]; constructor
  · exact And.right
  · intro hx; exact ⟨fun e => h (e ▸ hx), hx⟩

theorem insertRange_aux (l : List Atom) : ∀ (b : Bool) (s : State) (x : Atom),
    (x ∈ (l.foldl (fun acc a => let r := acc.2.insert a; (acc.1 || r.1, r.2)) (b, s)).2 ↔ x ∈ l ∨ x ∈ s) := by
  induction l with
  | nil => intro b s x; simp
  | cons a l ih =>
    intro b s x
    simp only [List.foldl_cons, List.mem_cons]
    rw [ih]
    simp only [mem_insert]
    tauto

@[simp] theorem mem_insertRange {s : State} {l : List Atom} {x : Atom} :
    x ∈ (s.insertRange l).2 ↔ x ∈ l ∨ x ∈ s := insertRange_aux l false s x

theorem insertRange_flag_aux (l : List Atom) : ∀ (b : Bool) (s : State),
    ((l.foldl (fun acc a => let r := acc.2.insert a; (acc.1 || r.1, r.2)) (b, s)).1 = true ↔
      b = true ∨ ∃ a ∈ l, a ∉ s) := by
  induction l with
  | nil => intro b s; simp
  | cons a l ih =>
    intro b s
    simp only [List.foldl_cons, List.mem_cons]
    rw [ih]
    simp only [insert_flag, Bool.or_eq_true, decide_eq_true_eq, mem_insert, not_or]
    constructor
    · rintro ((h | h) | ⟨x, hx, _, hxs⟩)
      · exact Or.inl h
      · exact Or.inr ⟨a, Or.inl rfl, h⟩
      · exact Or.inr ⟨x, Or.inr hx, hxs⟩
    · rintro (h | ⟨x, rfl | hx, hxs⟩)
      · exact Or.inl (Or.inl h)
      · exact Or.inl (Or.inr hxs)
      · by_cases hxa : x = a
        · subst hxa; exact Or.inl (Or.inr hxs)
        · exact Or.inr ⟨x, hx, hxa, hxs⟩

theorem insertRange_flag {s : State} {l : List Atom} :
    (s.insertRange l).1 = true ↔ ∃ a ∈ l, a ∉ s := by
  simpa [insertRange] using insertRange_flag_aux l false s

@[simp] theorem mem_ofList {l : List Atom} {x : Atom} : x ∈ ofList l ↔ x ∈ l := by
  simp [ofList]

theorem beq_iff {s t : State} : s.beq t = true ↔ s = t := by
  constructor
  · intro h
    have hb : s.val.buckets = t.val.buckets := by simpa [beq, HashSet.beq] using h
    apply ext
    intro a
    rw [← mem_elems, ← mem_elems, elems, elems, HashSet.elems, HashSet.elems, hb]
  · rintro rfl; simp [beq, HashSet.beq]

theorem lt_strictTotal : StrictTotal State.lt where
  irrefl := fun s => (lexLt_strictTotal (lexLt_strictTotal LawfulElem.strict)).irrefl _
  trans := fun s t u => (lexLt_strictTotal (lexLt_strictTotal LawfulElem.strict)).trans _ _ _
  total := fun s t => by
    rcases (lexLt_strictTotal (lexLt_strictTotal LawfulElem.strict)).total s.val.buckets t.val.buckets
      with h | h | h
    · exact Or.inl h
    · exact Or.inr (Or.inl (beq_iff.1 (by simp [beq, HashSet.beq, h])))
    · exact Or.inr (Or.inr h)

end State

namespace PartialState
variable [StrHash]

@[ext] theorem ext' {s t : PartialState} (hp : ∀ a, a ∈ s.pos ↔ a ∈ t.pos)
    (hn : ∀ a, a ∈ s.neg ↔ a ∈ t.neg) : s = t := by
  cases s; cases t
  congr
  · exact State.ext hp
  · exact State.ext hn

theorem beq_iff {s t : PartialState} : s.beq t = true ↔ s = t := by
  simp only [beq, Bool.and_eq_true, State.beq_iff]
  cases s; cases t; simp

theorem lt_strictTotal : StrictTotal PartialState.lt where
  irrefl := fun s => (pairLt_strictTotal State.lt_strictTotal State.lt_strictTotal).irrefl _
  trans := fun s t u => (pairLt_strictTotal State.lt_strictTotal State.lt_strictTotal).trans _ _ _
  total := fun s t => by
    rcases s with ⟨p, n⟩
    rcases t with ⟨p', n'⟩
    rcases (pairLt_strictTotal State.lt_strictTotal State.lt_strictTotal).total (p, n) (p', n')
      with h | h | h
    · exact Or.inl h
    · cases h; exact Or.inr (Or.inl rfl)
    · exact Or.inr (Or.inr h)

theorem isConsistent_iff {s : PartialState} :
    s.isConsistent = true ↔ ∀ a, a ∈ s.pos → a ∉ s.neg := by
  simp only [isConsistent, List.all_eq_true, State.mem_elems, Bool.not_eq_true', State.contains_eq,
    decide_eq_false_iff_not]

end PartialState
end Symbolic
