import Verif.Lemmas.HashSet

/-!
Lemmas on the HashSet iterator: positions are identified with the elements still to visit (`after`) and
the elements already visited (`before`).
-/

set_option linter.unusedSectionVars false

namespace Symbolic
namespace HashSet
variable {α : Type} [DecidableEq α] [Elem α]

/-- A position that `begin()`, `end()`, `++` and `--` can produce inside the range. -/
def Canon (bs : List (List α)) (i j : Nat) : Prop :=
  (i = bs.length ∧ j = 0) ∨ ∃ b, bs[i]? = some b ∧ j < b.length

/-- Elements from the position on. -/
def after (bs : List (List α)) (i j : Nat) : List α :=
  match bs.drop i with
  | [] => []
  | b :: rest => b.drop j ++ rest.flatten

/-- Elements before the position. -/
def before (bs : List (List α)) (i j : Nat) : List α :=
  (bs.take i).flatten ++ (match bs[i]? with | some b => b.take j | none => [])

theorem before_append_after (bs : List (List α)) (i j : Nat) :
    before bs i j ++ after bs i j = bs.flatten := by
  have hs : bs.flatten = (bs.take i).flatten ++ (bs.drop i).flatten := by
    rw [← List.flatten_append, List.take_append_drop]
  rw [hs]
  unfold before after
  rw [← List.head?_drop]
  cases bs.drop i with
  | nil => simp
  | cons b rest =>
    simp only [List.head?_cons, List.append_assoc, List.flatten_cons]
    rw [← List.append_assoc (List.take j b), List.take_append_drop]

theorem findNextLoop_spec (suffix : List (List α)) : ∀ (i j : Nat),
    (suffix = [] → j = 0) →
    ∃ k j' : Nat, findNextLoop suffix ⟨(i : Int), (j : Int)⟩ = ⟨((i + k : Nat) : Int), (j' : Int)⟩ ∧
      Canon suffix k j' ∧ after suffix k j' = after suffix 0 j := by
  induction suffix with
  | nil =>
    intro i j hj
    exact ⟨0, 0, by simp [findNextLoop, hj rfl], by simp [Canon], by simp [after]⟩
  | cons b rest ih =>
    intro i j _
    unfold findNextLoop
    by_cases hg : j < b.length
    · refine ⟨0, j, ?_, Or.inr ⟨b, by simp, hg⟩, rfl⟩
      have : geSize (j : Int) b.length = false := by simp [geSize, hg]
      simp [this]
    · have : geSize (j : Int) b.length = true := by simp [geSize]; right; omega
      simp only [this, if_true]
      obtain ⟨k, j', h1, h2, h3⟩ := ih (i + 1) 0 (fun _ => rfl)
      refine ⟨k + 1, j', ?_, ?_, ?_⟩
      · have : ((i : Int) + 1) = ((i + 1 : Nat) : Int) := by simp
        rw [this]
        have h0 : (0 : Int) = ((0 : Nat) : Int) := rfl
        rw [h0, h1]
        congr 2; omega
      · rcases h2 with ⟨h2, h2'⟩ | ⟨b', h2, h2'⟩
        · left; simp [h2, h2']
        · right; exact ⟨b', by simpa using h2, h2'⟩
      · have : after (b :: rest) (k + 1) j' = after rest k j' := by simp [after]
        rw [this, h3]
        have hb : b.drop j = [] := by simp; omega
        cases rest <;> simp [after, hb]

theorem findNext_spec (bs : List (List α)) (i j : Nat) (hi : i < bs.length ∨ (i = bs.length ∧ j = 0)) :
    ∃ i' j' : Nat, findNext bs ⟨(i : Int), (j : Int)⟩ = ⟨(i' : Int), (j' : Int)⟩ ∧
      Canon bs i' j' ∧ after bs i' j' = after bs i j := by
  unfold findNext
  rcases hi with hi | ⟨hi, hj⟩
  · have hg : geSize (i : Int) bs.length = false := by simp [geSize, hi]
    simp only [hg, Bool.false_eq_true, if_false, Int.toNat_natCast]
    have hne : bs.drop i ≠ [] := by simp; omega
    obtain ⟨k, j', h1, h2, h3⟩ := findNextLoop_spec (bs.drop i) i j (fun h => absurd h hne)
    refine ⟨i + k, j', h1, ?_, ?_⟩
    · rcases h2 with ⟨h2, h2'⟩ | ⟨b', h2, h2'⟩
      · left; simp at h2; exact ⟨by omega, h2'⟩
      · right; exact ⟨b', by simpa using h2, h2'⟩
    · simpa [after, List.drop_drop] using h3
  · have hg : geSize (i : Int) bs.length = true := by simp [geSize, hi]
    subst hi; subst hj
    simp only [hg, if_true]
    exact ⟨bs.length, 0, by simp, Or.inl ⟨rfl, rfl⟩, rfl⟩

theorem canon_after_cons {bs : List (List α)} {i j : Nat} {b : List α} (hb : bs[i]? = some b)
    (hj : j < b.length) : after bs i j = b[j] :: after bs i (j + 1) := by
  have : bs.drop i = b :: bs.drop (i + 1) := by
    rw [List.drop_eq_getElem?_toList_append, hb]; simp
  unfold after
  rw [this]
  simp only
  rw [List.drop_eq_getElem_cons hj, List.cons_append]

theorem after_nil_of_end (bs : List (List α)) : after bs bs.length 0 = [] := by simp [after]

theorem traverse_spec (s : HashSet α) : ∀ (n i j : Nat), Canon s.buckets i j →
    (after s.buckets i j).length < n →
    s.traverse n ⟨(i : Int), (j : Int)⟩ = .ok (after s.buckets i j) := by
  intro n
  induction n with
  | zero => intro i j _ h; omega
  | succ n ih =>
    intro i j hc hn
    unfold traverse
    rcases hc with ⟨hi, hj⟩ | ⟨b, hb, hj⟩
    · subst hi; subst hj
      simp [itEnd, after]
    · have hil : i < s.buckets.length := by
        rcases Nat.lt_or_ge i s.buckets.length with h | h
        · exact h
        · rw [List.getElem?_eq_none h] at hb; cases hb
      have hne : (⟨(i : Int), (j : Int)⟩ : Pos) ≠ s.itEnd := by
        intro h; simp only [itEnd, Pos.mk.injEq] at h; omega
      rw [if_neg hne]
      have hca := canon_after_cons hb hj
      obtain ⟨i', j', h1, h2, h3⟩ := findNext_spec s.buckets i (j + 1) (Or.inl hil)
      have hd : s.deref ⟨(i : Int), (j : Int)⟩ = .ok b[j] := by
        have h0 : ¬ ((i : Int) < 0 ∨ (j : Int) < 0) := by omega
        simp [deref, h0, Res.index, hb, hj]
      have hnx : s.itNext ⟨(i : Int), (j : Int)⟩ = ⟨(i' : Int), (j' : Int)⟩ := by
        unfold itNext
        rw [← h1]; simp
      rw [hd, hnx]
      simp only [Res.bind_ok]
      rw [ih i' j' h2 (by rw [h3]; rw [hca] at hn; simp at hn; omega)]
      simp [h3, hca]

theorem traverse_begin (s : HashSet α) (hpos : 0 < s.buckets.length) {n : Nat}
    (hn : s.elems.length < n) : s.traverse n s.itBegin = .ok s.elems := by
  obtain ⟨i', j', h1, h2, h3⟩ := findNext_spec s.buckets 0 0 (Or.inl hpos)
  have h0 : after s.buckets 0 0 = s.elems := by
    unfold after elems
    cases s.buckets <;> simp
  have : s.itBegin = ⟨(i' : Int), (j' : Int)⟩ := by
    unfold itBegin; rw [← h1]; rfl
  rw [this, traverse_spec s n i' j' h2 (by rw [h3, h0]; exact hn), h3, h0]

/-! ### Backwards -/

theorem findPrevLoop_spec (prefRev : List (List α)) : ∀ (i : Nat), prefRev.length = i →
    prefRev.flatten ≠ [] →
    ∃ i' j' : Nat, findPrevLoop prefRev ⟨(i : Int), -1⟩ = ⟨(i' : Int), (j' : Int)⟩ ∧ i' < i ∧
      ∃ b, prefRev.reverse[i']? = some b ∧ j' < b.length ∧
        (∀ k b', i' < k → prefRev.reverse[k]? = some b' → b' = []) ∧ j' + 1 = b.length := by
  induction prefRev with
  | nil => intro i _ h; simp at h
  | cons b rest ih =>
    intro i hi hne
    unfold findPrevLoop
    simp only [Int.reduceNeg, show (-1 : Int) < 0 by omega, if_true]
    by_cases hb : b = []
    · subst hb
      simp only [List.length_nil, List.length_cons] at *
      have hne' : rest.flatten ≠ [] := by simpa using hne
      obtain ⟨i', j', h1, h2, b', h3, h4, h5, h6⟩ := ih (i - 1) (by omega) hne'
      refine ⟨i', j', ?_, by omega, b', ?_, h4, ?_, h6⟩
      · have : ((i : Int) - 1) = ((i - 1 : Nat) : Int) := by omega
        rw [this]; simpa using h1
      · rw [List.reverse_cons, List.getElem?_append_left (by simp; omega)]; exact h3
      · intro k b'' hk hb''
        rw [List.reverse_cons] at hb''
        by_cases hkl : k < rest.reverse.length
        · rw [List.getElem?_append_left hkl] at hb''; exact h5 k b'' hk hb''
        · rw [List.getElem?_append_right (by omega)] at hb''
          cases hk0 : k - rest.reverse.length with
          | zero => rw [hk0] at hb''; simp at hb''; exact hb''.symm ▸ rfl
          | succ m => rw [hk0] at hb''; simp at hb''
    · have hlb : 0 < b.length := List.length_pos_iff.mpr hb
      refine ⟨i - 1, b.length - 1, ?_, by simp at hi; omega, b, ?_, by omega, ?_, by omega⟩
      · have h1 : ((i : Int) - 1) = ((i - 1 : Nat) : Int) := by simp at hi; omega
        have h2 : ((b.length : Int) - 1) = ((b.length - 1 : Nat) : Int) := by omega
        rw [h1, h2]
        unfold findPrevLoop
        have : ¬ ((b.length - 1 : Nat) : Int) < 0 := by omega
        simp [this]
      · rw [List.reverse_cons, List.getElem?_append_right (by simp at *; omega)]
        simp only [List.length_cons] at hi
        have : i - 1 - rest.reverse.length = 0 := by simp; omega
        rw [this]; simp
      · intro k b'' hk hb''
        rw [List.reverse_cons] at hb''
        simp only [List.length_cons] at hi
        rw [List.getElem?_append_right (by simp; omega)] at hb''
        cases hk0 : k - rest.reverse.length with
        | zero => simp at hk0; omega
        | succ m => rw [hk0] at hb''; simp at hb''

theorem before_length_lt {bs : List (List α)} {i j i' j' : Nat} (hc : Canon bs i j)
    (hc' : Canon bs i' j') (h : i < i' ∨ (i = i' ∧ j < j')) :
    (before bs i j).length < (before bs i' j').length := by
  rcases hc with ⟨hi, hj⟩ | ⟨b, hb, hj⟩
  · rcases hc' with ⟨hi', hj'⟩ | ⟨b', hb', hj'⟩
    · omega
    · have : i' < bs.length := by
        rcases Nat.lt_or_ge i' bs.length with h | h
        · exact h
        · rw [List.getElem?_eq_none h] at hb'; cases hb'
      rcases h with h | ⟨h, h'⟩ <;> omega
  · rcases h with h | ⟨h, h'⟩
    · have e1 : before bs i j = (bs.take i).flatten ++ b.take j := by simp [before, hb]
      have e2 : bs.take i' = bs.take i ++ b :: (bs.drop (i + 1)).take (i' - i - 1) := by
        obtain ⟨d, rfl⟩ : ∃ d, i' = i + 1 + d := ⟨i' - i - 1, by omega⟩
        have hd : i + 1 + d - i - 1 = d := by omega
        rw [hd, List.take_add, List.take_add_one, hb]
        simp
      have e3 : before bs i' j' = (bs.take i).flatten ++ (b ++ ((bs.drop (i + 1)).take (i' - i - 1)).flatten ++
          (match bs[i']? with | some b => b.take j' | none => [])) := by
        simp [before, e2]
      rw [e1, e3]
      simp only [List.length_append, List.length_take]
      omega
    · subst h
      rcases hc' with ⟨hi', hj'⟩ | ⟨b', hb', hj'⟩
      · omega
      · rw [hb] at hb'; cases hb'
        simp only [before, hb, List.length_append, List.length_take]
        omega

theorem canon_unique {bs : List (List α)} {i j i' j' : Nat} (hc : Canon bs i j)
    (hc' : Canon bs i' j') (h : (before bs i j).length = (before bs i' j').length) :
    i = i' ∧ j = j' := by
  by_contra hne
  by_cases h1 : i < i' ∨ (i = i' ∧ j < j')
  · have := before_length_lt hc hc' h1; omega
  · have := before_length_lt hc' hc (by omega); omega

theorem itPrev_spec (s : HashSet α) {i j : Nat} (hc : Canon s.buckets i j)
    (hne : before s.buckets i j ≠ []) :
    ∃ (i' j' : Nat) (a : α), s.itPrev ⟨(i : Int), (j : Int)⟩ = ⟨(i' : Int), (j' : Int)⟩ ∧
      Canon s.buckets i' j' ∧ s.deref ⟨(i' : Int), (j' : Int)⟩ = .ok a ∧
      before s.buckets i j = before s.buckets i' j' ++ [a] := by
  cases j with
  | succ j =>
    rcases hc with ⟨_, hj⟩ | ⟨b, hb, hj⟩
    · omega
    · have hj' : j < b.length := by omega
      refine ⟨i, j, b[j], ?_, Or.inr ⟨b, hb, hj'⟩, ?_, ?_⟩
      · unfold itPrev findPrevLoop
        have : ¬ (((j + 1 : Nat) : Int) - 1 < 0) := by omega
        simp only [this, if_false]
        simp
      · have h0 : ¬ ((i : Int) < 0 ∨ (j : Int) < 0) := by omega
        simp [deref, h0, Res.index, hb, hj']
      · simp only [before, hb, List.take_add_one, List.append_assoc]
        simp [hj']
  | zero =>
    have hil : i ≤ s.buckets.length := by
      rcases hc with ⟨h, _⟩ | ⟨b, hb, hj⟩
      · omega
      · rcases Nat.lt_or_ge i s.buckets.length with h | h
        · omega
        · rw [List.getElem?_eq_none h] at hb; cases hb
    have hbf : before s.buckets i 0 = (s.buckets.take i).flatten := by
      unfold before; cases s.buckets[i]? <;> simp
    rw [hbf] at hne
    have hne' : ((s.buckets.take i).reverse).flatten ≠ [] := by
      intro h; apply hne
      simp only [List.flatten_eq_nil_iff, List.mem_reverse] at h ⊢; exact h
    obtain ⟨i', j', h1, h2, b, h3, h4, h5, h6⟩ :=
      findPrevLoop_spec (s.buckets.take i).reverse i (by simp; omega) hne'
    rw [List.reverse_reverse] at h3 h5
    have hb : s.buckets[i']? = some b := by
      rw [List.getElem?_take] at h3; simpa [h2] using h3
    refine ⟨i', j', b[j'], ?_, Or.inr ⟨b, hb, h4⟩, ?_, ?_⟩
    · unfold itPrev
      simpa using h1
    · have h0 : ¬ ((i' : Int) < 0 ∨ (j' : Int) < 0) := by omega
      simp [deref, h0, Res.index, hb, h4]
    · rw [hbf]
      have e2 : s.buckets.take i = s.buckets.take i' ++ b :: (s.buckets.drop (i' + 1)).take (i - i' - 1) := by
        obtain ⟨d, rfl⟩ : ∃ d, i = i' + 1 + d := ⟨i - i' - 1, by omega⟩
        have hd : i' + 1 + d - i' - 1 = d := by omega
        rw [hd, List.take_add, List.take_add_one, hb]
        simp
      have e3 : ((s.buckets.drop (i' + 1)).take (i - i' - 1)).flatten = [] := by
        rw [List.flatten_eq_nil_iff]
        intro l hl
        obtain ⟨m, hm, hml⟩ := List.getElem_of_mem hl
        simp only [List.length_take, List.length_drop] at hm
        apply h5 (i' + 1 + m) l (by omega)
        rw [List.getElem?_take]
        have : i' + 1 + m < i := by omega
        simp only [this, if_true]
        rw [List.getElem_take, List.getElem_drop] at hml
        rw [List.getElem?_eq_getElem (by omega), hml]
      rw [e2]
      simp only [List.flatten_append, List.flatten_cons, e3, List.append_nil, before, hb, List.append_assoc]
      congr 1
      have : b.take (j' + 1) = b := by rw [h6]; simp
      conv_lhs => rw [← this]
      rw [List.take_add_one]
      simp [h4]

theorem traverseBack_spec (s : HashSet α) (hpos : 0 < s.buckets.length) : ∀ (n i j : Nat),
    Canon s.buckets i j → (before s.buckets i j).length < n →
    s.traverseBack n ⟨(i : Int), (j : Int)⟩ = .ok (before s.buckets i j).reverse := by
  obtain ⟨ib, jb, hb1, hb2, hb3⟩ := findNext_spec s.buckets 0 0 (Or.inl hpos)
  have hbeg : s.itBegin = ⟨(ib : Int), (jb : Int)⟩ := by
    unfold itBegin; rw [← hb1]; rfl
  have hbb : before s.buckets ib jb = [] := by
    have h1 := before_append_after s.buckets ib jb
    have h0 : after s.buckets 0 0 = s.buckets.flatten := by
      unfold after
      cases s.buckets <;> simp
    rw [hb3, h0] at h1
    simpa using h1
  intro n
  induction n with
  | zero => intro i j _ h; omega
  | succ n ih =>
    intro i j hc hn
    unfold traverseBack
    by_cases he : before s.buckets i j = []
    · have := canon_unique hc hb2 (by rw [he, hbb])
      rw [hbeg, this.1, this.2]
      simp [hbb]
    · have hne : (⟨(i : Int), (j : Int)⟩ : Pos) ≠ s.itBegin := by
        intro h
        rw [hbeg] at h
        simp only [Pos.mk.injEq] at h
        have h1 : i = ib := by omega
        have h2 : j = jb := by omega
        subst h1; subst h2; exact he hbb
      rw [if_neg hne]
      obtain ⟨i', j', a, h1, h2, h3, h4⟩ := itPrev_spec s hc he
      simp only [h1, h3, Res.bind_ok]
      rw [ih i' j' h2 (by rw [h4] at hn; simp at hn; omega)]
      simp [h4]

theorem traverseBack_end (s : HashSet α) (hpos : 0 < s.buckets.length) {n : Nat}
    (hn : s.elems.length < n) : s.traverseBack n s.itEnd = .ok s.elems.reverse := by
  have hb : before s.buckets s.buckets.length 0 = s.elems := by simp [before, elems]
  have := traverseBack_spec s hpos n s.buckets.length 0 (Or.inl ⟨rfl, rfl⟩) (by rw [hb]; exact hn)
  rw [hb] at this
  exact this

end HashSet
end Symbolic
