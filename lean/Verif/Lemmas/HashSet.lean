import Verif.Model.HashSet
import Verif.Lemmas.Order
import Verif.Lemmas.Res
import Mathlib.Data.List.Perm.Basic
import Mathlib.Data.List.Nodup
import Mathlib.Data.List.TakeWhile

set_option linter.unusedSectionVars false
set_option linter.unusedVariables false

namespace Symbolic

/-- The element order is a strict total order. -/
class LawfulElem (α : Type) [Elem α] : Prop where
  strict : StrictTotal (Elem.lt (α := α))

/-- Strictly increasing. -/
abbrev Sorted' {α : Type} [Elem α] (l : List α) : Prop := l.Pairwise (fun x y => Elem.lt x y = true)

section UVLemmas
variable {α : Type} [DecidableEq α] [Elem α] [LawfulElem α]

theorem Sorted'.nodup {l : List α} (h : Sorted' l) : l.Nodup :=
  h.imp (fun hab => LawfulElem.strict.ne hab)

/-- Decomposition of a sorted list at the lower bound of `v`. -/
theorem lowerBound_split (l : List α) (v : α) :
    l = l.takeWhile (fun x => Elem.lt x v) ++ l.dropWhile (fun x => Elem.lt x v) :=
  (List.takeWhile_append_dropWhile).symm

theorem getElem?_lowerBound (l : List α) (v : α) :
    l[lowerBound Elem.lt l v]? = (l.dropWhile (fun x => Elem.lt x v)).head? := by
  have h := lowerBound_split l v
  unfold lowerBound
  generalize List.takeWhile (fun x => Elem.lt x v) l = p at *
  generalize List.dropWhile (fun x => Elem.lt x v) l = q at *
  subst h
  rw [List.getElem?_append_right (Nat.le_refl _)]
  simp [List.head?_eq_getElem?]

theorem take_lowerBound (l : List α) (v : α) :
    l.take (lowerBound Elem.lt l v) = l.takeWhile (fun x => Elem.lt x v) := by
  have h := lowerBound_split l v
  unfold lowerBound
  generalize List.takeWhile (fun x => Elem.lt x v) l = p at *
  generalize List.dropWhile (fun x => Elem.lt x v) l = q at *
  subst h
  simp

theorem drop_lowerBound (l : List α) (v : α) :
    l.drop (lowerBound Elem.lt l v) = l.dropWhile (fun x => Elem.lt x v) := by
  have h := lowerBound_split l v
  unfold lowerBound
  generalize List.takeWhile (fun x => Elem.lt x v) l = p at *
  generalize List.dropWhile (fun x => Elem.lt x v) l = q at *
  subst h
  simp

/-- In a sorted list the elements from the lower bound on are `v` (at most first) or greater. -/
theorem mem_dropWhile {l : List α} (h : Sorted' l) (v : α) :
    ∀ x ∈ l.dropWhile (fun x => Elem.lt x v), x = v ∨ Elem.lt v x = true := by
  induction l with
  | nil => simp
  | cons a l ih =>
    rw [Sorted', List.pairwise_cons] at h
    intro x hx
    rw [List.dropWhile_cons] at hx
    split at hx
    · exact ih h.2 x hx
    · rename_i hav
      have ha := LawfulElem.strict.of_not (Bool.eq_false_iff.mpr hav)
      rcases List.mem_cons.mp hx with rfl | hx
      · exact ha
      · right
        rcases ha with rfl | ha
        · exact h.1 x hx
        · exact LawfulElem.strict.trans _ _ _ ha (h.1 x hx)

theorem lt_of_mem_takeWhile {l : List α} {v x : α}
    (hx : x ∈ l.takeWhile (fun x => Elem.lt x v)) : Elem.lt x v = true := by
  have := List.mem_takeWhile_imp hx
  simpa using this

/-- `v` occurs in a sorted list iff it is at the lower bound. -/
theorem mem_iff_head {l : List α} (h : Sorted' l) (v : α) :
    v ∈ l ↔ (l.dropWhile (fun x => Elem.lt x v)).head? = some v := by
  constructor
  · intro hv
    have hv' : v ∈ l.dropWhile (fun x => Elem.lt x v) := by
      rw [lowerBound_split l v] at hv
      rcases List.mem_append.mp hv with h1 | h1
      · have := lt_of_mem_takeWhile h1
        simp [LawfulElem.strict.irrefl] at this
      · exact h1
    have hs : Sorted' (l.dropWhile (fun x => Elem.lt x v)) := h.sublist (List.dropWhile_sublist _)
    have hm := mem_dropWhile h v
    cases hd : l.dropWhile (fun x => Elem.lt x v) with
    | nil => simp [hd] at hv'
    | cons y ys =>
      rw [hd] at hs hv' hm
      rw [Sorted', List.pairwise_cons] at hs
      rcases List.mem_cons.mp hv' with rfl | h2
      · rfl
      · have h3 := hs.1 v h2
        rcases hm y (by simp) with rfl | h4
        · rfl
        · have := LawfulElem.strict.asymm h3; simp_all
  · intro hh
    have : v ∈ l.dropWhile (fun x => Elem.lt x v) := List.mem_of_head? hh
    exact (List.dropWhile_sublist _).subset this

theorem UV.contains_iff {l : List α} (h : Sorted' l) (v : α) : UV.contains l v = true ↔ v ∈ l := by
  rw [mem_iff_head h v, UV.contains, getElem?_lowerBound]
  cases (l.dropWhile (fun x => Elem.lt x v)).head? <;> simp

theorem UV.insert_flag {l : List α} (h : Sorted' l) (v : α) :
    (UV.insert l v).1 = true ↔ v ∉ l := by
  rw [mem_iff_head h v, UV.insert, getElem?_lowerBound]
  cases (l.dropWhile (fun x => Elem.lt x v)).head? with
  | none => simp
  | some x => by_cases hx : x = v <;> simp [hx]

theorem UV.insert_of_mem {l : List α} (h : Sorted' l) {v : α} (hv : v ∈ l) :
    UV.insert l v = (false, l) := by
  rw [mem_iff_head h v] at hv
  rw [UV.insert, getElem?_lowerBound, hv]; simp

theorem UV.insert_of_not_mem {l : List α} (h : Sorted' l) {v : α} (hv : v ∉ l) :
    UV.insert l v = (true, l.takeWhile (fun x => Elem.lt x v) ++ v ::
      l.dropWhile (fun x => Elem.lt x v)) := by
  rw [mem_iff_head h v] at hv
  rw [UV.insert, getElem?_lowerBound, take_lowerBound, drop_lowerBound]
  cases hd : (l.dropWhile (fun x => Elem.lt x v)).head? with
  | none => simp
  | some x => rw [hd] at hv; simp at hv; simp [hv]

theorem UV.insert_perm {l : List α} (h : Sorted' l) {v : α} (hv : v ∉ l) :
    (UV.insert l v).2.Perm (v :: l) := by
  rw [UV.insert_of_not_mem h hv]
  conv_rhs => rw [lowerBound_split l v]
  exact List.perm_middle

theorem UV.mem_insert {l : List α} (h : Sorted' l) (v x : α) :
    x ∈ (UV.insert l v).2 ↔ x = v ∨ x ∈ l := by
  by_cases hv : v ∈ l
  · rw [UV.insert_of_mem h hv]; constructor
    · exact Or.inr
    · rintro (rfl | h') <;> assumption
  · rw [(UV.insert_perm h hv).mem_iff]; simp

theorem UV.insert_sorted {l : List α} (h : Sorted' l) (v : α) : Sorted' (UV.insert l v).2 := by
  by_cases hv : v ∈ l
  · rw [UV.insert_of_mem h hv]; exact h
  · rw [UV.insert_of_not_mem h hv]
    have hm := mem_dropWhile h v
    have hs := h
    rw [lowerBound_split l v] at hs
    rw [Sorted', List.pairwise_append] at hs ⊢
    refine ⟨hs.1, ?_, ?_⟩
    · rw [List.pairwise_cons]
      refine ⟨?_, hs.2.1⟩
      intro y hy
      rcases hm y hy with rfl | h'
      · exact absurd ((List.dropWhile_sublist _).subset hy) hv
      · exact h'
    · intro x hx y hy
      rcases List.mem_cons.mp hy with rfl | hy
      · exact lt_of_mem_takeWhile hx
      · exact hs.2.2 x hx y hy

theorem UV.erase_of_not_mem {l : List α} (h : Sorted' l) {v : α} (hv : v ∉ l) :
    UV.erase l v = (false, l) := by
  rw [mem_iff_head h v] at hv
  rw [UV.erase, getElem?_lowerBound]
  cases hd : (l.dropWhile (fun x => Elem.lt x v)).head? with
  | none => simp
  | some x => rw [hd] at hv; simp at hv; simp [hv]

theorem UV.erase_of_mem {l : List α} (h : Sorted' l) {v : α} (hv : v ∈ l) :
    UV.erase l v = (true, l.erase v) := by
  have hv' := (mem_iff_head h v).mp hv
  rw [UV.erase, getElem?_lowerBound, hv', take_lowerBound]
  simp only [↓reduceIte, Prod.mk.injEq, true_and]
  have hd1 : l.drop (lowerBound Elem.lt l v + 1) = (l.dropWhile (fun x => Elem.lt x v)).tail := by
    rw [← List.tail_drop, drop_lowerBound]
  rw [hd1]
  conv_rhs => rw [lowerBound_split l v]
  rw [List.erase_append_right]
  · congr 1
    cases hd : l.dropWhile (fun x => Elem.lt x v) with
    | nil => simp
    | cons y ys => rw [hd] at hv'; simp at hv'; simp [hv']
  · intro hc
    have := lt_of_mem_takeWhile hc
    simp [LawfulElem.strict.irrefl] at this

theorem UV.erase_flag {l : List α} (h : Sorted' l) (v : α) :
    (UV.erase l v).1 = true ↔ v ∈ l := by
  by_cases hv : v ∈ l
  · simp [UV.erase_of_mem h hv, hv]
  · simp [UV.erase_of_not_mem h hv, hv]

theorem UV.mem_erase {l : List α} (h : Sorted' l) (v x : α) :
    x ∈ (UV.erase l v).2 ↔ x ≠ v ∧ x ∈ l := by
  by_cases hv : v ∈ l
  · rw [UV.erase_of_mem h hv, h.nodup.mem_erase_iff]
  · rw [UV.erase_of_not_mem h hv]
    constructor
    · intro hx; exact ⟨fun e => hv (e ▸ hx), hx⟩
    · exact fun h => h.2

theorem UV.erase_sorted {l : List α} (h : Sorted' l) (v : α) : Sorted' (UV.erase l v).2 := by
  by_cases hv : v ∈ l
  · rw [UV.erase_of_mem h hv]; exact h.sublist List.erase_sublist
  · rw [UV.erase_of_not_mem h hv]; exact h

theorem UV.erase_perm {l : List α} (h : Sorted' l) {v : α} (hv : v ∈ l) :
    l.Perm (v :: (UV.erase l v).2) := by
  rw [UV.erase_of_mem h hv]; exact List.perm_cons_erase hv

theorem sorted_ext {l l' : List α} (h : Sorted' l) (h' : Sorted' l')
    (hm : ∀ x, x ∈ l ↔ x ∈ l') : l = l' := by
  have hp : l.Perm l' := (List.perm_ext_iff_of_nodup h.nodup h'.nodup).mpr hm
  refine hp.eq_of_pairwise ?_ h h'
  intro a b _ _ hab hba
  have := LawfulElem.strict.asymm hab; simp_all

end UVLemmas

namespace HashSet
variable {α : Type} [DecidableEq α] [Elem α] [LawfulElem α]

/-- Well-formed bucket array with `n` buckets. -/
structure BInv (n : Nat) (bs : List (List α)) : Prop where
  pos : 0 < n
  len : bs.length = n
  sorted : ∀ b ∈ bs, Sorted' b
  home : ∀ (i : Nat) b, bs[i]? = some b → ∀ a ∈ b, bucketIdx n a = i

/-- Representation invariant of the containers. -/
structure Inv (s : HashSet α) : Prop where
  binv : BInv s.buckets.length s.buckets
  shape : ∃ k, s.buckets.length + 1 = 2 ^ (k + 1)
  size_eq : s.size = s.buckets.flatten.length
  upper : s.size ≤ s.buckets.length
  lower : s.buckets.length = 1 ∨ (s.buckets.length - 1) / 2 < s.size

namespace BInv

theorem idx_lt {n : Nat} {bs : List (List α)} (h : BInv n bs) (a : α) :
    bucketIdx bs.length a < bs.length := by
  rw [h.len]; exact Nat.mod_lt _ h.pos

theorem bucket {n : Nat} {bs : List (List α)} (h : BInv n bs) (a : α) :
    ∃ b, bs[bucketIdx bs.length a]? = some b ∧ b ∈ bs ∧ Sorted' b ∧ (a ∈ bs.flatten ↔ a ∈ b) := by
  have hl := h.idx_lt a
  refine ⟨bs[bucketIdx bs.length a], by simp [List.getElem?_eq_getElem hl], List.getElem_mem hl,
    h.sorted _ (List.getElem_mem hl), ?_⟩
  constructor
  · intro ha
    obtain ⟨b, hb, hab⟩ := List.mem_flatten.mp ha
    obtain ⟨i, hi, rfl⟩ := List.mem_iff_getElem.mp hb
    have := h.home i bs[i] (by simp [List.getElem?_eq_getElem hi]) a hab
    subst this
    have e : bucketIdx n a = bucketIdx bs.length a := by rw [h.len]
    simp only [e] at hab
    exact hab
  · intro ha
    exact List.mem_flatten.mpr ⟨_, List.getElem_mem hl, ha⟩

theorem inBuckets_iff {n : Nat} {bs : List (List α)} (h : BInv n bs) (a : α) :
    inBuckets bs a = true ↔ a ∈ bs.flatten := by
  obtain ⟨b, hb, _, hs, hm⟩ := h.bucket a
  rw [inBuckets, hb, hm]
  exact UV.contains_iff hs a

theorem putFlag_iff {n : Nat} {bs : List (List α)} (h : BInv n bs) (a : α) :
    putFlag bs a = true ↔ a ∉ bs.flatten := by
  obtain ⟨b, hb, _, hs, hm⟩ := h.bucket a
  rw [putFlag, hb, hm]
  exact UV.insert_flag hs a

theorem dropFlag_iff {n : Nat} {bs : List (List α)} (h : BInv n bs) (a : α) :
    dropFlag bs a = true ↔ a ∈ bs.flatten := by
  obtain ⟨b, hb, _, hs, hm⟩ := h.bucket a
  rw [dropFlag, hb, hm]
  exact UV.erase_flag hs a

/-- Replacing the bucket of `a`. -/
theorem modify_binv {n : Nat} {bs : List (List α)} (h : BInv n bs) (a : α) (f : List α → List α)
    (hs : ∀ b, Sorted' b → Sorted' (f b))
    (hm : ∀ b, Sorted' b → ∀ x ∈ f b, x = a ∨ x ∈ b) :
    BInv n (bs.modify (bucketIdx bs.length a) f) := by
  refine ⟨h.pos, by simp [h.len], ?_, ?_⟩
  · intro b hb
    obtain ⟨i, hi, rfl⟩ := List.mem_iff_getElem.mp hb
    rw [List.getElem_modify]
    have hi' : i < bs.length := by simpa using hi
    split
    · exact hs _ (h.sorted _ (List.getElem_mem hi'))
    · exact h.sorted _ (List.getElem_mem hi')
  · intro i b hb x hx
    rw [List.getElem?_modify] at hb
    cases hbi : bs[i]? with
    | none => simp [hbi] at hb
    | some c =>
      simp only [hbi, Option.map_eq_map, Option.map_some, Option.some.injEq] at hb
      split at hb
      · rename_i hidx
        subst hb
        rcases hm c (h.sorted c (List.mem_of_getElem? hbi)) x hx with rfl | hx
        · rw [← hidx, h.len]
        · exact h.home i c hbi x hx
      · subst hb; exact h.home i _ hbi x hx

theorem flatten_modify {n : Nat} {bs : List (List α)} (h : BInv n bs) (a : α)
    (f : List α → List α) :
    ∃ pre b post, bs = pre ++ b :: post ∧ Sorted' b ∧ (a ∈ bs.flatten ↔ a ∈ b) ∧
      bs.modify (bucketIdx bs.length a) f = pre ++ f b :: post := by
  obtain ⟨b, hb, _, hs, hm⟩ := h.bucket a
  have hl := h.idx_lt a
  refine ⟨bs.take (bucketIdx bs.length a), b, bs.drop (bucketIdx bs.length a + 1), ?_, hs, hm, ?_⟩
  · rw [List.getElem?_eq_getElem hl] at hb
    simp only [Option.some.injEq] at hb
    rw [← hb, List.getElem_cons_drop, List.take_append_drop]
  · rw [List.modify_eq_take_cons_drop hl]
    rw [List.getElem?_eq_getElem hl] at hb
    simp only [Option.some.injEq] at hb
    rw [hb]

theorem put {n : Nat} {bs : List (List α)} (h : BInv n bs) (a : α) : BInv n (putBucket bs a) :=
  h.modify_binv a _ (fun _ hb => UV.insert_sorted hb a)
    (fun b hb x hx => (UV.mem_insert hb a x).mp hx)

theorem mem_put {n : Nat} {bs : List (List α)} (h : BInv n bs) (a x : α) :
    x ∈ (putBucket bs a).flatten ↔ x = a ∨ x ∈ bs.flatten := by
  obtain ⟨pre, b, post, hbs, hs, _, hmod⟩ := h.flatten_modify a (fun b => (UV.insert b a).2)
  rw [putBucket, hmod]
  conv_rhs => rw [hbs]
  simp only [List.flatten_append, List.flatten_cons, List.mem_append, UV.mem_insert hs]
  tauto

theorem put_perm {n : Nat} {bs : List (List α)} (h : BInv n bs) {a : α} (ha : a ∉ bs.flatten) :
    (putBucket bs a).flatten.Perm (a :: bs.flatten) := by
  obtain ⟨pre, b, post, hbs, hs, hm, hmod⟩ := h.flatten_modify a (fun b => (UV.insert b a).2)
  rw [putBucket, hmod]
  conv_rhs => rw [hbs]
  rw [hm] at ha
  simp only [List.flatten_append, List.flatten_cons]
  have h1 := ((UV.insert_perm hs ha).append_right post.flatten).append_left pre.flatten
  refine h1.trans ?_
  simp only [List.cons_append]
  exact List.perm_middle

theorem put_of_mem {n : Nat} {bs : List (List α)} (h : BInv n bs) {a : α} (ha : a ∈ bs.flatten) :
    putBucket bs a = bs := by
  obtain ⟨pre, b, post, hbs, hs, hm, hmod⟩ := h.flatten_modify a (fun b => (UV.insert b a).2)
  rw [putBucket, hmod, UV.insert_of_mem hs (hm.mp ha)]
  exact hbs.symm

theorem drop {n : Nat} {bs : List (List α)} (h : BInv n bs) (a : α) : BInv n (dropBucket bs a) :=
  h.modify_binv a _ (fun _ hb => UV.erase_sorted hb a)
    (fun b hb x hx => Or.inr ((UV.mem_erase hb a x).mp hx).2)

theorem flatten_nodup {n : Nat} {bs : List (List α)} (h : BInv n bs) : bs.flatten.Nodup := by
  rw [List.nodup_flatten]
  refine ⟨fun b hb => (h.sorted b hb).nodup, ?_⟩
  rw [List.pairwise_iff_getElem]
  intro i j hi hj hij
  rw [List.disjoint_left]
  intro x hxi hxj
  have h1 := h.home i _ (List.getElem?_eq_getElem hi) x hxi
  have h2 := h.home j _ (List.getElem?_eq_getElem hj) x hxj
  omega

theorem mem_drop {n : Nat} {bs : List (List α)} (h : BInv n bs) (a x : α) :
    x ∈ (dropBucket bs a).flatten ↔ x ≠ a ∧ x ∈ bs.flatten := by
  obtain ⟨pre, b, post, hbs, hs, hm, hmod⟩ := h.flatten_modify a (fun b => (UV.erase b a).2)
  have hn := h.flatten_nodup
  rw [dropBucket, hmod]
  rw [hbs] at hm hn ⊢
  simp only [List.flatten_append, List.flatten_cons, List.mem_append, UV.mem_erase hs] at hm hn ⊢
  rw [List.nodup_append] at hn
  obtain ⟨_, hn2, hn3⟩ := hn
  rw [List.nodup_append] at hn2
  have key : x = a → x ∈ pre.flatten ∨ x ∈ post.flatten → x ∈ b := by
    rintro rfl hx; exact hm.mp (by tauto)
  constructor
  · rintro (hx | ⟨hx1, hx2⟩ | hx)
    · refine ⟨fun e => ?_, Or.inl hx⟩
      exact hn3 x hx x (by simp [key e (Or.inl hx)]) rfl
    · exact ⟨hx1, by tauto⟩
    · refine ⟨fun e => ?_, by tauto⟩
      exact hn2.2.2 x (key e (Or.inr hx)) x hx rfl
  · tauto

theorem drop_perm {n : Nat} {bs : List (List α)} (h : BInv n bs) {a : α} (ha : a ∈ bs.flatten) :
    bs.flatten.Perm (a :: (dropBucket bs a).flatten) := by
  obtain ⟨pre, b, post, hbs, hs, hm, hmod⟩ := h.flatten_modify a (fun b => (UV.erase b a).2)
  rw [dropBucket, hmod]
  rw [hm] at ha
  conv_lhs => rw [hbs]
  simp only [List.flatten_append, List.flatten_cons]
  have h1 := ((UV.erase_perm hs ha).append_right post.flatten).append_left pre.flatten
  refine h1.trans ?_
  simp only [List.cons_append]
  exact List.perm_middle

theorem drop_of_not_mem {n : Nat} {bs : List (List α)} (h : BInv n bs) {a : α}
    (ha : a ∉ bs.flatten) : dropBucket bs a = bs := by
  obtain ⟨pre, b, post, hbs, hs, hm, hmod⟩ := h.flatten_modify a (fun b => (UV.erase b a).2)
  rw [dropBucket, hmod, UV.erase_of_not_mem hs (fun h' => ha (hm.mpr h'))]
  exact hbs.symm

theorem replicate (n : Nat) (hn : 0 < n) : BInv n (List.replicate n ([] : List α)) := by
  refine ⟨hn, by simp, ?_, ?_⟩
  · intro b hb; rw [List.mem_replicate] at hb; rw [hb.2]; exact List.Pairwise.nil
  · intro i b hb a ha
    have := List.mem_of_getElem? hb
    rw [List.mem_replicate] at this
    rw [this.2] at ha; simp at ha

theorem foldl_put {n : Nat} (l : List α) : ∀ {bs : List (List α)}, BInv n bs →
    (l ++ bs.flatten).Nodup →
    BInv n (l.foldl putBucket bs) ∧ (l.foldl putBucket bs).flatten.Perm (l ++ bs.flatten) := by
  induction l with
  | nil => intro bs h _; exact ⟨h, by simp⟩
  | cons a l ih =>
    intro bs h hn
    simp only [List.cons_append, List.nodup_cons, List.mem_append, not_or] at hn
    have hp := h.put_perm hn.1.2
    have hn' : (l ++ (putBucket bs a).flatten).Nodup := by
      rw [(hp.append_left l).nodup_iff, List.perm_middle.nodup_iff]
      simp [hn.1, hn.2]
    obtain ⟨h1, h2⟩ := ih (h.put a) hn'
    refine ⟨h1, ?_⟩
    simp only [List.foldl_cons]
    refine h2.trans ?_
    refine (hp.append_left l).trans ?_
    simp

/-- Two well-formed arrays with equally many buckets and the same elements are identical. -/
theorem ext {n : Nat} {bs cs : List (List α)} (h : BInv n bs) (h' : BInv n cs)
    (hm : ∀ x, x ∈ bs.flatten ↔ x ∈ cs.flatten) : bs = cs := by
  apply List.ext_getElem (by rw [h.len, h'.len])
  intro i hi hi'
  apply sorted_ext (h.sorted _ (List.getElem_mem hi)) (h'.sorted _ (List.getElem_mem hi'))
  have aux : ∀ {ds : List (List α)} (hd : BInv n ds) (hid : i < ds.length) (x : α),
      x ∈ ds[i] ↔ x ∈ ds.flatten ∧ bucketIdx n x = i := by
    intro ds hd hid x
    constructor
    · intro hx
      exact ⟨List.mem_flatten.mpr ⟨_, List.getElem_mem hid, hx⟩,
        hd.home i _ (List.getElem?_eq_getElem hid) x hx⟩
    · rintro ⟨hx, hxi⟩
      obtain ⟨c, hc, hxc⟩ := List.mem_flatten.mp hx
      obtain ⟨j, hj, rfl⟩ := List.mem_iff_getElem.mp hc
      have := hd.home j _ (List.getElem?_eq_getElem hj) x hxc
      have e : j = i := by omega
      subst e; exact hxc
  intro x
  rw [aux h hi, aux h' hi', hm]

end BInv

theorem Inv.empty : Inv (HashSet.empty : HashSet α) := by
  refine ⟨?_, ⟨0, ?_⟩, ?_, ?_, ?_⟩
  · simpa [HashSet.empty] using BInv.replicate (α := α) 1 (by omega)
  all_goals simp [HashSet.empty]

theorem rehash_spec {s : HashSet α} (h : BInv s.buckets.length s.buckets) {n : Nat} (hn : 0 < n) :
    BInv n (s.rehash n).buckets ∧ (s.rehash n).buckets.flatten.Perm s.buckets.flatten ∧
      (s.rehash n).size = s.size := by
  unfold rehash
  split
  · rename_i e; subst e; exact ⟨h, List.Perm.refl _, rfl⟩
  · have hnod : (s.buckets.flatten ++ (List.replicate n ([] : List α)).flatten).Nodup := by
      simpa using h.flatten_nodup
    have := BInv.foldl_put s.buckets.flatten (BInv.replicate (α := α) n hn) hnod
    simpa using this

theorem Inv.insert {s : HashSet α} (h : Inv s) (a : α) : Inv (s.insert a).2 := by
  unfold HashSet.insert
  split
  · rename_i hf
    rw [h.binv.putFlag_iff] at hf
    have hp := h.binv.put_perm hf
    have hb := h.binv.put a
    have hlen : (putBucket s.buckets a).length = s.buckets.length := hb.len
    have hb' : BInv (putBucket s.buckets a).length (putBucket s.buckets a) := by
      rw [hlen]; exact hb
    simp only
    split
    · rename_i hgt
      have hr := rehash_spec (s := ⟨putBucket s.buckets a, s.size + 1⟩) hb'
        (n := HashSet.upperBound ⟨putBucket s.buckets a, s.size + 1⟩)
        (by simp [HashSet.upperBound])
      have hl' := hr.1.len
      simp only [HashSet.upperBound, hlen] at hl' hr ⊢
      obtain ⟨k, hk⟩ := h.shape
      refine ⟨?_, ?_, ?_, ?_, ?_⟩
      · rw [hl']; exact hr.1
      · refine ⟨k + 1, ?_⟩
        rw [hl', Nat.pow_succ]; omega
      · rw [hr.2.2, hr.2.1.length_eq, hp.length_eq]
        simp [h.size_eq]
      · rw [hl', hr.2.2]; have := h.upper; omega
      · right
        rw [hl', hr.2.2]
        simp only [gt_iff_lt, hlen] at hgt ⊢
        omega
    · rename_i hgt
      refine ⟨hb', ?_, ?_, ?_, ?_⟩
      · simp only [hlen]; exact h.shape
      · simp only [hp.length_eq, h.size_eq, List.length_cons]
      · simp only [gt_iff_lt, not_lt] at hgt; exact hgt
      · simp only [hlen]; have := h.lower; omega
  · rename_i hf
    rw [Bool.not_eq_true, Bool.eq_false_iff, ne_eq, h.binv.putFlag_iff, not_not] at hf
    have : (⟨putBucket s.buckets a, s.size⟩ : HashSet α) = s := by
      rw [h.binv.put_of_mem hf]
    simpa [this] using h

theorem Inv.erase {s : HashSet α} (h : Inv s) (a : α) : Inv (s.erase a).2 := by
  unfold HashSet.erase
  split
  · rename_i hf
    rw [h.binv.dropFlag_iff] at hf
    have hp := h.binv.drop_perm hf
    have hb := h.binv.drop a
    have hlen : (dropBucket s.buckets a).length = s.buckets.length := hb.len
    have hb' : BInv (dropBucket s.buckets a).length (dropBucket s.buckets a) := by
      rw [hlen]; exact hb
    have hsz : s.size = (dropBucket s.buckets a).flatten.length + 1 := by
      rw [h.size_eq, hp.length_eq]; simp
    simp only
    split
    · rename_i hle
      have hr := rehash_spec (s := ⟨dropBucket s.buckets a, s.size - 1⟩) hb'
        (n := HashSet.lowerBound ⟨dropBucket s.buckets a, s.size - 1⟩)
        (by simp only [HashSet.lowerBound]; omega)
      have hl' := hr.1.len
      simp only [HashSet.lowerBound, hlen] at hl' hr hle ⊢
      obtain ⟨k, hk⟩ := h.shape
      have hlow := h.lower
      have hup := h.upper
      refine ⟨?_, ?_, ?_, ?_, ?_⟩
      · rw [hl']; exact hr.1
      · cases k with
        | zero => exact ⟨0, by rw [hl']; simp at hk ⊢; omega⟩
        | succ k =>
          refine ⟨k, ?_⟩
          have : 2 ^ (k + 1) ≥ 2 := by
            have := Nat.pow_le_pow_right (n := 2) (by omega) (show 1 ≤ k + 1 by omega)
            simpa using this
          rw [hl']
          rw [Nat.pow_succ] at hk
          omega
      · rw [hr.2.2, hr.2.1.length_eq]; omega
      · rw [hl', hr.2.2]; exact hle
      · rw [hl', hr.2.2]
        by_cases h1 : s.buckets.length = 1
        · left; omega
        · have h2 : 3 ≤ s.buckets.length := by
            cases k with
            | zero => simp at hk; omega
            | succ k =>
              have : 2 ^ (k + 1) ≥ 2 := by
                have := Nat.pow_le_pow_right (n := 2) (by omega) (show 1 ≤ k + 1 by omega)
                simpa using this
              rw [Nat.pow_succ] at hk; omega
          omega
    · rename_i hle
      simp only [HashSet.lowerBound, hlen, not_le] at hle
      refine ⟨hb', ?_, ?_, ?_, ?_⟩
      · simp only [hlen]; exact h.shape
      · simp only; omega
      · have := h.upper; simp only [hlen]; omega
      · simp only [hlen]; omega
  · rename_i hf
    rw [h.binv.dropFlag_iff] at hf
    have : (⟨dropBucket s.buckets a, s.size⟩ : HashSet α) = s := by
      rw [h.binv.drop_of_not_mem hf]
    simpa [this] using h

/-! Membership -/

theorem Inv.contains_iff {s : HashSet α} (h : Inv s) (a : α) :
    s.contains a = true ↔ a ∈ s.elems := h.binv.inBuckets_iff a

theorem Inv.elems_nodup {s : HashSet α} (h : Inv s) : s.elems.Nodup := h.binv.flatten_nodup

theorem Inv.insert_flag {s : HashSet α} (h : Inv s) (a : α) :
    (s.insert a).1 = true ↔ a ∉ s.elems := by
  unfold HashSet.insert
  split
  · rename_i hf; rw [h.binv.putFlag_iff] at hf; simpa [elems] using hf
  · rename_i hf; rw [h.binv.putFlag_iff] at hf; simpa [elems] using hf

theorem Inv.erase_flag {s : HashSet α} (h : Inv s) (a : α) :
    (s.erase a).1 = true ↔ a ∈ s.elems := by
  unfold HashSet.erase
  split
  · rename_i hf; rw [h.binv.dropFlag_iff] at hf; simpa [elems] using hf
  · rename_i hf; rw [h.binv.dropFlag_iff] at hf; simpa [elems] using hf

theorem Inv.mem_insert {s : HashSet α} (h : Inv s) (a x : α) :
    x ∈ (s.insert a).2.elems ↔ x = a ∨ x ∈ s.elems := by
  have hb := h.binv.put a
  have hb' : BInv (putBucket s.buckets a).length (putBucket s.buckets a) := by
    rw [hb.len]; exact hb
  unfold HashSet.insert elems
  split
  · simp only
    split
    · have hr := rehash_spec (s := ⟨putBucket s.buckets a, s.size + 1⟩) hb'
        (n := HashSet.upperBound ⟨putBucket s.buckets a, s.size + 1⟩)
        (by simp [HashSet.upperBound])
      rw [hr.2.1.mem_iff]; exact h.binv.mem_put a x
    · exact h.binv.mem_put a x
  · exact h.binv.mem_put a x

theorem Inv.mem_erase {s : HashSet α} (h : Inv s) (a x : α) :
    x ∈ (s.erase a).2.elems ↔ x ≠ a ∧ x ∈ s.elems := by
  have hb := h.binv.drop a
  have hb' : BInv (dropBucket s.buckets a).length (dropBucket s.buckets a) := by
    rw [hb.len]; exact hb
  unfold HashSet.erase elems
  split
  · simp only
    split
    · have hr := rehash_spec (s := ⟨dropBucket s.buckets a, s.size - 1⟩) hb'
        (n := HashSet.lowerBound ⟨dropBucket s.buckets a, s.size - 1⟩)
        (by simp only [HashSet.lowerBound]; omega)
      rw [hr.2.1.mem_iff]; exact h.binv.mem_drop a x
    · exact h.binv.mem_drop a x
  · exact h.binv.mem_drop a x

/-- Canonical form: well-formed sets with the same elements are identical. -/
theorem Inv.ext {s t : HashSet α} (hs : Inv s) (ht : Inv t)
    (hm : ∀ x, x ∈ s.elems ↔ x ∈ t.elems) : s = t := by
  have hsize : s.size = t.size := by
    rw [hs.size_eq, ht.size_eq]
    exact ((List.perm_ext_iff_of_nodup hs.elems_nodup ht.elems_nodup).mpr hm).length_eq
  have hlen : s.buckets.length = t.buckets.length := by
    obtain ⟨k, hk⟩ := hs.shape
    obtain ⟨j, hj⟩ := ht.shape
    have := hs.upper; have := ht.upper; have := hs.lower; have := ht.lower
    rcases Nat.lt_trichotomy k j with hkj | rfl | hkj
    · exfalso
      have hpow := Nat.pow_le_pow_right (n := 2) (by omega) (show k + 2 ≤ j + 1 by omega)
      rw [Nat.pow_succ 2 (k+1)] at hpow
      omega
    · omega
    · exfalso
      have hpow := Nat.pow_le_pow_right (n := 2) (by omega) (show j + 2 ≤ k + 1 by omega)
      rw [Nat.pow_succ 2 (j+1)] at hpow
      omega
  have hbuckets : s.buckets = t.buckets := by
    apply BInv.ext hs.binv _ hm
    rw [hlen]; exact ht.binv
  cases s; cases t; simp_all

theorem inv_run (ops : List (Op α)) : Inv (run ops) := by
  have : ∀ (ops : List (Op α)) (s : HashSet α), Inv s → Inv (ops.foldl step s) := by
    intro ops
    induction ops with
    | nil => intro s h; exact h
    | cons o ops ih =>
      intro s h
      apply ih
      cases o with
      | insert a => exact h.insert a
      | erase a => exact h.erase a
  exact this ops _ Inv.empty

end HashSet
end Symbolic
