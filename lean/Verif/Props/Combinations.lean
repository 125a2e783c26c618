import Verif.Lemmas.Combination

/-!
# C06-C09: CombinationGenerator
-/

namespace Symbolic
open Comb
variable {α : Type}

/-- C06. A range-for over a generator with at least one option, none of them empty, visits exactly the
Cartesian product of the options in lexicographic order of positions, and `size()` is the product of
the option sizes. (`cartesian` is duplicate free when the options are, and its members are the tuples
picking one element per option.) -/
theorem C06_iteration_is_cartesian_product (dflt : α) (options : List (List α)) (h0 : options ≠ [])
    (hne : ∀ o ∈ options, o ≠ []) (budget : Nat) (hb : (options.map List.length).prod < budget) :
    ctor options = .ok options ∧
    forward dflt options budget = .ok (cartesian options) ∧
    size options = (options.map List.length).prod ∧
    (cartesian options).length = size options ∧
    (∀ c, c ∈ cartesian options ↔ List.Forall₂ (fun a o => a ∈ o) c options) ∧
    ((∀ o ∈ options, o.Nodup) → (cartesian options).Nodup) := by
  have hs := size_of_ne_nil h0
  have hp := count_pos hne
  refine ⟨?_, ?_, hs, by rw [length_cartesian, hs], fun c => mem_cartesian, nodup_cartesian⟩
  · unfold ctor
    rw [if_neg]
    simp only [List.any_eq_true, not_exists, not_and]
    intro o ho h
    exact hne o ho (List.isEmpty_iff.1 h)
  · obtain ⟨c, h1, h2⟩ := iter_spec dflt h0 hne 0 hp
    have he : iter dflt options (size options : Int) = .ok ⟨[], (size options : Int)⟩ := by
      simp [iter, outside_nat]
    have h2' : iter dflt options 0 = .ok ⟨c, ((0 : Nat) : Int)⟩ := h2
    simp only [forward, begin, endIt, h2', he, Res.bind_ok]
    rw [traverse_forward dflt h0 hne (count options) 0 budget c (by omega) hb hp h1]
    simp

/-- Non-vacuity: two options of sizes two and three. -/
example : forward 0 [[1, 2], [3, 4, 5]] 7 =
    .ok [[1, 3], [1, 4], [1, 5], [2, 3], [2, 4], [2, 5]] := by decide

/-- C06, continued. An empty option makes the constructor throw; without options there is nothing to
iterate over. -/
theorem C06_degenerate (dflt : α) (options : List (List α)) :
    ((∃ o ∈ options, o = []) → ctor options = .exc .invalidArgument) ∧
    (∀ budget, forward dflt ([] : List (List α)) (budget + 1) = .ok [] ∧ size ([] : List (List α)) = 0) := by
  refine ⟨fun ⟨o, ho, he⟩ => ?_, fun budget => ⟨rfl, rfl⟩⟩
  unfold ctor
  rw [if_pos]
  rw [List.any_eq_true]
  exact ⟨o, ho, by simp [he]⟩

/-- Moves an iterator by each of the given offsets in turn (`+=`). -/
def moves (dflt : α) (options : List (List α)) (it : Iter α) : List Int → Res (Iter α)
  | [] => .ok it
  | n :: ns => do
    let it' ← advance dflt options it n
    moves dflt options it' ns

/-- The positions after each move. -/
def positions (start : Int) : List Int → List Int
  | [] => []
  | n :: ns => (start + n) :: positions (start + n) ns

/-- C07. Whatever sequence of `++`, `--`, `+=`, `-=` is applied to `begin()`, as long as every position
reached is inside `[0, size)`, the iterator shows the combination with the number of its position. -/
theorem C07_random_access (dflt : α) (options : List (List α)) (h0 : options ≠ [])
    (hne : ∀ o ∈ options, o ≠ []) (ns : List Int)
    (hin : ∀ p ∈ positions 0 ns, 0 ≤ p ∧ p < (size options : Int)) :
    ∃ (k : Nat) (c : List α), k = (ns.sum).toNat ∧ (cartesian options)[k]? = some c ∧
      (begin dflt options >>= fun b => moves dflt options b ns) = .ok ⟨c, (k : Int)⟩ := by
  have hs := size_of_ne_nil h0
  have hp := count_pos hne
  obtain ⟨c, h1, h2⟩ := iter_spec dflt h0 hne 0 hp
  have h2' : iter dflt options 0 = .ok ⟨c, ((0 : Nat) : Int)⟩ := h2
  simp only [begin, h2', Res.bind_ok]
  suffices ∀ (ns : List Int) (k : Nat) (c : List α), k < count options →
      (∀ p ∈ positions (k : Int) ns, 0 ≤ p ∧ p < (size options : Int)) →
      (cartesian options)[k]? = some c →
      ∃ (k' : Nat) (c' : List α), (k' : Int) = (k : Int) + ns.sum ∧ (cartesian options)[k']? = some c' ∧
        moves dflt options ⟨c, (k : Int)⟩ ns = .ok ⟨c', (k' : Int)⟩ by
    obtain ⟨k', c', e1, e2, e3⟩ := this ns 0 c hp hin h1
    exact ⟨k', c', by omega, e2, e3⟩
  intro ns
  induction ns with
  | nil => intro k c hk _ hc; exact ⟨k, c, by simp, hc, rfl⟩
  | cons n ns ih =>
    intro k c hk hin hc
    have hp0 := hin ((k : Int) + n) (by simp [positions])
    obtain ⟨k1, hk1⟩ : ∃ k1 : Nat, (k1 : Int) = (k : Int) + n := ⟨((k : Int) + n).toNat, by omega⟩
    have hk1' : k1 < count options := by rw [hs] at hp0; omega
    obtain ⟨c1, h1, h2⟩ := moveTo_spec dflt h0 (Masked.refl options) hne k k1 hk hk1' hc
    obtain ⟨k', c', e1, e2, e3⟩ := ih k1 c1 hk1' (fun p hp => hin p (by
      simp only [positions, List.mem_cons]; right; rwa [← hk1])) h1
    refine ⟨k', c', by simp only [List.sum_cons]; omega, e2, ?_⟩
    simp only [moves, advance]
    rw [← hk1, h2]
    exact e3

/-- Non-vacuity: a path with forward and backward moves. -/
example : (∀ p ∈ positions 0 [5, -3, 1], 0 ≤ p ∧ p < (size [[1, 2], [3, 4, 5]] : Int)) ∧
    (begin 0 [[1, 2], [3, 4, 5]] >>= fun b => moves 0 [[1, 2], [3, 4, 5]] b [5, -3, 1]) = .ok ⟨[2, 3], 3⟩ := by
  decide

/-- C07, continued. `at(i)` is the combination number `i` for `0 ≤ i < size`, wraps around once for
negative `i`, and throws `out_of_range` for every other `i`. -/
theorem C07_at (dflt : α) (options : List (List α)) (h0 : options ≠ [])
    (hne : ∀ o ∈ options, o ≠ []) :
    (∀ i : Nat, i < size options →
      ∃ c, (cartesian options)[i]? = some c ∧ atIdx dflt options (i : Int) = .ok c) ∧
    (∀ i : Nat, 0 < i → i ≤ size options →
      ∃ c, (cartesian options)[size options - i]? = some c ∧ atIdx dflt options (-(i : Int)) = .ok c) ∧
    (∀ i : Int, (i ≥ (size options : Int) ∨ i < -(size options : Int)) →
      atIdx dflt options i = .exc .outOfRange) := by
  have hs := size_of_ne_nil h0
  have hp := count_pos hne
  have hget : ∀ i : Nat, i < size options →
      ∃ c, (cartesian options)[i]? = some c ∧ Comb.get dflt options (i : Int) = .ok c := by
    intro i hi
    obtain ⟨c, h1, h2⟩ := iter_spec dflt h0 hne 0 hp
    have h2' : iter dflt options 0 = .ok ⟨c, ((0 : Nat) : Int)⟩ := h2
    obtain ⟨c', h3, h4⟩ := moveTo_spec dflt h0 (Masked.refl options) hne 0 i hp (by omega) h1
    refine ⟨c', h3, ?_⟩
    have e : ((0 : Nat) : Int) + (i : Int) = (i : Int) := by simp
    simp only [Comb.get, begin, h2', Res.bind_ok, advance, e, h4, Res.pure_eq]
  refine ⟨fun i hi => ?_, fun i hi hi' => ?_, fun i hi => ?_⟩
  · obtain ⟨c, h1, h2⟩ := hget i hi
    refine ⟨c, h1, ?_⟩
    have : ¬ ((i : Int) < 0) := by omega
    simp only [atIdx, this, if_false, outside_nat, h2]
    simp; omega
  · obtain ⟨c, h1, h2⟩ := hget (size options - i) (by omega)
    refine ⟨c, h1, ?_⟩
    have : (-(i : Int)) < 0 := by omega
    have e : -(i : Int) + (size options : Int) = ((size options - i : Nat) : Int) := by omega
    simp only [atIdx, this, if_true, e, outside_nat, h2]
    simp; omega
  · unfold atIdx
    by_cases hn : i < 0
    · have : outside options (i + (size options : Int)) = true := by simp [outside]; omega
      simp only [hn, if_true, this]
    · have : outside options i = true := by simp [outside]; omega
      simp only [hn, if_false, this, if_true]

/-- Non-vacuity of `C07_at`. -/
example : atIdx 0 [[1, 2], [3, 4, 5]] (-2) = .ok [2, 4] ∧ atIdx 0 [[1, 2], [3, 4, 5]] 6 = .exc .outOfRange := by
  decide

/-- C07 does not extend to paths through `end()`: after running to the end, stepping back by two shows a
combination that does not belong to that position. -/
theorem C07_through_end_refuted :
    ∃ (options : List (List Nat)) (it : Iter Nat), (∀ o ∈ options, 2 ≤ o.length) ∧
      (begin 0 options >>= fun b => moves 0 options b [1, 1, 1, 1, -2]) = .ok it ∧ it.idx = 2 ∧
      (cartesian options)[2]? = some [2, 3] ∧ it.comb = [2, 4] :=
  ⟨[[1, 2], [3, 4]], ⟨[2, 4], 2⟩, by decide, by decide, rfl, by decide, rfl⟩

/-- C08. With an element comparison `eq` under which the elements of each option are pairwise distinct,
`find` returns the number of every combination of the generator. -/
theorem C08_find_inverts_indexing (eq : α → α → Bool) (hrefl : ∀ x, eq x x = true)
    (options : List (List α)) (hne : ∀ o ∈ options, o ≠ [])
    (hd : ∀ o ∈ options, o.Pairwise (fun x y => eq x y = false)) (i : Nat) (c : List α)
    (hi : (cartesian options)[i]? = some c) : find eq options c = .ok i := by
  have := findLoop_get hrefl hne hd i 0 c hi
  simpa [find] using this

/-- C08, converse: for a combination of the right length, `find` succeeds iff every element occurs in its
option, the combination at the returned index is `eq` to the given one elementwise, and otherwise
`find` throws `out_of_range`. -/
theorem C08_find_is_inverse (eq : α → α → Bool) (options : List (List α)) (hne : ∀ o ∈ options, o ≠ [])
    (c : List α) (hl : c.length = options.length) :
    ((∃ i, find eq options c = .ok i) ↔ List.Forall₂ (fun a o => ∃ x ∈ o, eq x a = true) c options) ∧
    (∀ i, find eq options c = .ok i → ∃ d, (cartesian options)[i]? = some d ∧
      List.Forall₂ (fun x a => eq x a = true) d c) ∧
    (¬ List.Forall₂ (fun a o => ∃ x ∈ o, eq x a = true) c options →
      find eq options c = .exc .outOfRange) := by
  obtain ⟨h1, h2, h3⟩ := findLoop_ok (eq := eq) hne c 0 hl
  refine ⟨⟨fun ⟨i, hi⟩ => ?_, h2⟩, fun i hi => ?_, h3⟩
  · by_contra hF
    rw [find, h3 hF] at hi; simp at hi
  · obtain ⟨j, d, e1, e2, e3⟩ := h1 i hi
    have : i = j := by omega
    subst this
    exact ⟨d, e2, e3⟩

/-- Non-vacuity: a successful and a failing `find`. -/
example : find (fun x y : Nat => x == y) [[1, 2], [3, 4, 5]] [2, 4] = .ok 4 ∧
    find (fun x y : Nat => x == y) [[1, 2], [3, 4, 5]] [3, 4] = .exc .outOfRange := by decide

/-- The reverse sequence a user expects of `rbegin()..rend()`. -/
def ReverseCorrect (dflt : α) (options : List (List α)) : Prop :=
  ∃ budget, backward dflt options budget = .ok (cartesian options).reverse

/-- C09, exact behaviour. `rbegin()..rend()` visits the reverse of the Cartesian product in which every
option of size one, other than the first, is replaced by the default element. -/
theorem C09_reverse_exact (dflt : α) (options : List (List α)) (h0 : options ≠ [])
    (hne : ∀ o ∈ options, o ≠ []) (budget : Nat) (hb : (options.map List.length).prod < budget) :
    backward dflt options budget = .ok (cartesian (match options with
      | [] => []
      | o :: os => o :: os.map (fun o => if o.length = 1 then [dflt] else o))).reverse := by
  have hs := size_of_ne_nil h0
  have hp := count_pos hne
  obtain ⟨c, h1, h2⟩ := iter_spec dflt h0 hne 0 hp
  have h2' : iter dflt options 0 = .ok ⟨c, ((0 : Nat) : Int)⟩ := h2
  have he : iter dflt options (size options : Int) = .ok ⟨[], (size options : Int)⟩ := by
    simp [iter, outside_nat]
  rw [hs] at he
  obtain ⟨d, h3, h4⟩ := rbegin_spec dflt h0 hne
  have e1 : (count options : Int) + -1 = ((count options - 1 : Nat) : Int) := by omega
  have e2 : ((0 : Nat) : Int) + -1 = -1 := by simp
  simp only [backward, begin, endIt, h2', hs, he, Res.bind_ok, advance, e1, e2, h4, moveTo_neg]
  rw [traverse_backward dflt h0 (masked_mask dflt options) hne (count options - 1) budget d (by omega)
    (by show count options - 1 + 1 < budget; have : count options < budget := hb; omega) h3]
  have : (cartesian (mask dflt options)).take (count options - 1 + 1) = cartesian (mask dflt options) := by
    rw [List.take_of_length_le]
    rw [length_cartesian, (masked_mask dflt options).count_eq]; omega
  rw [this]
  cases options <;> rfl

/-- C09, what holds: if every option except the first has at least two elements, reverse iteration is
the reverse of forward iteration. Missing: options of size one, for which it is false. -/
theorem C09_reverse_partial (dflt : α) (options : List (List α)) (h0 : options ≠ [])
    (hne : ∀ o ∈ options, o ≠ []) (h2 : ∀ o ∈ options.tail, 2 ≤ o.length) :
    ReverseCorrect dflt options := by
  refine ⟨(options.map List.length).prod + 1, ?_⟩
  rw [C09_reverse_exact dflt options h0 hne _ (by omega)]
  cases options with
  | nil => exact absurd rfl h0
  | cons o os =>
    simp only
    have : os.map (fun o => if o.length = 1 then [dflt] else o) = os := by
      conv_rhs => rw [← List.map_id os]
      apply List.map_congr_left
      intro o' ho'
      have := h2 o' (by simpa using ho')
      rw [if_neg (by omega)]; rfl
    rw [this]

/-- Non-vacuity of the partial theorem. -/
example : backward 0 [[1], [3, 4], [5, 6]] 5 =
    .ok [[1, 4, 6], [1, 4, 5], [1, 3, 6], [1, 3, 5]] := by decide

/-- C09 refuted: with a second option of size one, reverse iteration shows default elements. -/
theorem C09_reverse_refuted :
    ¬ ∀ (options : List (List Nat)), options ≠ [] → (∀ o ∈ options, o ≠ []) → ReverseCorrect 0 options := by
  intro h
  obtain ⟨b, hb⟩ := h [[1, 2], [3]] (by decide) (by decide)
  have key : ∀ b r, backward 0 [[1, 2], [3]] b = .ok r → r = [[2, 0], [1, 0]] := by
    intro b r hr
    rcases b with _ | _ | _ | b
    · have : backward 0 [[1, 2], [3]] 0 = .fuel := by decide
      rw [this] at hr; cases hr
    · have : backward 0 [[1, 2], [3]] (0 + 1) = .fuel := by decide
      rw [this] at hr; cases hr
    · have : backward 0 [[1, 2], [3]] (0 + 1 + 1) = .fuel := by decide
      rw [this] at hr; cases hr
    · have := C09_reverse_exact 0 [[1, 2], [3]] (by decide) (by decide) (b + 3) (by simp)
      rw [this] at hr
      have h' := Res.ok.inj hr
      rw [← h']; decide
  exact absurd (key b _ hb) (by decide)

end Symbolic
