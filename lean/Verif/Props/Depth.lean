import Verif.Props.Search
import Verif.Lemmas.Depth

/-!
# C109: searching deeper
-/

namespace Symbolic

variable {N : Type}

/-- **C109, order.** Breadth-first search finds the plans without steps, then those with one step, and so on, and the plans with
the same number of steps in the order of the children. -/
theorem C109_bfs_order (sp : Space N) (D fuel : Nat) (root : N) (l : List (List N))
    (h : Bfs.run sp D (fun _ _ => false) fuel root = .ok l) : l = (List.range (D + 1)).flatMap fun k => sp.plansAt k root := by
  rw [Bfs.run_level h]
  simp [levelsOf, entryAt]

/-- **C109, breadth-first.** With a larger depth, the same plans are found first, and then only plans that are too long for the
smaller depth. -/
theorem C109_bfs (sp : Space N) (D D' fuel fuel' : Nat) (hD : D ≤ D') (root : N) (l l' : List (List N))
    (h : Bfs.run sp D (fun _ _ => false) fuel root = .ok l) (h' : Bfs.run sp D' (fun _ _ => false) fuel' root = .ok l') :
    ∃ more, l' = l ++ more ∧ ∀ p ∈ more, D + 1 < p.length := by
  rw [C109_bfs_order _ _ _ _ _ h, C109_bfs_order _ _ _ _ _ h']
  obtain ⟨m, rfl⟩ : ∃ m, D' = D + m := ⟨D' - D, by omega⟩
  refine ⟨(List.range m).flatMap fun k => sp.plansAt (D + 1 + k) root, ?_, fun p hp => ?_⟩
  · rw [show D + m + 1 = (D + 1) + m by omega, List.range_add, List.flatMap_append, List.flatMap_map]
  · obtain ⟨k, -, hp⟩ := List.mem_flatMap.1 hp
    rw [plansAt_length hp]
    omega

/-- **C109, breadth-first with a timeout.** Whatever the clock does, the plans found with some depth are the first ones of those
that a search with a larger depth and without timeout finds. -/
theorem C109_bfs_timeout (sp : Space N) (D D' fuel fuel' fuel'' : Nat) (hD : D ≤ D') (hf : fuel ≤ fuel'') (root : N)
    (clock : Nat → Nat → Bool) (l l' l'' : List (List N)) (h : Bfs.run sp D clock fuel root = .ok l)
    (h'' : Bfs.run sp D (fun _ _ => false) fuel'' root = .ok l'')
    (h' : Bfs.run sp D' (fun _ _ => false) fuel' root = .ok l') : l <+: l' := by
  obtain ⟨more, rfl, -⟩ := C109_bfs sp D D' fuel'' fuel' hD root l'' l' h'' h'
  exact (C47_timeout_prefix sp D root clock fuel fuel'' hf l l'' h h'').trans (List.prefix_append _ _)

/-- **C109, depth-first.** With a larger depth, the same plans are found in the same order, with further ones among them. -/
theorem C109_dfs (sp : Space N) (D D' : Nat) (hD : D ≤ D') (root : N) (g : N → Bool) (ch : N → List N) (ht : sp.Total root g ch) :
    ∃ F, ∀ fuel ≥ F, ∃ l l', Dfs.run sp D fuel root = .ok l ∧ Dfs.run sp D' fuel root = .ok l' ∧ l.Sublist l' := by
  refine ⟨treeSize ch g D root + treeSize ch g D' root + 2, fun fuel hf => ?_⟩
  obtain ⟨l, h1, h2⟩ := Dfs.run_spec (D := D) ht (fuel := fuel) (by omega)
  obtain ⟨l', h1', h2'⟩ := Dfs.run_spec (D := D') ht (fuel := fuel) (by omega)
  refine ⟨l, l', h1, h1', ?_⟩
  have hs := plans_deeper (Dfs.revOf ch) g hD root
  rw [← h2, ← h2'] at hs
  have hx := plans_deeper (Dfs.firstOf ch) g hD root
  have hlen := plans_first_length (ch := ch) (g := g) D' root
  generalize hX : plans (Dfs.firstOf ch) g D root = X at *
  generalize hX' : plans (Dfs.firstOf ch) g D' root = X' at *
  rcases X' with _ | ⟨p, _ | _⟩
  · rw [List.sublist_nil.1 hx] at hs
    simpa using hs
  · rcases List.sublist_singleton.1 hx with rfl | rfl
    · -- the plan that is lost with the larger depth is too long for the smaller one
      rw [List.append_nil] at hs h2
      have hp : p ∉ l := by
        intro hp
        have hp1 : p ∈ plans (Dfs.firstOf ch) g D' root := by rw [hX']; simp
        have hp2 : p ∈ plans (Dfs.revOf ch) g D root := by rw [← h2]; exact hp
        have hq := mem_plans.1 hp1
        have hq2 := mem_plans.1 hp2
        have : p ∈ plans (Dfs.firstOf ch) g D root := mem_plans.2 ⟨hq.path, hq.reached, hq.first, hq2.length⟩
        rw [hX] at this
        simp at this
      obtain ⟨a, b, rfl, ha, hb⟩ := List.sublist_append_iff.1 hs
      rcases List.sublist_singleton.1 hb with rfl | rfl
      · simpa using ha
      · simp at hp
    · exact (List.append_sublist_append_right _).1 hs
  · simp at hlen

/-! ## Examples -/

example : (List.range 5).flatMap (fun k => doubling.plansAt k 1) =
    [[1, 2, 5], [1, 3, 7, 15], [1, 3, 6, 12, 25]] := by decide +kernel

example : ∃ l l', Bfs.run doubling 2 (fun _ _ => false) 50 1 = .ok l ∧ Bfs.run doubling 3 (fun _ _ => false) 50 1 = .ok l' ∧
    ∃ more, l' = l ++ more ∧ ∀ p ∈ more, 2 + 1 < p.length := by
  have h : Bfs.run doubling 2 (fun _ _ => false) 50 1 = .ok [[1, 2, 5]] := by decide +kernel
  have h' : Bfs.run doubling 3 (fun _ _ => false) 50 1 = .ok [[1, 2, 5], [1, 3, 7, 15]] := by decide +kernel
  exact ⟨_, _, h, h', C109_bfs doubling 2 3 50 50 (by decide) 1 _ _ h h'⟩

example : ∃ F, ∀ fuel ≥ F, ∃ l l', Dfs.run doubling 2 fuel 1 = .ok l ∧ Dfs.run doubling 4 fuel 1 = .ok l' ∧ l.Sublist l' :=
  C109_dfs doubling 2 4 (by decide) 1 _ _ doubling_total

end Symbolic
