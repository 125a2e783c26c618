import Verif.Props.ReturnedSearch

/-!
# C48, C49: what a depth-first search or A* that returned has found

Nothing is assumed about the nodes: goal tests and expansions may throw or be undefined for some.
-/

namespace Symbolic

variable {N : Type} {sp : Space N} {d : Nat}

/-- Expansions that fail count as empty, goal tests that fail as false. -/
def Space.total (sp : Space N) : Space N :=
  ⟨fun n => .ok (match sp.goal n with | .ok g => g | _ => false), fun n => .ok (match sp.expand n with | .ok l => l | _ => [])⟩

theorem Space.total_child : sp.total.Child = sp.Child := by
  funext n c
  unfold Space.Child Space.total
  cases h : sp.expand n <;> simp [h]

theorem Space.total_goal : sp.total.Goal = sp.Goal := by
  funext n
  unfold Space.Goal Space.total
  cases h : sp.goal n <;> simp [h]

theorem Space.total_first : (fun n c => ∃ cs, sp.total.expand n = .ok (c :: cs)) = fun n c => ∃ cs, sp.expand n = .ok (c :: cs) := by
  funext n c
  unfold Space.total
  cases h : sp.expand n <;> simp [h]

theorem Space.total_total (root : N) : sp.total.Total root (fun n => match sp.goal n with | .ok g => g | _ => false)
    (fun n => match sp.expand n with | .ok l => l | _ => []) := ⟨fun _ _ _ _ => rfl, fun _ _ _ _ => rfl⟩

theorem Dfs.next_total : ∀ (fuel fuel' : Nat) (it it' : Dfs.It N), fuel ≤ fuel' → Dfs.next sp d fuel it = .ok it' →
    Dfs.next sp.total d fuel' it = .ok it'
  | 0, _, _, _, _, h => by simp [Dfs.next] at h
  | fuel + 1, 0, _, _, hf, _ => by omega
  | fuel + 1, fuel' + 1, ⟨stack, cur⟩, it', hf, h => by
    rw [Dfs.next] at h ⊢
    rcases stack with _ | ⟨⟨node, ancestors⟩, stack⟩
    · exact h
    · simp only at h ⊢
      obtain ⟨g, hg, h⟩ := Res.bind_eq_ok.1 h
      have e : sp.total.goal node = .ok g := by simp [Space.total, hg]
      rw [e, Res.bind_ok]
      split at h
      · rename_i hg; rw [if_pos hg]; exact h
      · rename_i hg
        rw [if_neg hg]
        split at h
        · rename_i hl; rw [if_pos hl]; exact Dfs.next_total fuel fuel' _ _ (by omega) h
        · rename_i hl
          rw [if_neg hl]
          obtain ⟨cs, hcs, h⟩ := Res.bind_eq_ok.1 h
          have e : sp.total.expand node = .ok cs := by simp [Space.total, hcs]
          rw [e, Res.bind_ok]
          exact Dfs.next_total fuel fuel' _ _ (by omega) h

theorem Dfs.run_total {fuel fuel' : Nat} {root : N} {l : List (List N)} (hf : fuel ≤ fuel') (h : Dfs.run sp d fuel root = .ok l) :
    Dfs.run sp.total d fuel' root = .ok l := by
  have key : ∀ (steps steps' : Nat) (it : Dfs.It N) (l : List (List N)), steps ≤ steps' → Dfs.collect sp d fuel steps it = .ok l →
      Dfs.collect sp.total d fuel' steps' it = .ok l := by
    intro steps
    induction steps with
    | zero => intro _ _ _ _ h; simp [Dfs.collect] at h
    | succ steps ih =>
      intro steps' it l hs h
      obtain ⟨steps', rfl⟩ : ∃ j, steps' = j + 1 := ⟨steps' - 1, by omega⟩
      rw [Dfs.collect] at h ⊢
      split at h
      · rename_i hc; rw [if_pos hc]; exact h
      · rename_i hc
        rw [if_neg hc]
        obtain ⟨it', h1, h⟩ := Res.bind_eq_ok.1 h
        obtain ⟨rest, h2, h⟩ := Res.bind_eq_ok.1 h
        rw [Dfs.next_total _ _ _ _ hf h1, Res.bind_ok, ih steps' it' rest (by omega) h2, Res.bind_ok]
        exact h
  unfold Dfs.run at h ⊢
  obtain ⟨it, h1, h2⟩ := Res.bind_eq_ok.1 h
  have : Dfs.begin sp.total d fuel' root = .ok it := Dfs.next_total _ _ _ _ hf h1
  rw [this, Res.bind_ok]
  exact key _ _ _ _ hf h2

theorem Astar.next_total {pick : Nat → List (N × List N) → Nat} : ∀ (fuel fuel' : Nat) (it it' : Astar.It N), fuel ≤ fuel' →
    Astar.next sp d pick fuel it = .ok it' → Astar.next sp.total d pick fuel' it = .ok it'
  | 0, _, _, _, _, h => by simp [Astar.next] at h
  | fuel + 1, 0, _, _, hf, _ => by omega
  | fuel + 1, fuel' + 1, it, it', hf, h => by
    rw [Astar.next] at h ⊢
    split at h
    · rename_i hq; rw [if_pos hq]; exact h
    · rename_i hq
      rw [if_neg hq]
      cases hp : Astar.pop pick it.pops it.queue with
      | none => rw [hp] at h; cases h
      | some e =>
        obtain ⟨⟨node, ancestors⟩, queue⟩ := e
        rw [hp] at h
        simp only at h ⊢
        obtain ⟨g, hg, h⟩ := Res.bind_eq_ok.1 h
        have e : sp.total.goal node = .ok g := by simp [Space.total, hg]
        rw [e, Res.bind_ok]
        split at h
        · rename_i hg; rw [if_pos hg]; exact h
        · rename_i hg
          rw [if_neg hg]
          split at h
          · rename_i hl; rw [if_pos hl]; exact Astar.next_total fuel fuel' _ _ (by omega) h
          · rename_i hl
            rw [if_neg hl]
            obtain ⟨cs, hcs, h⟩ := Res.bind_eq_ok.1 h
            have e : sp.total.expand node = .ok cs := by simp [Space.total, hcs]
            rw [e, Res.bind_ok]
            exact Astar.next_total fuel fuel' _ _ (by omega) h

theorem Astar.run_total {pick : Nat → List (N × List N) → Nat} {fuel fuel' : Nat} {root : N} {l : List (List N)} (hf : fuel ≤ fuel')
    (h : Astar.run sp d pick fuel root = .ok l) : Astar.run sp.total d pick fuel' root = .ok l := by
  have key : ∀ (steps steps' : Nat) (it : Astar.It N) (l : List (List N)), steps ≤ steps' →
      Astar.collect sp d pick fuel steps it = .ok l → Astar.collect sp.total d pick fuel' steps' it = .ok l := by
    intro steps
    induction steps with
    | zero => intro _ _ _ _ h; simp [Astar.collect] at h
    | succ steps ih =>
      intro steps' it l hs h
      obtain ⟨steps', rfl⟩ : ∃ j, steps' = j + 1 := ⟨steps' - 1, by omega⟩
      rw [Astar.collect] at h ⊢
      split at h
      · rename_i hc; rw [if_pos hc]; exact h
      · rename_i hc
        rw [if_neg hc]
        obtain ⟨it', h1, h⟩ := Res.bind_eq_ok.1 h
        obtain ⟨rest, h2, h⟩ := Res.bind_eq_ok.1 h
        rw [Astar.next_total _ _ _ _ hf h1, Res.bind_ok, ih steps' it' rest (by omega) h2, Res.bind_ok]
        exact h
  unfold Astar.run at h ⊢
  obtain ⟨it, h1, h2⟩ := Res.bind_eq_ok.1 h
  have : Astar.begin sp.total d pick fuel' root = .ok it := Astar.next_total _ _ _ _ hf h1
  rw [this, Res.bind_ok]
  exact key _ _ _ _ hf h2

/-- **C48, partial.** If a loop over `DepthFirstSearch` returns, whatever goal tests and expansions do elsewhere, it has visited all
plans, except that the plan that always goes to the first child, if there is one, is lost. -/
theorem C48_dfs_returned_partial (sp : Space N) (D : Nat) (root : N) (fuel : Nat) (l : List (List N))
    (h : Dfs.run sp D fuel root = .ok l) :
    ∃ lost : List (List N), (∀ p, p ∈ l ++ lost ↔ PlanPath sp.Child sp.Goal D root p) ∧ lost.length ≤ 1 ∧
      ∀ p, p ∈ lost ↔ PlanPath (fun n c => ∃ cs, sp.expand n = .ok (c :: cs)) sp.Goal D root p := by
  obtain ⟨F, hF⟩ := C48_dfs_complete_partial sp.total D root _ _ (Space.total_total root)
  obtain ⟨l', lost, h1, h2, h3, h4, -⟩ := hF (F + fuel) (by omega)
  rw [Dfs.run_total (by omega) h] at h1
  cases h1
  rw [Space.total_child, Space.total_goal] at h2
  rw [Space.total_first, Space.total_goal] at h4
  exact ⟨lost, h2, h3, h4⟩

/-- **C49, partial.** If a loop over `AStar` returns, whatever goal tests and expansions do elsewhere, it has visited all plans but at
most one. With a comparison that ranks no plan before what leads to it, no plan comes after one of lower priority, and the lost one is
not of higher priority than any plan visited. -/
theorem C49_astar_returned_partial (sp : Space N) (D : Nat) (root : N) (worse : N × List N → N × List N → Bool)
    (pick : Nat → List (N × List N) → Nat) (hpick : PickOk worse pick) (fuel : Nat) (l : List (List N))
    (h : Astar.run sp D pick fuel root = .ok l) :
    ∃ lost : List (List N), lost.length ≤ 1 ∧ (∀ p, p ∈ l ++ lost ↔ PlanPath sp.Child sp.Goal D root p) ∧
      (AdmissibleOrder (PlanPath sp.Child sp.Goal D root) worse → (l ++ lost).Pairwise fun p q => ¬ WorsePlan worse p q) := by
  obtain ⟨F, hF⟩ := C49_astar_complete_partial sp.total D root _ _ (Space.total_total root) worse pick hpick
  obtain ⟨l', lost, h1, h2, h3, -, h5⟩ := hF (F + fuel) (by omega)
  rw [Astar.run_total (by omega) h] at h1
  cases h1
  rw [Space.total_child, Space.total_goal] at h3 h5
  exact ⟨lost, h2, h3, h5⟩

/-- A space whose node 9 cannot be expanded: it is a goal. -/
def patchy2 : Space Nat := ⟨fun n => .ok (n == 6 || n == 9), fun n => if n = 9 then .ub else .ok [2 * n, n + 3, n + 6]⟩

example : Dfs.run patchy2 1 20 3 = .ok [[3, 9], [3, 6]] := by decide +kernel

/-- So every other plan of at most one step is the one through first children. -/
example (p : List Nat) (h : PlanPath patchy2.Child patchy2.Goal 1 3 p) :
    p ∈ [[3, 9], [3, 6]] ∨ PlanPath (fun n c => ∃ cs, patchy2.expand n = .ok (c :: cs)) patchy2.Goal 1 3 p := by
  obtain ⟨lost, h1, -, h3⟩ := C48_dfs_returned_partial patchy2 1 3 20 _ (by decide +kernel : Dfs.run patchy2 1 20 3 = .ok [[3, 9], [3, 6]])
  rcases List.mem_append.1 ((h1 p).2 h) with h | h
  · exact .inl h
  · exact .inr ((h3 p).1 h)

/-- A* with a comparison that prefers nothing: what it has not found is at most one plan. -/
example : ∃ lost : List (List Nat), lost.length ≤ 1 ∧
    ∀ p, p ∈ [[3, 6], [3, 6]] ++ lost ↔ PlanPath patchy2.Child patchy2.Goal 1 3 p := by
  obtain ⟨lost, h1, h2, -⟩ := C49_astar_returned_partial patchy2 1 3 (fun _ _ => false) (fun _ _ => 0)
    ⟨fun _ q hq => List.length_pos_iff.2 hq, fun _ _ _ _ _ _ => rfl⟩ 20 [[3, 6], [3, 6]] (by decide +kernel)
  exact ⟨lost, h1, h2⟩

end Symbolic
