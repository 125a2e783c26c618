import Verif.Props.SearchBuf

/-!
# C45: what a breadth-first search that returned has seen

Unlike in Props/Search.lean nothing is assumed about the nodes: goal tests and expansions may throw or be undefined for some.
-/

namespace Symbolic

variable {N : Type} {sp : Space N} {d : Nat}

/-- `p` goes on from an entry of the queue, through nodes that are no goals. -/
def Bfs.Ahead (sp : Space N) (it : Bfs.It N) (p : List N) : Prop :=
  ∃ n anc q, (n, anc) ∈ it.queue ∧ p = anc ++ q ∧ IsPath sp.Child n q ∧ ∀ m ∈ q.dropLast, ¬ sp.Goal m

/-- The end of `p` was tested, and expanded if it is no goal and the depth allows it. -/
def Bfs.Tested (sp : Space N) (d : Nat) (p : List N) (g : Bool) : Prop :=
  ∃ m, p.getLast? = some m ∧ sp.goal m = .ok g ∧ (g = false → p.length ≤ d → ∃ cs, sp.expand m = .ok cs)

theorem Bfs.next_ahead (late : Nat → Bool) (hlate : ∀ k, late k = false) : ∀ (fuel k : Nat) (it it' : Bfs.It N),
    Bfs.next sp d late fuel k it = .ok it' → ∀ p, Bfs.Ahead sp it p → p.length ≤ d + 1 →
    Bfs.Tested sp d p false ∨ (Bfs.Tested sp d p true ∧ it'.cur = some p) ∨ Bfs.Ahead sp it' p
  | 0, _, _, _, h => by simp [Bfs.next] at h
  | fuel + 1, k, ⟨queue, cur⟩, it', h => by
    rw [Bfs.next] at h
    rcases queue with _ | ⟨⟨node, ancestors⟩, queue⟩
    · rintro p ⟨n, anc, q, hm, -⟩
      simp at hm
    · simp only [hlate, Bool.false_eq_true, if_false] at h
      obtain ⟨g, hg, h⟩ := Res.bind_eq_ok.1 h
      rintro p ⟨n, anc, q, hm, rfl, hq, hno⟩ hlen
      cases g with
      | true =>
        simp only [if_true, Res.pure_eq, Res.ok.injEq] at h
        subst h
        rcases List.mem_cons.1 hm with he | hm
        · cases he
          cases hq with
          | single _ => exact .inr (.inl ⟨⟨node, by simp, hg, by simp⟩, rfl⟩)
          | @cons _ c q _ hq =>
            have : node ∈ (node :: q).dropLast := by
              cases hq <;> simp
            exact absurd hg (hno node this)
        · exact .inr (.inr ⟨n, anc, q, hm, rfl, hq, hno⟩)
      | false =>
        simp only [Bool.false_eq_true, if_false] at h
        split at h
        · rename_i hd
          rcases List.mem_cons.1 hm with he | hm
          · cases he
            cases hq with
            | single _ =>
              refine .inl ⟨node, by simp, hg, fun _ hl => ?_⟩
              simp only [List.length_append, List.length_singleton] at hd hl
              omega
            | @cons _ c q _ hq =>
              have : 0 < q.length := by cases hq <;> simp
              simp only [List.length_append, List.length_cons, List.length_nil] at hd hlen
              omega
          · exact Bfs.next_ahead late hlate fuel _ _ _ h _ ⟨n, anc, q, hm, rfl, hq, hno⟩ hlen
        · obtain ⟨cs, hcs, h⟩ := Res.bind_eq_ok.1 h
          rcases List.mem_cons.1 hm with he | hm
          · cases he
            cases hq with
            | single _ => exact .inl ⟨node, by simp, hg, fun _ _ => ⟨cs, hcs⟩⟩
            | @cons _ c q hc hq =>
              obtain ⟨cs', hcs', hc⟩ := hc
              rw [hcs] at hcs'
              cases hcs'
              refine Bfs.next_ahead late hlate fuel _ _ _ h _ ⟨c, ancestors ++ [node], q, ?_, by simp, hq, fun m hm => hno m ?_⟩ hlen
              · exact List.mem_append.2 (.inr (List.mem_map.2 ⟨c, hc, rfl⟩))
              · cases q with
                | nil => simp at hm
                | cons x q => rw [List.dropLast_cons_cons]; exact List.mem_cons_of_mem _ hm
          · exact Bfs.next_ahead late hlate fuel _ _ _ h _ ⟨n, anc, q, by simp [hm], rfl, hq, hno⟩ hlen

/-- The queue is ordered by depth, and spans at most two levels. -/
structure Bfs.Levels (q : List (N × List N)) : Prop where
  sorted : q.Pairwise fun x y => x.2.length ≤ y.2.length
  near : ∀ x ∈ q, ∀ y ∈ q, y.2.length ≤ x.2.length + 1

theorem Bfs.next_levels (late : Nat → Bool) : ∀ (fuel k : Nat) (it it' : Bfs.It N),
    Bfs.next sp d late fuel k it = .ok it' → Bfs.Levels it.queue → Bfs.Levels it'.queue ∧
      (∀ b, (∀ x ∈ it.queue, b ≤ x.2.length) → ∀ x ∈ it'.queue, b ≤ x.2.length) ∧
      (∀ p, it'.finished = false → it'.cur = some p → (∀ x ∈ it'.queue, p.length ≤ x.2.length + 1) ∧
        ∀ b, (∀ x ∈ it.queue, b ≤ x.2.length) → b + 1 ≤ p.length)
  | 0, _, _, _, h => by simp [Bfs.next] at h
  | fuel + 1, k, ⟨queue, cur⟩, it', h => by
    rw [Bfs.next] at h
    intro hl
    rcases queue with _ | ⟨⟨node, ancestors⟩, queue⟩
    · cases h
      exact ⟨⟨by simp, by simp⟩, by simp, by simp⟩
    · simp only at h
      split at h
      · cases h
        exact ⟨⟨by simp, by simp⟩, by simp, by simp⟩
      · obtain ⟨g, hg, h⟩ := Res.bind_eq_ok.1 h
        simp only at hl
        have hs := List.pairwise_cons.1 hl.sorted
        have hl' : Bfs.Levels queue := ⟨hs.2, fun x hx y hy => hl.near x (by simp [hx]) y (by simp [hy])⟩
        split at h
        · cases h
          refine ⟨hl', fun b hb x hx => hb x (by simp only at hx; simp [hx]), ?_⟩
          rintro p - hp
          cases hp
          refine ⟨fun x hx => ?_, fun b hb => ?_⟩
          · have := hs.1 x hx
            simp only [List.length_append, List.length_singleton] at this ⊢
            omega
          · have := hb _ (List.mem_cons_self ..)
            simp only [List.length_append, List.length_singleton] at this ⊢
            omega
        · split at h
          · obtain ⟨h1, h2, h3⟩ := Bfs.next_levels late fuel _ _ _ h hl'
            exact ⟨h1, fun b hb => h2 b fun x hx => hb x (by simp only at hx; simp [hx]), fun p hp hp' => ⟨(h3 p hp hp').1, fun b hb =>
              (h3 p hp hp').2 b fun x hx => hb x (by simp only at hx; simp [hx])⟩⟩
          · obtain ⟨cs, hcs, h⟩ := Res.bind_eq_ok.1 h
            have hn : ∀ y ∈ cs.map (fun c => (c, ancestors ++ [node])), y.2.length = ancestors.length + 1 := by
              intro y hy
              obtain ⟨c, -, rfl⟩ := List.mem_map.1 hy
              simp
            have hlow : ∀ b, (∀ x ∈ (node, ancestors) :: queue, b ≤ x.2.length) →
                ∀ x ∈ queue ++ cs.map (fun c => (c, ancestors ++ [node])), b ≤ x.2.length := by
              intro b hb x hx
              rcases List.mem_append.1 hx with hx | hx
              · exact hb x (by simp [hx])
              · have := hb (node, ancestors) (by simp)
                rw [hn x hx]
                simp only at this
                omega
            have hq : Bfs.Levels (queue ++ cs.map (fun c => (c, ancestors ++ [node]))) := by
              refine ⟨List.pairwise_append.2 ⟨hs.2, ?_, ?_⟩, ?_⟩
              · exact List.Pairwise.imp_of_mem (fun hx hy _ => by rw [hn _ hx, hn _ hy]) (List.pairwise_of_forall fun _ _ => trivial)
              · intro x hx y hy
                rw [hn y hy]
                exact hl.near (node, ancestors) (by simp) x (by simp [hx])
              · intro x hx y hy
                have hx' := hlow ancestors.length (fun x hx => by
                  rcases List.mem_cons.1 hx with rfl | hx
                  · exact Nat.le_refl _
                  · exact hs.1 x hx) x hx
                rcases List.mem_append.1 hy with hy | hy
                · have := hl.near (node, ancestors) (by simp) y (by simp [hy])
                  simp only at this
                  omega
                · rw [hn y hy]; omega
            obtain ⟨h1, h2, h3⟩ := Bfs.next_levels late fuel _ _ _ h hq
            exact ⟨h1, fun b hb => h2 b (hlow b hb), fun p hp hp' => ⟨(h3 p hp hp').1, fun b hb => (h3 p hp hp').2 b (hlow b hb)⟩⟩

theorem Bfs.collect_sorted (clock : Nat → Nat → Bool) (fuel : Nat) : ∀ (steps i : Nat) (it : Bfs.It N) (l : List (List N)),
    Bfs.collect sp d clock fuel steps i it = .ok l → Bfs.Levels it.queue →
    (∀ p, it.finished = false → it.cur = some p → ∀ x ∈ it.queue, p.length ≤ x.2.length + 1) →
    l.Pairwise (fun p q => p.length ≤ q.length) ∧
      ∀ b, (∀ p, it.finished = false → it.cur = some p → b ≤ p.length) → ∀ p ∈ l, b ≤ p.length
  | 0, _, _, _, h => by simp [Bfs.collect] at h
  | steps + 1, i, it, l, h => by
    rw [Bfs.collect] at h
    intro hl hc
    split at h
    · cases h; simp
    · rename_i hf
      have hf : it.finished = false := by simpa using hf
      cases hcur : it.cur with
      | none => rw [hcur] at h; cases h
      | some path =>
        rw [hcur] at h
        obtain ⟨it', h1, h⟩ := Res.bind_eq_ok.1 h
        obtain ⟨rest, h2, h⟩ := Res.bind_eq_ok.1 h
        cases h
        obtain ⟨h3, h4, h5⟩ := Bfs.next_levels _ _ _ _ _ h1 hl
        obtain ⟨h6, h7⟩ := Bfs.collect_sorted clock fuel steps _ it' rest h2 h3 (fun p hp hp' => (h5 p hp hp').1)
        have hrest : ∀ p ∈ rest, path.length ≤ p.length := h7 _ fun p hp hp' => by
          have := (h5 p hp hp').2 (path.length - 1) fun x hx => by
            have := hc path hf hcur x hx
            omega
          omega
        refine ⟨List.pairwise_cons.2 ⟨hrest, h6⟩, fun b hb p hp => ?_⟩
        have hb := hb path hf rfl
        rcases List.mem_cons.1 hp with rfl | hp
        · exact hb
        · exact Nat.le_trans hb (hrest p hp)

theorem Bfs.collect_ahead (clock : Nat → Nat → Bool) (hclock : ∀ i k, clock i k = false) (fuel : Nat) :
    ∀ (steps i : Nat) (it : Bfs.It N) (l : List (List N)), Bfs.collect sp d clock fuel steps i it = .ok l →
    ∀ p, p.length ≤ d + 1 → (Bfs.Ahead sp it p → Bfs.Tested sp d p false ∨ Bfs.Tested sp d p true ∧ p ∈ l) ∧
      (it.finished = false → it.cur = some p → p ∈ l)
  | 0, _, _, _, h => by simp [Bfs.collect] at h
  | steps + 1, i, it, l, h => by
    rw [Bfs.collect] at h
    intro p hp
    split at h
    · rename_i hf
      refine ⟨?_, fun h => by simp [h] at hf⟩
      rintro ⟨n, anc, q, hm, -⟩
      simp only [Bfs.It.finished] at hf
      simp_all
    · cases hcur : it.cur with
      | none => rw [hcur] at h; cases h
      | some path =>
        rw [hcur] at h
        obtain ⟨it', h1, h⟩ := Res.bind_eq_ok.1 h
        obtain ⟨rest, h2, h⟩ := Res.bind_eq_ok.1 h
        cases h
        have ih := Bfs.collect_ahead clock hclock fuel steps _ it' rest h2 p hp
        refine ⟨fun ha => ?_, fun _ he => by cases he; simp⟩
        rcases Bfs.next_ahead _ (hclock i) _ _ _ _ h1 p ha hp with h | ⟨h, hc⟩ | h
        · exact .inl h
        · refine .inr ⟨h, List.mem_cons_of_mem _ (ih.2 ?_ hc)⟩
          simp [Bfs.It.finished, hc]
        · rcases ih.1 h with h | ⟨h, h'⟩
          · exact .inl h
          · exact .inr ⟨h, List.mem_cons_of_mem _ h'⟩

/-- **C45.** If a breadth-first search returns (whatever goal tests and expansions do elsewhere), its plans are exactly the plans
of at most `max_depth` steps, shorter ones first; and every node on the way, through nodes that are no goals, was tested, and
expanded if it is no goal and the depth allows it. -/
theorem C45_bfs_returned (sp : Space N) (D : Nat) (root : N) (fuel : Nat) (l : List (List N))
    (h : Bfs.run sp D (fun _ _ => false) fuel root = .ok l) :
    (∀ p, p ∈ l ↔ PlanPath sp.Child sp.Goal D root p) ∧ l.Pairwise (fun p q => p.length ≤ q.length) ∧
    ∀ p m, IsPath sp.Child root p → (∀ n ∈ p.dropLast, ¬ sp.Goal n) → p.getLast? = some m → p.length ≤ D + 1 →
      ∃ g, sp.goal m = .ok g ∧ (g = false → p.length ≤ D → ∃ cs, sp.expand m = .ok cs) := by
  have hmem := Bfs.run_mem h
  unfold Bfs.run at h
  obtain ⟨it, h1, h2⟩ := Res.bind_eq_ok.1 h
  have key : ∀ p, IsPath sp.Child root p → (∀ n ∈ p.dropLast, ¬ sp.Goal n) → p.length ≤ D + 1 →
      Bfs.Tested sp D p false ∨ Bfs.Tested sp D p true ∧ p ∈ l := by
    intro p hp hno hlen
    have ih := Bfs.collect_ahead _ (fun _ _ => rfl) fuel fuel 1 it l h2 p hlen
    rcases Bfs.next_ahead _ (fun _ => rfl) _ _ _ _ h1 p ⟨root, [], p, by simp [Bfs.start], rfl, hp, hno⟩ hlen with h | ⟨h, hc⟩ | h
    · exact .inl h
    · exact .inr ⟨h, ih.2 (by simp [Bfs.It.finished, hc]) hc⟩
    · exact ih.1 h
  refine ⟨fun p => ⟨hmem p, fun hp => ?_⟩, ?_, fun p m hp hno hm hlen => ?_⟩
  · obtain ⟨n, hn, hg⟩ := hp.reached
    rcases key p hp.path hp.first hp.length with ⟨m, h3, h4, -⟩ | ⟨-, h3⟩
    · rw [hn] at h3
      cases h3
      rw [show sp.goal n = .ok true from hg] at h4
      cases h4
    · exact h3
  · obtain ⟨h3, -, h5⟩ := Bfs.next_levels _ _ _ _ _ h1 (by
      refine ⟨by simp [Bfs.start], ?_⟩
      simp [Bfs.start])
    exact (Bfs.collect_sorted _ fuel fuel 1 it l h2 h3 (fun p hp hp' => (h5 p hp hp').1)).1
  · rcases key p hp hno hlen with ⟨m', h3, h4, h5⟩ | ⟨⟨m', h3, h4, h5⟩, -⟩ <;> rw [hm] at h3 <;> cases h3
    · exact ⟨_, h4, h5⟩
    · exact ⟨_, h4, h5⟩

/-- A space whose node 9 cannot be expanded; a search for plans of two steps does not get there. -/
def patchy : Space Nat := ⟨fun n => .ok (n == 6), fun n => if n = 9 then .ub else .ok [2 * n, n + 3]⟩

example : Bfs.run patchy 2 (fun _ _ => false) 20 3 = .ok [[3, 6], [3, 6]] := by decide +kernel
example : patchy.expand 9 = .ub := rfl

/-- So `[3, 6]` is its only plan of at most two steps. -/
example (p : List Nat) (h : PlanPath patchy.Child patchy.Goal 2 3 p) : p = [3, 6] := by
  have := ((C45_bfs_returned patchy 2 3 20 [[3, 6], [3, 6]] (by decide +kernel)).1 p).2 h
  simpa using this

end Symbolic
