import Verif.Spec.Depth
import Verif.Lemmas.Search

/-!
# Breadth-first search goes level by level
-/

namespace Symbolic

variable {N : Type} {sp : Space N} {D : Nat}

/-- The plans through an entry of the queue with `k` further steps. -/
def entryAt (sp : Space N) (k : Nat) (e : N × List N) : List (List N) := (sp.plansAt k e.1).map (e.2 ++ ·)

/-- The plans through the entries of a level with up to `m` further steps, level by level. -/
def levelsOf (sp : Space N) (m : Nat) (q : List (N × List N)) : List (List N) :=
  (List.range m).flatMap fun k => q.flatMap (entryAt sp k)

/-- What an entry adds to the queue, if it is expanded. -/
def kidsOf (sp : Space N) (e : N × List N) : List (N × List N) :=
  match sp.goal e.1, sp.expand e.1 with
  | .ok false, .ok children => children.map fun c => (c, e.2 ++ [e.1])
  | _, _ => []

theorem entryAt_succ (k : Nat) (e : N × List N) : entryAt sp (k + 1) e = (kidsOf sp e).flatMap (entryAt sp k) := by
  have h1 : sp.plansAt (k + 1) e.1 = match sp.goal e.1, sp.expand e.1 with
    | .ok false, .ok children => children.flatMap fun c => (sp.plansAt k c).map (e.1 :: ·)
    | _, _ => [] := rfl
  unfold entryAt kidsOf
  rw [h1]
  split
  · rename_i children hg hx
    simp only [List.map_flatMap, List.flatMap_map, List.map_map]
    have : ∀ c, List.map ((fun x => e.2 ++ x) ∘ fun x => e.1 :: x) (sp.plansAt k c) =
        List.map (fun x => e.2 ++ [e.1] ++ x) (sp.plansAt k c) := fun c => List.map_congr_left fun p _ => by simp
    simp only [this]
  · rfl

/-- The plans to come: the rest of the current level, then the further levels. -/
def toCome (sp : Space N) (m : Nat) (A B : List (N × List N)) : List (List N) :=
  A.flatMap (entryAt sp 0) ++ levelsOf sp (m - 1) (B ++ A.flatMap (kidsOf sp))

theorem toCome_start (m : Nat) (q : List (N × List N)) : toCome sp (m + 1) q [] = levelsOf sp (m + 1) q := by
  unfold toCome levelsOf
  rw [List.range_succ_eq_map]
  simp only [List.flatMap_cons, List.flatMap_map, Nat.add_sub_cancel, List.nil_append]
  congr 2
  funext k
  rw [List.flatMap_assoc]
  congr 1
  funext e
  exact (entryAt_succ k e).symm

theorem toCome_level (m : Nat) (B : List (N × List N)) : toCome sp (m + 2) [] B = toCome sp (m + 1) B [] := by
  rw [toCome_start]
  simp [toCome]

/-- The queue holds the rest of a level of paths with `d` ancestors, and a part of the next level. -/
structure Level (D : Nat) (A B : List (N × List N)) (d : Nat) : Prop where
  now : ∀ e ∈ A, e.2.length = d
  later : ∀ e ∈ B, e.2.length = d + 1
  bound : d ≤ D
  last : B ≠ [] → d + 1 ≤ D

theorem Bfs.next_level : ∀ (fuel k : Nat) (cur : Option (List N)) (A B : List (N × List N)) (d : Nat) (it' : Bfs.It N),
    Level D A B d → Bfs.next sp D (fun _ => false) fuel k ⟨A ++ B, cur⟩ = .ok it' →
      (it' = ⟨[], none⟩ ∧ toCome sp (D + 1 - d) A B = []) ∨
      ∃ p A' B' d', it' = ⟨A' ++ B', some p⟩ ∧ Level D A' B' d' ∧
        toCome sp (D + 1 - d) A B = p :: toCome sp (D + 1 - d') A' B' := by
  intro fuel
  induction fuel with
  | zero => intro k cur A B d it' _ h; simp [Bfs.next] at h
  | succ fuel ih =>
    -- the current level is not empty
    have main : ∀ (k : Nat) (cur : Option (List N)) (e : N × List N) (A B : List (N × List N)) (d : Nat) (it' : Bfs.It N),
        Level D (e :: A) B d → Bfs.next sp D (fun _ => false) (fuel + 1) k ⟨(e :: A) ++ B, cur⟩ = .ok it' →
          (it' = ⟨[], none⟩ ∧ toCome sp (D + 1 - d) (e :: A) B = []) ∨
          ∃ p A' B' d', it' = ⟨A' ++ B', some p⟩ ∧ Level D A' B' d' ∧
            toCome sp (D + 1 - d) (e :: A) B = p :: toCome sp (D + 1 - d') A' B' := by
      rintro k cur ⟨n, anc⟩ A B d it' hl h
      have hd : anc.length = d := hl.now (n, anc) (by simp)
      have hA : Level D A B d := ⟨fun e he => hl.now e (by simp [he]), hl.later, hl.bound, hl.last⟩
      unfold Bfs.next at h
      simp only [List.cons_append, Bool.false_eq_true, if_false] at h
      obtain ⟨gv, hg, h⟩ := Res.bind_eq_ok.1 h
      cases gv with
      | true =>
        simp only [if_true, Res.pure_eq, Res.ok.injEq] at h
        refine .inr ⟨anc ++ [n], A, B, d, h.symm, hA, ?_⟩
        have h0 : entryAt sp 0 (n, anc) = [anc ++ [n]] := by simp [entryAt, Space.plansAt, hg]
        have h1 : kidsOf sp (n, anc) = [] := by simp [kidsOf, hg]
        simp [toCome, h0, h1]
      | false =>
        have h0 : entryAt sp 0 (n, anc) = [] := by simp [entryAt, Space.plansAt, hg]
        simp only [Bool.false_eq_true, if_false] at h
        split at h
        · rename_i hdeep
          simp only [List.length_append, List.length_cons, List.length_nil] at hdeep
          have e : toCome sp (D + 1 - d) ((n, anc) :: A) B = toCome sp (D + 1 - d) A B := by
            have : D + 1 - d - 1 = 0 := by omega
            simp [toCome, h0, this, levelsOf]
          rw [e]
          exact ih _ _ _ _ _ _ hA h
        · rename_i hdeep
          simp only [List.length_append, List.length_cons, List.length_nil] at hdeep
          obtain ⟨cs, hx, h⟩ := Res.bind_eq_ok.1 h
          have h1 : kidsOf sp (n, anc) = cs.map fun c => (c, anc ++ [n]) := by simp [kidsOf, hg, hx]
          have e : toCome sp (D + 1 - d) ((n, anc) :: A) B =
              A.flatMap (entryAt sp 0) ++ levelsOf sp (D + 1 - d - 1) (B ++ (kidsOf sp (n, anc) ++ A.flatMap (kidsOf sp))) := by
            simp [toCome, h0]
          rw [e, h1]
          have hA' : Level D A (B ++ cs.map fun c => (c, anc ++ [n])) d := by
            refine ⟨hA.now, fun e he => ?_, hA.bound, fun _ => by omega⟩
            rcases List.mem_append.1 he with he | he
            · exact hl.later e he
            · obtain ⟨c, -, rfl⟩ := List.mem_map.1 he
              simp [hd]
          have := ih _ _ _ _ _ it' hA' (by rw [List.append_assoc] at h; exact h)
          simpa only [toCome, List.append_assoc] using this
    intro k cur A B d it' hl h
    cases A with
    | cons e A => exact main k cur e A B d it' hl h
    | nil =>
      cases B with
      | nil =>
        simp only [Bfs.next, List.append_nil, Res.ok.injEq] at h
        exact .inl ⟨h.symm, by simp [toCome, levelsOf]⟩
      | cons e B =>
        have hb := hl.last (by simp)
        obtain ⟨m, hm⟩ : ∃ m, D = d + 1 + m := ⟨D - d - 1, by omega⟩
        have e1 : D + 1 - d = m + 2 := by omega
        have e2 : D + 1 - (d + 1) = m + 1 := by omega
        have := main k cur e B [] (d + 1) it' ⟨hl.later, by simp, hb, by simp⟩ (by simpa using h)
        rw [e2] at this
        rw [e1, toCome_level]
        exact this

theorem Bfs.collect_level {fuel : Nat} : ∀ (steps i : Nat) (p : List N) (A B : List (N × List N)) (d : Nat) (l : List (List N)),
    Level D A B d → Bfs.collect sp D (fun _ _ => false) fuel steps i ⟨A ++ B, some p⟩ = .ok l →
      l = p :: toCome sp (D + 1 - d) A B := by
  intro steps
  induction steps with
  | zero => intro i p A B d l _ h; simp [Bfs.collect] at h
  | succ steps ih =>
    intro i p A B d l hl h
    simp only [Bfs.collect, Bfs.It.finished, Option.isNone_some, Bool.and_false, Bool.false_eq_true, if_false] at h
    obtain ⟨it', h1, h⟩ := Res.bind_eq_ok.1 h
    obtain ⟨rest, h2, h⟩ := Res.bind_eq_ok.1 h
    simp only [Res.pure_eq, Res.ok.injEq] at h
    subst h
    rcases Bfs.next_level _ _ _ _ _ _ _ hl h1 with ⟨rfl, e⟩ | ⟨p', A', B', d', rfl, hl', e⟩
    · rw [e]
      cases steps with
      | zero => simp [Bfs.collect] at h2
      | succ s =>
        simp only [Bfs.collect, Bfs.It.finished, List.isEmpty_nil, Option.isNone_none, Bool.and_self, if_true, Res.ok.injEq] at h2
        rw [← h2]
    · rw [e, ih _ _ _ _ _ _ hl' h2]

theorem Bfs.run_level {fuel : Nat} {root : N} {l : List (List N)} (h : Bfs.run sp D (fun _ _ => false) fuel root = .ok l) :
    l = levelsOf sp (D + 1) [(root, [])] := by
  unfold Bfs.run Bfs.begin Bfs.start at h
  obtain ⟨it, h1, h⟩ := Res.bind_eq_ok.1 h
  have hl : Level D [(root, ([] : List N))] [] 0 := ⟨by simp, by simp, by omega, by simp⟩
  rw [← toCome_start]
  rcases Bfs.next_level fuel 0 none [(root, [])] [] 0 it hl h1 with ⟨rfl, e⟩ | ⟨p, A, B, d, rfl, hl', e⟩
  · rw [Nat.sub_zero] at e
    rw [e]
    cases fuel with
    | zero => simp [Bfs.collect] at h
    | succ s =>
      simp only [Bfs.collect, Bfs.It.finished, List.isEmpty_nil, Option.isNone_none, Bool.and_self, if_true, Res.ok.injEq] at h
      exact h.symm
  · rw [Nat.sub_zero] at e
    rw [e]
    exact Bfs.collect_level _ _ _ _ _ _ _ hl' h

theorem plansAt_length {k : Nat} {n : N} {p : List N} (h : p ∈ sp.plansAt k n) : p.length = k + 1 := by
  induction k generalizing n p with
  | zero =>
    unfold Space.plansAt at h
    split at h
    · simp at h; subst h; rfl
    · simp at h
  | succ k ih =>
    unfold Space.plansAt at h
    split at h
    · obtain ⟨c, -, h⟩ := List.mem_flatMap.1 h
      obtain ⟨q, hq, rfl⟩ := List.mem_map.1 h
      simp [ih hq]
    · simp at h

/-! ## Depth-first search -/

theorem plans_deeper (ch : N → List N) (g : N → Bool) {D D' : Nat} (h : D ≤ D') (n : N) :
    (plans ch g D n).Sublist (plans ch g D' n) := by
  induction D generalizing n D' with
  | zero =>
    cases hg : g n <;> cases D' <;> simp [plans, hg]
  | succ D ih =>
    obtain ⟨d, rfl⟩ : ∃ d, D' = d + 1 := ⟨D' - 1, by omega⟩
    unfold plans
    cases g n with
    | true => simp
    | false =>
      simp only [Bool.false_eq_true, if_false]
      generalize ch n = cs
      induction cs with
      | nil => simp
      | cons c cs ihc =>
        simp only [List.flatMap_cons]
        exact ((ih (by omega) c).map _).append ihc

end Symbolic
