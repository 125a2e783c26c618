import Verif.Lemmas.SearchStar
import Verif.Props.Planner
import Verif.Props.Axioms

/-!
# C44-C49: the searches
-/

namespace Symbolic

variable {N : Type}

/-! ## C44 -/

theorem start_sound (sp : Space N) (D : Nat) (root : N) : ∀ e ∈ [(root, ([] : List N))], EntrySound sp D root e := by
  intro e he
  simp only [List.mem_singleton] at he
  subst he
  exact ⟨by simpa using IsPath.single root, by simp, by simp⟩

/-- **C44.** Whatever the nodes and the clock do, every sequence an iterator of `BreadthFirstSearch` points at is a path
from the root of at most `max_depth` steps whose last node is its first to satisfy the goal. -/
theorem C44_bfs_sound (sp : Space N) (D : Nat) (root : N) (it : Bfs.It N) (h : Bfs.Reached sp D root it) (p : List N)
    (hp : it.cur = some p) : PlanPath sp.Child sp.Goal D root p := by
  have : (∀ e ∈ it.queue, EntrySound sp D root e) ∧ ∀ p, it.cur = some p → PlanPath sp.Child sp.Goal D root p := by
    clear hp
    induction h with
    | begin h => exact Bfs.next_sound _ _ _ _ (start_sound sp D root) h
    | next _ h ih => exact Bfs.next_sound _ _ _ _ ih.1 h
  exact this.2 p hp

/-- **C44.** An iterator that is not at the end points at a sequence. -/
theorem C44_bfs_dereferenceable (sp : Space N) (D : Nat) (root : N) (it : Bfs.It N) (h : Bfs.Reached sp D root it)
    (he : it.finished = false) : ∃ p, it.cur = some p := by
  have key : ∀ late fuel k (it it' : Bfs.It N), Bfs.next sp D late fuel k it = .ok it' →
      it'.cur = none → it'.queue = [] := by
    intro late fuel
    induction fuel with
    | zero => intro k it it' h; simp [Bfs.next] at h
    | succ fuel ih =>
      rintro k ⟨queue, cur⟩ it' h hc
      unfold Bfs.next at h
      cases queue with
      | nil => simp only [Res.ok.injEq] at h; subst h; rfl
      | cons e q =>
        obtain ⟨n, anc⟩ := e
        simp only at h
        split at h
        · simp only [Res.ok.injEq] at h; subst h; rfl
        · obtain ⟨gv, hg, h⟩ := Res.bind_eq_ok.1 h
          cases gv with
          | true => simp only [if_true, Res.pure_eq, Res.ok.injEq] at h; subst h; simp at hc
          | false =>
            simp only [Bool.false_eq_true, if_false] at h
            split at h
            · exact ih _ _ _ h hc
            · obtain ⟨cs, hx, h⟩ := Res.bind_eq_ok.1 h
              exact ih _ _ _ h hc
  have hq : it.cur = none → it.queue = [] := by
    cases h with
    | begin h => exact key _ _ _ _ _ h
    | next _ h => exact key _ _ _ _ _ h
  cases hc : it.cur with
  | some p => exact ⟨p, rfl⟩
  | none => simp [Bfs.It.finished, hc, hq hc] at he

theorem Offspring.of_mem [StrHash] {α : Type} {valid invalid : α → Prop} {step : α → State → Prop} {seen : State → Prop}
    {as : List α} {cs : List (α × State)} (h : Offspring valid invalid step seen as cs) :
    ∀ c ∈ cs, valid c.1 ∧ step c.1 c.2 := by
  induction h with
  | nil => simp
  | skip _ _ ih => exact ih
  | repeated _ _ _ _ ih => exact ih
  | child h1 h2 _ _ ih =>
    intro c hc
    rcases List.mem_cons.1 hc with rfl | hc
    · exact ⟨h1, h2⟩
    · exact ih c hc

section
variable [StrHash] (t : Ptree) (b : Bool) (k : Nat) (P : Pddl) (hP : Pddl.make t b k = .ok P)
  (hnd : ((t.constants ++ t.objects).map Obj.name).Nodup) (hops : Callable t)
  (hclean : ∀ o ∈ t.constants ++ t.objects, CleanArg o.name)
include hP hnd hops hclean

/-- A child of a planner node is reached by its action. -/
theorem child_step {fuel : Nat} {n c : PNode} (h : (P.space fuel).Child n c) :
    P.isValidAction n.state c.action = .ok true ∧ P.nextState fuel n.state c.action = .ok c.state := by
  obtain ⟨l, hl, hc⟩ := h
  have hl : P.children fuel n = .ok l := hl
  have hact : P.actions ≠ [] := by
    intro he; rw [C43_no_actions_refuted P he] at hl; cases hl
  obtain ⟨cs, anc, h1, -, rfl⟩ := C43_children t b k P hP hnd hops hclean fuel n l hact hl
  obtain ⟨x, hx, rfl⟩ := List.mem_map.1 hc
  exact h1.of_mem x hx

/-- The action strings along a path to a goal node are a plan from the state of its first node. -/
theorem path_achieves {fuel : Nat} {root : PNode} {p : List PNode} (hp : IsPath (P.space fuel).Child root p)
    (hg : ∃ n, p.getLast? = some n ∧ (P.space fuel).Goal n) :
    Achieves (fun s a => P.isValidAction s a = .ok true) (fun s a s' => P.nextState fuel s a = .ok s')
      (fun s => P.isGoalSatisfied s = .ok true) root.state (p.tail.map PNode.action) := by
  induction hp with
  | single r =>
    obtain ⟨n, hn, hg⟩ := hg
    simp at hn; subst hn
    exact .done hg
  | @cons r c p hc hp ih =>
    obtain ⟨h1, h2⟩ := child_step t b k P hP hnd hops hclean hc
    have hh := hp.head
    cases p with
    | nil => simp at hh
    | cons x xs =>
      simp only [List.head?_cons, Option.some.injEq] at hh
      subst hh
      refine .step h1 h2 (ih ?_)
      obtain ⟨n, hn, hg⟩ := hg
      exact ⟨n, by simpa using hn, hg⟩

/-- **C44.** For a planner whose root is `initial_state()`, the actions of every sequence found by any of the searches form
a plan that `IsValidPlan` accepts. -/
theorem C44_planner_plans_valid (fuel D : Nat) (root : PNode) (hroot : root.state = P.initial) (p : List PNode)
    (h : PlanPath (P.space fuel).Child (P.space fuel).Goal D root p) :
    P.isValidPlan fuel (p.tail.map PNode.action) = .ok true := by
  have := path_achieves t b k P hP hnd hops hclean h.path h.reached
  rw [hroot] at this
  exact (C36_valid_plan P fuel _).2 this

end

/-- **C44.** The root of a planner is `initial_state()` iff that state satisfies the axioms. -/
theorem C44_root [StrHash] (P : Pddl) (fuel : Nat) (root : PNode) (h : P.plannerRoot fuel P.initial = .ok root) :
    root.depth = 0 ∧ root.anc = [] ∧ (root.state = P.initial ↔ P.isValidState fuel P.initial = .ok true) := by
  unfold Pddl.plannerRoot at h
  simp only [Res.bind_eq_ok, Res.pure_eq, Res.ok.injEq] at h
  obtain ⟨s', h1, rfl⟩ := h
  refine ⟨rfl, rfl, ?_⟩
  have hv := (C31_consistent_state_is_valid P fuel _ _ h1 fuel (Nat.le_refl _)).1
  constructor
  · intro he
    have he : s' = P.initial := he
    rw [he] at hv; exact hv
  · intro hv'
    cases fuel with
    | zero => simp [Pddl.consistentState, Pddl.consistentFix] at h1
    | succ j =>
      have h2 : P.consistentState (j + 1) P.initial = .ok P.initial := consistentFix_quiet ((validLoop_iff _).1 hv')
      rw [h1] at h2
      exact Res.ok.inj h2

/-! ## C45 -/

/-- **C45.** In a space where testing and expanding nodes returns, a loop over `BreadthFirstSearch` visits exactly the
plans of at most `max_depth` steps, shorter ones first, and each once if no node lists a child twice. -/
theorem C45_bfs_complete (sp : Space N) (D : Nat) (root : N) (g : N → Bool) (ch : N → List N)
    (ht : sp.Total root g ch) : ∃ F, ∀ fuel ≥ F, ∃ l, Bfs.run sp D (fun _ _ => false) fuel root = .ok l ∧
      (∀ p, p ∈ l ↔ PlanPath sp.Child sp.Goal D root p) ∧ l.Pairwise (fun p q => p.length ≤ q.length) ∧
      ((∀ n, (ch n).Nodup) → l.Nodup) := by
  refine ⟨treeSize ch g D root + 2, fun fuel hf => ?_⟩
  obtain ⟨l, h1, h2, h3⟩ := Bfs.run_spec (D := D) ht (clock := fun _ _ => false) (fun _ _ => rfl) (fuel := fuel) (by omega)
  exact ⟨l, h1, fun p => h2.mem_iff.trans ht.mem_plans, h3, fun hch => h2.nodup_iff.2 (plans_nodup hch D root)⟩

/-- **C45.** If there is a plan, the first sequence found is a shortest one. -/
theorem C45_bfs_first_shortest (sp : Space N) (D : Nat) (root : N) (g : N → Bool) (ch : N → List N)
    (ht : sp.Total root g ch) (p : List N) (hp : PlanPath sp.Child sp.Goal D root p) :
    ∃ F, ∀ fuel ≥ F, ∃ q l, Bfs.run sp D (fun _ _ => false) fuel root = .ok (q :: l) ∧ q.length ≤ p.length := by
  obtain ⟨F, hF⟩ := C45_bfs_complete sp D root g ch ht
  refine ⟨F, fun fuel hf => ?_⟩
  obtain ⟨l, h1, h2, h3, -⟩ := hF fuel hf
  have hm := (h2 p).2 hp
  cases l with
  | nil => simp at hm
  | cons q l =>
    refine ⟨q, l, h1, ?_⟩
    rcases List.mem_cons.1 hm with rfl | hm
    · exact Nat.le_refl _
    · exact (List.pairwise_cons.1 h3).1 p hm

/-! ## C46 -/

/-- **C46.** The loop ends, whatever the clock does. -/
theorem C46_bfs_terminates (sp : Space N) (D : Nat) (root : N) (g : N → Bool) (ch : N → List N)
    (ht : sp.Total root g ch) (clock : Nat → Nat → Bool) :
    ∃ F, ∀ fuel ≥ F, ∃ l, Bfs.run sp D clock fuel root = .ok l := by
  obtain ⟨F, hF⟩ := C45_bfs_complete sp D root g ch ht
  refine ⟨F, fun fuel hf => ?_⟩
  obtain ⟨l, h1, -⟩ := hF fuel hf
  exact Bfs.run_late_ok h1

/-- **C46.** An iterator at the end stays there. -/
theorem C46_bfs_end_stays (sp : Space N) (D : Nat) (late : Nat → Bool) (fuel k : Nat) (it : Bfs.It N)
    (h : it.finished = true) : Bfs.next sp D late (fuel + 1) k it = .ok it := by
  obtain ⟨queue, cur⟩ := it
  simp only [Bfs.It.finished, Bool.and_eq_true, List.isEmpty_iff, Option.isNone_iff_eq_none] at h
  obtain ⟨rfl, rfl⟩ := h
  rfl

/-! ## C47 -/

/-- **C47.** The plans found under any clock are a prefix of those found without a timeout. -/
theorem C47_timeout_prefix (sp : Space N) (D : Nat) (root : N) (clock : Nat → Nat → Bool) (fuel fuel' : Nat)
    (hf : fuel ≤ fuel') (l l' : List (List N)) (h : Bfs.run sp D clock fuel root = .ok l)
    (h' : Bfs.run sp D (fun _ _ => false) fuel' root = .ok l') : l <+: l' := by
  unfold Bfs.run Bfs.begin at h h'
  obtain ⟨it1, h1, h⟩ := Res.bind_eq_ok.1 h
  obtain ⟨it2, h2, h'⟩ := Res.bind_eq_ok.1 h'
  rcases Bfs.next_late _ _ _ _ h1 with rfl | h1'
  · cases fuel with
    | zero => simp [Bfs.collect] at h
    | succ s =>
      simp only [Bfs.collect, Bfs.It.finished, List.isEmpty_nil, Option.isNone_none, Bool.and_self, if_true,
        Res.ok.injEq] at h
      subst h; exact List.nil_prefix
  · have := Bfs.next_mono _ fuel' _ 0 _ _ hf h1'
    rw [this] at h2
    cases h2
    exact Bfs.collect_late hf _ _ _ _ _ _ _ h h'

/-! ## C48 -/

/-- **C48.** Every sequence an iterator of `DepthFirstSearch` points at before the end is a plan. -/
theorem C48_dfs_sound (sp : Space N) (D : Nat) (root : N) (it : Dfs.It N) (h : Dfs.Reached sp D root it)
    (he : it.finished = false) : PlanPath sp.Child sp.Goal D root it.cur := by
  have : (∀ e ∈ it.stack, EntrySound sp D root e) ∧ (it.stack ≠ [] → PlanPath sp.Child sp.Goal D root it.cur) := by
    clear he
    induction h with
    | begin h => exact Dfs.next_sound _ _ _ (start_sound sp D root) h
    | next _ h ih => exact Dfs.next_sound _ _ _ ih.1 h
  refine this.2 ?_
  intro hs
  simp [Dfs.It.finished, hs] at he

theorem first_total {sp : Space N} {root : N} {g : N → Bool} {ch : N → List N} (ht : sp.Total root g ch) {D : Nat}
    {p : List N} :
    p ∈ plans (Dfs.firstOf ch) g D root ↔
      PlanPath (fun n c => ∃ l, sp.expand n = .ok (c :: l)) sp.Goal D root p := by
  have hsub : ∀ {r p}, IsPath (fun n c => ∃ l, sp.expand n = .ok (c :: l)) r p → IsPath sp.Child r p := by
    intro r p h
    induction h with
    | single r => exact .single r
    | cons hc _ ih =>
      obtain ⟨l, hl⟩ := hc
      exact .cons ⟨_, hl, by simp⟩ ih
  have hsub' : ∀ {r p}, IsPath (fun n c => c ∈ Dfs.firstOf ch n) r p → IsPath (fun n c => c ∈ ch n) r p := by
    intro r p h
    induction h with
    | single r => exact .single r
    | @cons r c p hc _ ih =>
      refine .cons ?_ ih
      unfold Dfs.firstOf at hc
      cases hl : ch r with
      | nil => simp [hl] at hc
      | cons x xs => simp [hl] at hc; subst hc; simp
  have hgoal : ∀ {p : List N}, IsPath sp.Child root p → ∀ n ∈ p, (sp.Goal n ↔ g n = true) := by
    intro p hp n hn
    obtain ⟨q, hq, hl⟩ := hp.prefix n hn
    unfold Space.Goal
    rw [ht.goal n q hq hl]
    simp
  have hpath : ∀ {p : List N}, IsPath (fun n c => c ∈ Dfs.firstOf ch n) root p ↔
      IsPath (fun n c => ∃ l, sp.expand n = .ok (c :: l)) root p := by
    have key : ∀ r p, ∀ q, IsPath sp.Child root q → q.getLast? = some r →
        (IsPath (fun n c => c ∈ Dfs.firstOf ch n) r p ↔ IsPath (fun n c => ∃ l, sp.expand n = .ok (c :: l)) r p) := by
      intro r p q hq hl
      constructor
      · intro h
        induction h generalizing q with
        | single r => exact .single r
        | @cons r c p hc _ ih =>
          have hx := ht.expand _ _ hq hl
          have hc' : ∃ l, sp.expand r = .ok (c :: l) := by
            unfold Dfs.firstOf at hc
            cases hch : ch r with
            | nil => simp [hch] at hc
            | cons x xs => simp [hch] at hc; subst hc; exact ⟨xs, by rw [hx, hch]⟩
          obtain ⟨l, hl'⟩ := hc'
          exact .cons ⟨l, hl'⟩ (ih (q ++ [c]) (hq.snoc hl ⟨_, hl', by simp⟩) (by simp))
      · intro h
        induction h generalizing q with
        | single r => exact .single r
        | @cons r c p hc _ ih =>
          have hx := ht.expand _ _ hq hl
          obtain ⟨l, hl'⟩ := hc
          have hch : ch r = c :: l := by rw [hx] at hl'; exact Res.ok.inj hl'
          exact .cons (by simp [Dfs.firstOf, hch]) (ih (q ++ [c]) (hq.snoc hl ⟨_, hl', by simp⟩) (by simp))
    intro p
    exact key root p [root] (.single root) rfl
  rw [mem_plans]
  constructor
  · rintro ⟨hp, ⟨n, hn, hg⟩, hf, hl⟩
    have hp' := hpath.1 hp
    have hc := hsub hp'
    refine ⟨hp', ⟨n, hn, (hgoal hc n (List.mem_of_getLast? hn)).2 hg⟩, fun m hm hgm => ?_, hl⟩
    exact hf m hm ((hgoal hc m (List.dropLast_subset _ hm)).1 hgm)
  · rintro ⟨hp', ⟨n, hn, hg⟩, hf, hl⟩
    have hc := hsub hp'
    refine ⟨hpath.2 hp', ⟨n, hn, (hgoal hc n (List.mem_of_getLast? hn)).1 hg⟩, fun m hm hgm => ?_, hl⟩
    exact hf m hm ((hgoal hc m (List.dropLast_subset _ hm)).2 hgm)

theorem plans_rev_mem {ch : N → List N} {g : N → Bool} {D : Nat} {r : N} {p : List N} :
    p ∈ plans (Dfs.revOf ch) g D r ↔ p ∈ plans ch g D r := by
  rw [mem_plans, mem_plans]
  have : (fun n c => c ∈ Dfs.revOf ch n) = fun n c => c ∈ ch n := by
    funext n c; simp [Dfs.revOf]
  rw [this]

theorem plans_first_length {ch : N → List N} {g : N → Bool} (D : Nat) (r : N) :
    (plans (Dfs.firstOf ch) g D r).length ≤ 1 := by
  induction D generalizing r with
  | zero => unfold plans; split <;> simp
  | succ d ih =>
    unfold plans
    split
    · simp
    · rw [show Dfs.firstOf ch r = (ch r).head?.toList from rfl]
      cases ch r with
      | nil => simp
      | cons c cs =>
        have := ih c
        have he : (c :: cs).head?.toList = [c] := rfl
        rw [he, List.flatMap_singleton, List.length_map]
        exact this

/-- **C48, partial.** A loop over `DepthFirstSearch` visits all plans, except that the plan that always goes to the first
child, if there is one, is lost: it is found last, with an empty stack. -/
theorem C48_dfs_complete_partial (sp : Space N) (D : Nat) (root : N) (g : N → Bool) (ch : N → List N)
    (ht : sp.Total root g ch) : ∃ F, ∀ fuel ≥ F, ∃ l lost, Dfs.run sp D fuel root = .ok l ∧
      (∀ p, p ∈ l ++ lost ↔ PlanPath sp.Child sp.Goal D root p) ∧ lost.length ≤ 1 ∧
      (∀ p, p ∈ lost ↔ PlanPath (fun n c => ∃ cs, sp.expand n = .ok (c :: cs)) sp.Goal D root p) ∧
      ((∀ n, (ch n).Nodup) → (l ++ lost).Nodup) := by
  refine ⟨treeSize ch g D root + 2, fun fuel hf => ?_⟩
  obtain ⟨l, h1, h2⟩ := Dfs.run_spec (D := D) ht (fuel := fuel) (by omega)
  refine ⟨l, plans (Dfs.firstOf ch) g D root, h1, fun p => ?_, plans_first_length D root, fun p => first_total ht, ?_⟩
  · rw [h2, plans_rev_mem, ht.mem_plans]
  · intro hch
    rw [h2]
    exact plans_nodup (fun n => List.nodup_reverse.2 (hch n)) D root

/-! ## C49 -/

/-- **C49.** Every sequence an iterator of `AStar` points at before the end is a plan, whatever the queue does. -/
theorem C49_astar_sound (sp : Space N) (D : Nat) (pick : Nat → List (N × List N) → Nat) (root : N) (it : Astar.It N)
    (h : Astar.Reached sp D pick root it) (he : it.finished = false) : PlanPath sp.Child sp.Goal D root it.cur := by
  have : (∀ e ∈ it.queue, EntrySound sp D root e) ∧ (it.queue ≠ [] → PlanPath sp.Child sp.Goal D root it.cur) := by
    clear he
    induction h with
    | begin h => exact Astar.next_sound _ _ _ (start_sound sp D root) h
    | next _ h ih => exact Astar.next_sound _ _ _ ih.1 h
  refine this.2 ?_
  intro hs
  simp [Astar.It.finished, hs] at he

/-- **C49, partial.** A loop over `AStar` visits all plans but at most one. With a comparison that ranks no plan before what
leads to it, no plan comes after one of lower priority, and the lost one is not of higher priority than any plan visited. -/
theorem C49_astar_complete_partial (sp : Space N) (D : Nat) (root : N) (g : N → Bool) (ch : N → List N)
    (ht : sp.Total root g ch) (worse : N × List N → N × List N → Bool) (pick : Nat → List (N × List N) → Nat)
    (hpick : PickOk worse pick) : ∃ F, ∀ fuel ≥ F, ∃ l lost, Astar.run sp D pick fuel root = .ok l ∧ lost.length ≤ 1 ∧
      (∀ p, p ∈ l ++ lost ↔ PlanPath sp.Child sp.Goal D root p) ∧
      ((∀ n, (ch n).Nodup) → (l ++ lost).Nodup) ∧
      (AdmissibleOrder (PlanPath sp.Child sp.Goal D root) worse →
        (l ++ lost).Pairwise fun p q => ¬ WorsePlan worse p q) := by
  refine ⟨treeSize ch g D root + 2, fun fuel hf => ?_⟩
  obtain ⟨l, lost, h1, h2, h3, h4⟩ := Astar.run_spec (D := D) ht hpick (Pl := PlanPath sp.Child sp.Goal D root)
    (fun p hp => ht.mem_plans.1 hp) (fuel := fuel) (by omega)
  exact ⟨l, lost, h1, h2, fun p => h3.mem_iff.trans ht.mem_plans,
    fun hch => h3.nodup_iff.2 (plans_nodup hch D root), h4⟩

/-- **C49, partial.** The same for a comparison that ranks no child before its parent. -/
theorem C49_astar_monotone_partial (sp : Space N) (D : Nat) (root : N) (g : N → Bool) (ch : N → List N)
    (ht : sp.Total root g ch) (worse : N × List N → N × List N → Bool) (pick : Nat → List (N × List N) → Nat)
    (hpick : PickOk worse pick) (hm : MonotoneOrder worse) : ∃ F, ∀ fuel ≥ F, ∃ l lost,
      Astar.run sp D pick fuel root = .ok l ∧ lost.length ≤ 1 ∧
      (∀ p, p ∈ l ++ lost ↔ PlanPath sp.Child sp.Goal D root p) ∧ (l ++ lost).Pairwise fun p q => ¬ WorsePlan worse p q := by
  obtain ⟨F, h⟩ := C49_astar_complete_partial sp D root g ch ht worse pick hpick
  refine ⟨F, fun fuel hf => ?_⟩
  obtain ⟨l, lost, h1, h2, h3, -, h5⟩ := h fuel hf
  exact ⟨l, lost, h1, h2, h3, h5 (Astar.monotone_admissible hm _)⟩

/-- **C49, partial.** Plans have costs, and the queue is ordered by an estimate that is exact for plans and never more than
the cost of a plan that goes on from there. Then plans are visited in the order of their costs: the first one is a cheapest
plan. The lost one costs no less than all that are visited. -/
theorem C49_astar_optimal_partial (sp : Space N) (D : Nat) (root : N) (g : N → Bool) (ch : N → List N)
    (ht : sp.Total root g ch) (cost : List N → Nat) (estimate : N × List N → Nat)
    (hexact : ∀ n a, PlanPath sp.Child sp.Goal D root (a ++ [n]) → estimate (n, a) = cost (a ++ [n]))
    (hadm : ∀ n a p, PlanPath sp.Child sp.Goal D root p → a ++ [n] <+: p → estimate (n, a) ≤ cost p)
    (pick : Nat → List (N × List N) → Nat) (hpick : PickOk (fun x y => decide (estimate y < estimate x)) pick) :
    ∃ F, ∀ fuel ≥ F, ∃ l lost, Astar.run sp D pick fuel root = .ok l ∧ lost.length ≤ 1 ∧
      (∀ p, p ∈ l ++ lost ↔ PlanPath sp.Child sp.Goal D root p) ∧ (l ++ lost).Pairwise (fun p q => cost p ≤ cost q) ∧
      ∀ p, l.head? = some p → ∀ q, PlanPath sp.Child sp.Goal D root q → cost p ≤ cost q := by
  obtain ⟨F, h⟩ := C49_astar_complete_partial sp D root g ch ht _ pick hpick
  refine ⟨F, fun fuel hf => ?_⟩
  obtain ⟨l, lost, h1, h2, h3, -, h5⟩ := h fuel hf
  have hp : (l ++ lost).Pairwise (fun p q => cost p ≤ cost q) := by
    refine (List.Pairwise.and_mem.1 (h5 ⟨fun a b c => ?_, fun n a m b hb hpre => ?_⟩)).imp ?_
    · simp only [decide_eq_false_iff_not]
      omega
    · have e1 := hadm n a (b ++ [m]) hb (hpre.trans (List.prefix_append b [m]))
      have e2 := hexact m b hb
      simp only [decide_eq_false_iff_not]
      omega
    · rintro p q ⟨hp, hq, hw⟩
      have pp := (h3 p).1 hp
      have pq := (h3 q).1 hq
      obtain ⟨a, n, rfl⟩ : ∃ a n, p = a ++ [n] := by simpa using List.eq_nil_or_concat p |>.resolve_left pp.path.ne_nil
      obtain ⟨b, m, rfl⟩ : ∃ b m, q = b ++ [m] := by simpa using List.eq_nil_or_concat q |>.resolve_left pq.path.ne_nil
      by_contra hc
      refine hw ⟨n, a, m, b, rfl, rfl, ?_⟩
      have e1 := hexact n a pp
      have e2 := hexact m b pq
      simp only [decide_eq_true_eq]
      omega
  refine ⟨l, lost, h1, h2, h3, hp, fun p hl q hq => ?_⟩
  obtain ⟨l', rfl⟩ := List.head?_eq_some_iff.1 hl
  have hq := (h3 q).2 hq
  rw [List.cons_append] at hp hq
  rcases List.mem_cons.1 hq with rfl | hq
  · exact Nat.le_refl _
  · exact (List.pairwise_cons.1 hp).1 q hq

/-! ## Examples -/

/-- The numbers 1, 2, 3, …, each followed by its double and its double plus one; multiples of five are goals. -/
def doubling : Space Nat := ⟨fun n => .ok (n % 5 == 0), fun n => .ok [2 * n, 2 * n + 1]⟩

theorem doubling_total : doubling.Total 1 (fun n => n % 5 == 0) (fun n => [2 * n, 2 * n + 1]) :=
  ⟨fun _ _ _ _ => rfl, fun _ _ _ _ => rfl⟩

example : Bfs.run doubling 3 (fun _ _ => false) 50 1 = .ok [[1, 2, 5], [1, 3, 7, 15]] := by decide +kernel
example : Bfs.run doubling 3 (fun i k => i == 1 && k == 3) 50 1 = .ok [[1, 2, 5]] := by decide +kernel
example : Dfs.run doubling 3 50 1 = .ok [[1, 3, 7, 15], [1, 2, 5]] := by decide +kernel

example : ∀ n, [2 * n, 2 * n + 1].Nodup := by intro n; simp

/-- Fewer steps first. -/
def shorter (a b : Nat × List Nat) : Bool := decide (b.2.length < a.2.length)

/-- The first of the shortest entries. -/
def pickShort (_ : Nat) (q : List (Nat × List Nat)) : Nat := q.findIdx fun e => q.all fun e' => !shorter e e'

theorem exists_short : ∀ q : List (Nat × List Nat), q ≠ [] → ∃ e ∈ q, ∀ e' ∈ q, e.2.length ≤ e'.2.length
  | [], h => absurd rfl h
  | [e], _ => ⟨e, by simp, by simp⟩
  | e :: e' :: q, _ => by
    obtain ⟨m, hm, hmin⟩ := exists_short (e' :: q) (by simp)
    by_cases h : e.2.length ≤ m.2.length
    · refine ⟨e, by simp, fun x hx => ?_⟩
      rcases List.mem_cons.1 hx with rfl | hx
      · exact Nat.le_refl _
      · exact Nat.le_trans h (hmin x hx)
    · refine ⟨m, List.mem_cons_of_mem _ hm, fun x hx => ?_⟩
      rcases List.mem_cons.1 hx with rfl | hx
      · omega
      · exact hmin x hx

theorem pickShort_ok : PickOk shorter pickShort := by
  constructor
  · intro t q hq
    obtain ⟨e, he, hmin⟩ := exists_short q hq
    refine List.findIdx_lt_length_of_exists ⟨e, he, ?_⟩
    simp only [List.all_eq_true, shorter, Bool.not_eq_true', decide_eq_false_iff_not]
    intro x hx; have := hmin x hx; omega
  · intro t q e he e' he'
    obtain ⟨hlt, rfl⟩ := List.getElem?_eq_some_iff.1 he
    have := List.findIdx_getElem (w := hlt)
    simp only [List.all_eq_true] at this
    have h2 : (!shorter (q[pickShort t q]'hlt) e') = true := this e' he'
    simpa using h2

theorem shorter_mono : MonotoneOrder shorter := by
  constructor
  · intro a b c h1 h2
    simp only [shorter, decide_eq_false_iff_not] at *
    omega
  · intro n c anc; simp [shorter]

/-- The length of a path never overestimates the length of a plan. -/
example : ∃ F, ∀ fuel ≥ F, ∃ l lost, Astar.run doubling 3 pickShort fuel 1 = .ok l ∧ lost.length ≤ 1 ∧
    (∀ p, p ∈ l ++ lost ↔ PlanPath doubling.Child doubling.Goal 3 1 p) ∧
    (l ++ lost).Pairwise (fun p q => p.length - 1 ≤ q.length - 1) ∧
    ∀ p, l.head? = some p → ∀ q, PlanPath doubling.Child doubling.Goal 3 1 q → p.length - 1 ≤ q.length - 1 :=
  C49_astar_optimal_partial doubling 3 1 _ _ doubling_total (fun p => p.length - 1) (fun e => e.2.length)
    (fun n a _ => by simp) (fun n a p _ h => by have := h.length_le; simp at this; show a.length ≤ _; omega) pickShort pickShort_ok

example : Astar.run doubling 3 pickShort 50 1 = .ok [[1, 2, 5]] := by decide +kernel

/-- A chain with one plan. -/
def chain : Space Nat := ⟨fun n => .ok (n == 2), fun n => .ok [n + 1]⟩

theorem chain_plan : PlanPath chain.Child chain.Goal 3 0 [0, 1, 2] :=
  ⟨.cons ⟨_, rfl, by simp⟩ (.cons ⟨_, rfl, by simp⟩ (.single 2)), ⟨2, rfl, rfl⟩, by simp [chain, Space.Goal], by simp⟩

/-- **C48, refuted:** the only plan is not visited. -/
theorem C48_dfs_loses_plan_refuted :
    PlanPath chain.Child chain.Goal 3 0 [0, 1, 2] ∧ Dfs.run chain 3 50 0 = .ok [] :=
  ⟨chain_plan, by decide +kernel⟩

/-- **C49, refuted:** the only plan is not visited. -/
theorem C49_astar_loses_plan_refuted :
    PlanPath chain.Child chain.Goal 3 0 [0, 1, 2] ∧ PickOk shorter pickShort ∧ Astar.run chain 3 pickShort 50 0 = .ok [] :=
  ⟨chain_plan, pickShort_ok, by decide +kernel⟩

example : Bfs.run chain 3 (fun _ _ => false) 50 0 = .ok [[0, 1, 2]] := by decide +kernel

section
open Demo
attribute [local instance] lenHash

/-- The planner of the demo domain. -/
example : (do
    let root ← P.plannerRoot 5 P.initial
    let l ← Bfs.run (P.space 5) 2 (fun _ _ => false) 100 root
    pure (l.map fun p => p.map PNode.action) : Res _) = .ok [[[], n!"pick(a)", n!"place(a, b)"]] := by decide +kernel

example : P.isValidPlan 5 [n!"pick(a)", n!"place(a, b)"] = .ok true := by decide +kernel

end

end Symbolic
