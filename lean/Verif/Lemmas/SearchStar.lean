import Verif.Lemmas.Search

/-!
# A*: enumeration and order; soundness and timeouts of the searches
-/

namespace Symbolic

variable {N : Type}

namespace Astar

variable {sp : Space N} {root : N} {g : N → Bool} {ch : N → List N} {D : Nat}
  {worse : N × List N → N × List N → Bool} {pick : Nat → List (N × List N) → Nat}

theorem pop_spec (hp : PickOk worse pick) {t : Nat} {q : List (N × List N)} (hq : q ≠ []) :
    ∃ e q', pop pick t q = some (e, q') ∧ q.Perm (e :: q') ∧ ∀ e' ∈ q, worse e e' = false := by
  have hb := hp.bound t q hq
  have he : q[pick t q]? = some q[pick t q] := List.getElem?_eq_getElem hb
  refine ⟨q[pick t q], q.eraseIdx (pick t q), ?_, ?_, hp.top t q _ he⟩
  · unfold pop; rw [he]
  · exact (List.getElem_cons_eraseIdx_perm hb).symm

theorem next_spec (ht : sp.Total root g ch) (hp : PickOk worse pick) :
    ∀ fuel (it : It N), (∀ e ∈ it.queue, EntryOk ch g D root e) → flatSize ch g D it.queue < fuel →
      ∃ it', next sp D pick fuel it = .ok it' ∧ (∀ e ∈ it'.queue, EntryOk ch g D root e) ∧
        ((it.queue = [] ∧ it' = it) ∨
          (it.queue ≠ [] ∧ flatSize ch g D it'.queue < flatSize ch g D it.queue ∧
          ((it'.queue = [] ∧ flatPlans ch g D it.queue = []) ∨
          ((flatPlans ch g D it.queue).Perm (it'.cur :: flatPlans ch g D it'.queue) ∧
            ∃ n a, it'.cur = a ++ [n] ∧ ∀ e ∈ it'.queue, worse (n, a) e = false)))) := by
  intro fuel
  induction fuel with
  | zero => intro it _ h; omega
  | succ fuel ih =>
    intro it hok hsz
    unfold next
    obtain ⟨queue, cur, pops⟩ := it
    by_cases hq0 : queue = []
    · subst hq0
      exact ⟨_, rfl, by simp, .inl ⟨rfl, rfl⟩⟩
    · obtain ⟨⟨n, anc⟩, q, hpop, hperm, hbest⟩ := pop_spec hp (t := pops) hq0
      have hemp : queue.isEmpty = false := by cases queue <;> simp_all
      simp only at hok hsz
      simp only [hemp, Bool.false_eq_true, if_false, hpop]
      have he : EntryOk ch g D root (n, anc) := hok _ (hperm.mem_iff.2 (by simp))
      have hq : ∀ e ∈ q, EntryOk ch g D root e := fun e h => hok e (hperm.mem_iff.2 (by simp [h]))
      have hpos := entrySize_pos (ch := ch) (g := g) (D := D) (n, anc)
      have hg := ht.goal_ok he
      have hx := ht.expand_ok he
      simp only at hg hx
      rw [hg, Res.bind_ok]
      have hsize := flatSize_perm (ch := ch) (g := g) (D := D) hperm
      have hplans := flatPlans_perm (ch := ch) (g := g) (D := D) hperm
      rw [flatSize_cons] at hsize
      rw [flatPlans_cons] at hplans
      cases hgn : g n with
      | true =>
        simp only [if_true]
        refine ⟨_, rfl, hq, .inr ⟨hq0, by simp only; omega, .inr ⟨?_, n, anc, rfl, ?_⟩⟩⟩
        · rw [entryPlans_goal (e := (n, anc)) hgn] at hplans
          exact hplans
        · exact fun e h => hbest e (hperm.mem_iff.2 (by simp [h]))
      | false =>
        simp only [Bool.false_eq_true, if_false]
        split
        · rename_i hl
          obtain ⟨it', h1, h2, h3⟩ := ih ⟨q, anc ++ [n], pops + 1⟩ hq (by simp only; omega)
          refine ⟨it', h1, h2, .inr ⟨hq0, ?_⟩⟩
          have hz : entryPlans ch g D (n, anc) = [] := entryPlans_leaf hgn hl
          rw [hz, List.nil_append] at hplans
          rcases h3 with ⟨a, rfl⟩ | ⟨a, b, c⟩
          · simp only at a
            subst a
            exact ⟨by simp only [flatSize_nil]; omega, .inl ⟨rfl, List.perm_nil.1 hplans⟩⟩
          · simp only at b c
            refine ⟨by omega, ?_⟩
            rcases c with ⟨c1, c2⟩ | ⟨c1, c2⟩
            · exact .inl ⟨c1, by rw [c2] at hplans; exact List.perm_nil.1 hplans⟩
            · exact .inr ⟨hplans.trans c1, c2⟩
        · rename_i hl
          rw [hx, Res.bind_ok]
          have hs : entrySize ch g D (n, anc) = 1 + flatSize ch g D ((ch n).map fun c => (c, anc ++ [n])) :=
            entrySize_expand (ch := ch) (g := g) (D := D) (e := (n, anc)) hgn hl
          have hz : entryPlans ch g D (n, anc) = flatPlans ch g D ((ch n).map fun c => (c, anc ++ [n])) :=
            entryPlans_expand (ch := ch) (g := g) (D := D) (e := (n, anc)) hgn hl
          obtain ⟨it', h1, h2, h3⟩ := ih ⟨q ++ (ch n).map (fun c => (c, anc ++ [n])), anc ++ [n], pops + 1⟩
            (by
              intro e h
              rcases List.mem_append.1 h with h | h
              · exact hq e h
              · obtain ⟨c, hc, rfl⟩ := List.mem_map.1 h
                exact he.child hgn hl hc)
            (by simp only [flatSize_append]; omega)
          refine ⟨it', h1, h2, .inr ⟨hq0, ?_⟩⟩
          have hplans' : (flatPlans ch g D queue).Perm
              (flatPlans ch g D (q ++ (ch n).map fun c => (c, anc ++ [n]))) := by
            rw [flatPlans_append, ← hz]
            exact hplans.trans List.perm_append_comm
          simp only [flatSize_append] at h3
          rcases h3 with ⟨a, rfl⟩ | ⟨a, b, c⟩
          · rw [a] at hplans'
            refine ⟨by simp only [a, flatSize_nil]; omega, .inl ⟨a, List.perm_nil.1 hplans'⟩⟩
          · refine ⟨by omega, ?_⟩
            rcases c with ⟨c1, c2⟩ | ⟨c1, c2⟩
            · exact .inl ⟨c1, by rw [c2] at hplans'; exact List.perm_nil.1 hplans'⟩
            · exact .inr ⟨hplans'.trans c1, c2⟩

/-- A plan through an entry is the entry or comes after it. -/
theorem entryPlans_through {e : N × List N} {p : List N} (hp : p ∈ entryPlans ch g D e) :
    p = e.2 ++ [e.1] ∨ ∃ m b, p = b ++ [m] ∧ e.2 ++ [e.1] <+: b := by
  obtain ⟨q, hq, rfl⟩ := List.mem_map.1 hp
  have hpath := (mem_plans.1 hq).path
  cases hpath with
  | single => exact .inl rfl
  | @cons _ _ r _ h =>
    obtain ⟨b, m, rfl⟩ := List.eq_nil_or_concat r |>.resolve_left h.ne_nil
    exact .inr ⟨m, e.2 ++ e.1 :: b, by simp, ⟨b, by simp⟩⟩

theorem flat_order {Pl : List N → Prop} (hm : AdmissibleOrder Pl worse) {n : N} {a : List N} {q : List (N × List N)}
    (hPl : ∀ p ∈ flatPlans ch g D q, Pl p)
    (h : ∀ e ∈ q, worse (n, a) e = false) : ∀ p ∈ flatPlans ch g D q, ¬ WorsePlan worse (a ++ [n]) p := by
  rintro p hp ⟨n', a', m, b, h1, rfl, h3⟩
  have := List.append_inj' h1 rfl
  simp only [List.cons.injEq, and_true] at this
  obtain ⟨rfl, rfl⟩ := this
  have hpl := hPl _ hp
  obtain ⟨e, he, hp⟩ := List.mem_flatMap.1 hp
  rcases entryPlans_through hp with h4 | ⟨m', b', h4, h5⟩
  · have := List.append_inj' h4 rfl
    simp only [List.cons.injEq, and_true] at this
    obtain ⟨rfl, rfl⟩ := this
    simp [h e he] at h3
  · have := List.append_inj' h4 rfl
    simp only [List.cons.injEq, and_true] at this
    obtain ⟨rfl, rfl⟩ := this
    have := hm.trans _ _ _ (h e he) (hm.ahead e.1 e.2 m b hpl h5)
    simp [this] at h3

/-- A monotone order is admissible. -/
theorem monotone_admissible (hm : MonotoneOrder worse) (Pl : List N → Prop) : AdmissibleOrder Pl worse where
  trans := hm.trans
  ahead := by
    rintro n a m b - ⟨t, rfl⟩
    have key : ∀ (t : List N) (n : N) (a : List N), worse (n, a) (m, a ++ [n] ++ t) = false := by
      intro t
      induction t with
      | nil => intro n a; simpa using hm.child n m a
      | cons x t ih =>
        intro n a
        refine hm.trans _ _ _ (hm.child n x a) ?_
        have := ih x (a ++ [n])
        simpa using this
    exact key t n a

theorem collect_spec (ht : sp.Total root g ch) (hp : PickOk worse pick) {Pl : List N → Prop} {fuel : Nat} : ∀ steps (it : It N),
    (∀ e ∈ it.queue, EntryOk ch g D root e) → (∀ p ∈ flatPlans ch g D it.queue, Pl p) → it.queue ≠ [] →
      (∃ n a, it.cur = a ++ [n] ∧ ∀ e ∈ it.queue, worse (n, a) e = false) →
      flatSize ch g D it.queue < fuel → flatSize ch g D it.queue + 1 < steps →
      ∃ l lost, collect sp D pick fuel steps it = .ok l ∧ lost.length ≤ 1 ∧
        (l ++ lost).Perm (it.cur :: flatPlans ch g D it.queue) ∧
        (AdmissibleOrder Pl worse → (l ++ lost).Pairwise fun p q => ¬ WorsePlan worse p q) := by
  intro steps
  induction steps with
  | zero => intro it _ _ _ _ _ h; omega
  | succ steps ih =>
    intro it hok hPl hne hbest hf hs
    unfold collect
    have hfin : it.finished = false := by
      unfold It.finished; cases hst : it.queue <;> simp_all
    simp only [hfin, Bool.false_eq_true, if_false]
    obtain ⟨it', h1, h2, h3⟩ := next_spec ht hp fuel it hok hf
    rw [h1, Res.bind_ok]
    obtain ⟨n, a, hcur, hbest⟩ := hbest
    have hfirst : AdmissibleOrder Pl worse → ∀ q ∈ flatPlans ch g D it.queue, ¬ WorsePlan worse it.cur q := by
      intro hm; rw [hcur]; exact flat_order hm hPl hbest
    have hend : it'.queue = [] → collect sp D pick fuel steps it' = .ok [] := by
      intro hq
      obtain ⟨s, rfl⟩ : ∃ s, steps = s + 1 := ⟨steps - 1, by omega⟩
      have hfin' : it'.finished = true := by unfold It.finished; rw [hq]; rfl
      unfold collect
      simp only [hfin', if_true]
    rcases h3 with ⟨a, _⟩ | ⟨_, hlt, ⟨hq, b⟩ | ⟨b, c⟩⟩
    · exact absurd a hne
    · rw [hend hq, Res.bind_ok]
      refine ⟨[it.cur], [], rfl, by simp, ?_, fun _ => by simp⟩
      rw [b]; exact List.Perm.refl _
    · by_cases hq : it'.queue = []
      · rw [hend hq, Res.bind_ok]
        rw [hq, flatPlans_nil] at b
        refine ⟨[it.cur], [it'.cur], rfl, by simp, b.symm.cons it.cur, fun hm => ?_⟩
        simp only [List.cons_append, List.nil_append, List.pairwise_cons, List.mem_singleton, forall_eq,
          List.not_mem_nil, false_implies, implies_true, List.Pairwise.nil, and_self, and_true]
        exact hfirst hm _ (b.mem_iff.2 (by simp))
      · obtain ⟨l, lost, hl, hlost, he, hord⟩ := ih it' h2 (fun p hp => hPl p (b.mem_iff.2 (List.mem_cons_of_mem _ hp))) hq c (by omega) (by omega)
        rw [hl, Res.bind_ok]
        refine ⟨it.cur :: l, lost, rfl, hlost, (he.trans b.symm).cons it.cur, fun hm => ?_⟩
        rw [List.cons_append]
        exact List.pairwise_cons.2 ⟨fun q hq => hfirst hm q ((he.trans b.symm).mem_iff.1 hq), hord hm⟩

theorem run_spec (ht : sp.Total root g ch) (hp : PickOk worse pick) {Pl : List N → Prop}
    (hPl : ∀ p ∈ plans ch g D root, Pl p) {fuel : Nat}
    (hfuel : treeSize ch g D root + 1 < fuel) :
    ∃ l lost, run sp D pick fuel root = .ok l ∧ lost.length ≤ 1 ∧ (l ++ lost).Perm (plans ch g D root) ∧
      (AdmissibleOrder Pl worse → (l ++ lost).Pairwise fun p q => ¬ WorsePlan worse p q) := by
  unfold run begin
  have hsz : flatSize ch g D (start root).queue = treeSize ch g D root := by
    simp [start, entrySize]
  obtain ⟨it, h1, h2, h3⟩ := next_spec (D := D) ht hp fuel (start root)
    (by
      intro e he
      simp only [start, List.mem_singleton] at he
      subst he
      exact ⟨by simpa using IsPath.single root, by simp, by simp⟩) (by omega)
  rw [h1, Res.bind_ok]
  have hroot : flatPlans ch g D (start root).queue = plans ch g D root := by
    simp [start, entryPlans_root]
  rw [hroot] at h3
  have hend : it.queue = [] → collect sp D pick fuel fuel it = .ok [] := by
    intro hq
    obtain ⟨s, rfl⟩ : ∃ s, fuel = s + 1 := ⟨fuel - 1, by omega⟩
    have hfin' : it.finished = true := by unfold It.finished; rw [hq]; rfl
    unfold collect
    simp only [hfin', if_true]
  rcases h3 with ⟨a, _⟩ | ⟨_, hlt, ⟨hq, b⟩ | ⟨b, c⟩⟩
  · simp [start] at a
  · exact ⟨[], [], hend hq, by simp, by rw [b]; exact List.Perm.refl _, fun _ => by simp⟩
  · by_cases hq : it.queue = []
    · rw [hq, flatPlans_nil] at b
      exact ⟨[], [it.cur], hend hq, by simp, b.symm, fun _ => by simp⟩
    · obtain ⟨l, lost, hl, hlost, he, hord⟩ := collect_spec ht hp (fuel := fuel) fuel it h2
        (fun p hp => hPl p (b.mem_iff.2 (List.mem_cons_of_mem _ hp))) hq c (by omega) (by omega)
      exact ⟨l, lost, hl, hlost, he.trans b.symm, hord⟩

end Astar

/-! ## Soundness without any assumption on the nodes -/

/-- A frontier entry is a path without goals before its node. -/
def EntrySound (sp : Space N) (D : Nat) (root : N) (e : N × List N) : Prop :=
  IsPath sp.Child root (e.2 ++ [e.1]) ∧ e.2.length ≤ D ∧ ∀ n ∈ e.2, sp.goal n = .ok false

theorem EntrySound.plan {sp : Space N} {D : Nat} {root : N} {e : N × List N} (h : EntrySound sp D root e)
    (hg : sp.goal e.1 = .ok true) : PlanPath sp.Child sp.Goal D root (e.2 ++ [e.1]) := by
  refine ⟨h.1, ⟨e.1, by simp, hg⟩, ?_, by simpa using h.2.1⟩
  intro n hn hgn
  simp only [List.dropLast_concat] at hn
  have := h.2.2 n hn
  unfold Space.Goal at hgn
  rw [this] at hgn
  cases hgn

theorem EntrySound.child {sp : Space N} {D : Nat} {root : N} {e : N × List N} (h : EntrySound sp D root e)
    (hg : sp.goal e.1 = .ok false) (hl : ¬ (e.2 ++ [e.1]).length > D) {cs : List N} (hx : sp.expand e.1 = .ok cs)
    {c : N} (hc : c ∈ cs) : EntrySound sp D root (c, e.2 ++ [e.1]) := by
  refine ⟨h.1.snoc (n := e.1) (by simp) ⟨cs, hx, hc⟩, by simpa using hl, ?_⟩
  intro n hn
  rcases List.mem_append.1 hn with hn | hn
  · exact h.2.2 n hn
  · simp at hn; subst hn; exact hg

theorem Bfs.next_sound {sp : Space N} {D : Nat} {root : N} {late : Nat → Bool} :
    ∀ fuel k (it it' : Bfs.It N), (∀ e ∈ it.queue, EntrySound sp D root e) → Bfs.next sp D late fuel k it = .ok it' →
      (∀ e ∈ it'.queue, EntrySound sp D root e) ∧ ∀ p, it'.cur = some p → PlanPath sp.Child sp.Goal D root p := by
  intro fuel
  induction fuel with
  | zero => intro k it it' _ h; simp [Bfs.next] at h
  | succ fuel ih =>
    rintro k ⟨queue, cur⟩ it' hok h
    unfold Bfs.next at h
    cases queue with
    | nil => simp only [Res.ok.injEq] at h; subst h; simp
    | cons e q =>
      obtain ⟨n, anc⟩ := e
      have he : EntrySound sp D root (n, anc) := hok _ (by simp)
      have hq : ∀ e ∈ q, EntrySound sp D root e := fun e h => hok e (by simp [h])
      simp only at h
      split at h
      · simp only [Res.ok.injEq] at h; subst h; simp
      · obtain ⟨gv, hg, h⟩ := Res.bind_eq_ok.1 h
        cases gv with
        | true =>
          simp only [if_true, Res.pure_eq, Res.ok.injEq] at h
          subst h
          refine ⟨hq, fun p hp => ?_⟩
          simp only [Option.some.injEq] at hp
          subst hp
          exact he.plan hg
        | false =>
          simp only [Bool.false_eq_true, if_false] at h
          split at h
          · exact ih _ _ _ hq h
          · rename_i hl
            obtain ⟨cs, hx, h⟩ := Res.bind_eq_ok.1 h
            refine ih _ _ _ ?_ h
            intro e hmem
            rcases List.mem_append.1 hmem with hmem | hmem
            · exact hq e hmem
            · obtain ⟨c, hc, rfl⟩ := List.mem_map.1 hmem
              exact he.child hg hl hx hc

theorem Dfs.next_sound {sp : Space N} {D : Nat} {root : N} :
    ∀ fuel (it it' : Dfs.It N), (∀ e ∈ it.stack, EntrySound sp D root e) → Dfs.next sp D fuel it = .ok it' →
      (∀ e ∈ it'.stack, EntrySound sp D root e) ∧ (it'.stack ≠ [] → PlanPath sp.Child sp.Goal D root it'.cur) := by
  intro fuel
  induction fuel with
  | zero => intro it it' _ h; simp [Dfs.next] at h
  | succ fuel ih =>
    rintro ⟨stack, cur⟩ it' hok h
    unfold Dfs.next at h
    cases stack with
    | nil => simp only [Res.ok.injEq] at h; subst h; simp
    | cons e q =>
      obtain ⟨n, anc⟩ := e
      have he : EntrySound sp D root (n, anc) := hok _ (by simp)
      have hq : ∀ e ∈ q, EntrySound sp D root e := fun e h => hok e (by simp [h])
      simp only at h
      obtain ⟨gv, hg, h⟩ := Res.bind_eq_ok.1 h
      cases gv with
      | true =>
        simp only [if_true, Res.pure_eq, Res.ok.injEq] at h
        subst h
        exact ⟨hq, fun _ => he.plan hg⟩
      | false =>
        simp only [Bool.false_eq_true, if_false] at h
        split at h
        · exact ih _ _ hq h
        · rename_i hl
          obtain ⟨cs, hx, h⟩ := Res.bind_eq_ok.1 h
          refine ih _ _ ?_ h
          intro e hmem
          rcases List.mem_append.1 hmem with hmem | hmem
          · obtain ⟨c, hc, rfl⟩ := List.mem_map.1 (List.mem_reverse.1 hmem)
            exact he.child hg hl hx hc
          · exact hq e hmem

theorem Astar.next_sound {sp : Space N} {D : Nat} {root : N} {pick : Nat → List (N × List N) → Nat} :
    ∀ fuel (it it' : Astar.It N), (∀ e ∈ it.queue, EntrySound sp D root e) → Astar.next sp D pick fuel it = .ok it' →
      (∀ e ∈ it'.queue, EntrySound sp D root e) ∧ (it'.queue ≠ [] → PlanPath sp.Child sp.Goal D root it'.cur) := by
  intro fuel
  induction fuel with
  | zero => intro it it' _ h; simp [Astar.next] at h
  | succ fuel ih =>
    rintro ⟨queue, cur, pops⟩ it' hok h
    unfold Astar.next at h
    split at h
    · rename_i hemp
      simp only [Res.ok.injEq] at h; subst h
      have : queue = [] := by simpa using hemp
      subst this
      simp
    · split at h
      · simp at h
      · rename_i n anc q hpop
        unfold Astar.pop at hpop
        split at hpop
        · rename_i e' hget
          simp only [Option.some.injEq, Prod.mk.injEq] at hpop
          obtain ⟨rfl, rfl⟩ := hpop
          have he : EntrySound sp D root (n, anc) := hok _ (List.mem_of_getElem? hget)
          have hq : ∀ e ∈ queue.eraseIdx (pick pops queue), EntrySound sp D root e :=
            fun e h => hok e (List.mem_of_mem_eraseIdx h)
          simp only at h
          obtain ⟨gv, hg, h⟩ := Res.bind_eq_ok.1 h
          cases gv with
          | true =>
            simp only [if_true, Res.pure_eq, Res.ok.injEq] at h
            subst h
            exact ⟨hq, fun _ => he.plan hg⟩
          | false =>
            simp only [Bool.false_eq_true, if_false] at h
            split at h
            · exact ih _ _ hq h
            · rename_i hl
              obtain ⟨cs, hx, h⟩ := Res.bind_eq_ok.1 h
              refine ih _ _ ?_ h
              intro e hmem
              rcases List.mem_append.1 hmem with hmem | hmem
              · exact hq e hmem
              · obtain ⟨c, hc, rfl⟩ := List.mem_map.1 hmem
                exact he.child hg hl hx hc
        · simp at hpop

/-! ## Timeouts -/

theorem Bfs.next_late {sp : Space N} {D : Nat} {late : Nat → Bool} : ∀ fuel k (it it' : Bfs.It N),
    Bfs.next sp D late fuel k it = .ok it' →
      it' = ⟨[], none⟩ ∨ Bfs.next sp D (fun _ => false) fuel k it = .ok it' := by
  intro fuel
  induction fuel with
  | zero => intro k it it' h; simp [Bfs.next] at h
  | succ fuel ih =>
    rintro k ⟨queue, cur⟩ it' h
    unfold Bfs.next at h ⊢
    cases queue with
    | nil => exact .inr h
    | cons e q =>
      obtain ⟨n, anc⟩ := e
      simp only at h ⊢
      split at h
      · simp only [Res.ok.injEq] at h; exact .inl h.symm
      · simp only [Bool.false_eq_true, if_false]
        obtain ⟨gv, hg, h⟩ := Res.bind_eq_ok.1 h
        rw [hg, Res.bind_ok]
        cases gv with
        | true => exact .inr h
        | false =>
          simp only [Bool.false_eq_true, if_false] at h ⊢
          split at h
          · rename_i hl; rw [if_pos hl]; exact ih _ _ _ h
          · rename_i hl
            rw [if_neg hl]
            obtain ⟨cs, hx, h⟩ := Res.bind_eq_ok.1 h
            rw [hx, Res.bind_ok]
            exact ih _ _ _ h

/-- The number of the first test does not matter without a timeout, and more fuel does not change a result. -/
theorem Bfs.next_mono {sp : Space N} {D : Nat} : ∀ fuel fuel' k k' (it it' : Bfs.It N), fuel ≤ fuel' →
    Bfs.next sp D (fun _ => false) fuel k it = .ok it' → Bfs.next sp D (fun _ => false) fuel' k' it = .ok it' := by
  intro fuel
  induction fuel with
  | zero => intro fuel' k k' it it' _ h; simp [Bfs.next] at h
  | succ fuel ih =>
    rintro fuel' k k' ⟨queue, cur⟩ it' hle h
    obtain ⟨f, rfl⟩ : ∃ f, fuel' = f + 1 := ⟨fuel' - 1, by omega⟩
    unfold Bfs.next at h ⊢
    cases queue with
    | nil => exact h
    | cons e q =>
      obtain ⟨n, anc⟩ := e
      simp only [Bool.false_eq_true, if_false] at h ⊢
      obtain ⟨gv, hg, h⟩ := Res.bind_eq_ok.1 h
      rw [hg, Res.bind_ok]
      cases gv with
      | true => exact h
      | false =>
        simp only [Bool.false_eq_true, if_false] at h ⊢
        split at h
        · rename_i hl; rw [if_pos hl]; exact ih _ _ _ _ _ (by omega) h
        · rename_i hl
          rw [if_neg hl]
          obtain ⟨cs, hx, h⟩ := Res.bind_eq_ok.1 h
          rw [hx, Res.bind_ok]
          exact ih _ _ _ _ _ (by omega) h

theorem Bfs.collect_late {sp : Space N} {D : Nat} {clock : Nat → Nat → Bool} {fuel fuel' : Nat} (hf : fuel ≤ fuel') :
    ∀ steps steps' i i' (it : Bfs.It N) (l l' : List (List N)),
      Bfs.collect sp D clock fuel steps i it = .ok l →
      Bfs.collect sp D (fun _ _ => false) fuel' steps' i' it = .ok l' → l <+: l' := by
  intro steps
  induction steps with
  | zero => intro steps' i i' it l l' h; simp [Bfs.collect] at h
  | succ steps ih =>
    intro steps' i i' it l l' h h'
    cases steps' with
    | zero => simp [Bfs.collect] at h'
    | succ steps' =>
      unfold Bfs.collect at h h'
      split at h
      · simp only [Res.ok.injEq] at h; subst h; exact List.nil_prefix
      · rename_i hfin
        rw [if_neg hfin] at h'
        split at h
        · simp at h
        · rename_i p hcur
          rw [hcur] at h'
          simp only at h'
          obtain ⟨it1, h1, h⟩ := Res.bind_eq_ok.1 h
          obtain ⟨l1, h2, h⟩ := Res.bind_eq_ok.1 h
          obtain ⟨it2, h3, h'⟩ := Res.bind_eq_ok.1 h'
          obtain ⟨l2, h4, h'⟩ := Res.bind_eq_ok.1 h'
          simp only [Res.pure_eq, Res.ok.injEq] at h h'
          subst h h'
          rw [List.cons_prefix_cons]
          refine ⟨rfl, ?_⟩
          rcases Bfs.next_late _ _ _ _ h1 with rfl | h1'
          · cases steps with
            | zero => simp [Bfs.collect] at h2
            | succ s =>
              simp only [Bfs.collect, Bfs.It.finished, List.isEmpty_nil, Option.isNone_none, Bool.and_self, if_true,
                Res.ok.injEq] at h2
              subst h2; exact List.nil_prefix
          · have := Bfs.next_mono _ fuel' _ 0 _ _ hf h1'
            rw [this] at h3
            cases h3
            exact ih _ _ _ _ _ _ h2 h4

/-- With a timeout an increment still returns. -/
theorem Bfs.next_late_ok {sp : Space N} {D : Nat} {late : Nat → Bool} : ∀ fuel k (it it' : Bfs.It N),
    Bfs.next sp D (fun _ => false) fuel k it = .ok it' →
      Bfs.next sp D late fuel k it = .ok ⟨[], none⟩ ∨ Bfs.next sp D late fuel k it = .ok it' := by
  intro fuel
  induction fuel with
  | zero => intro k it it' h; simp [Bfs.next] at h
  | succ fuel ih =>
    rintro k ⟨queue, cur⟩ it' h
    unfold Bfs.next at h ⊢
    cases queue with
    | nil => exact .inr h
    | cons e q =>
      obtain ⟨n, anc⟩ := e
      simp only [Bool.false_eq_true, if_false] at h ⊢
      split
      · exact .inl rfl
      · obtain ⟨gv, hg, h⟩ := Res.bind_eq_ok.1 h
        rw [hg, Res.bind_ok]
        cases gv with
        | true => exact .inr h
        | false =>
          simp only [Bool.false_eq_true, if_false] at h ⊢
          split at h
          · rename_i hl; rw [if_pos hl]; exact ih _ _ _ h
          · rename_i hl
            rw [if_neg hl]
            obtain ⟨cs, hx, h⟩ := Res.bind_eq_ok.1 h
            rw [hx, Res.bind_ok]
            exact ih _ _ _ h

theorem Bfs.collect_late_ok {sp : Space N} {D : Nat} {clock : Nat → Nat → Bool} {fuel : Nat} :
    ∀ steps i i' (it : Bfs.It N) (l : List (List N)), Bfs.collect sp D (fun _ _ => false) fuel steps i' it = .ok l →
      ∃ l', Bfs.collect sp D clock fuel steps i it = .ok l' := by
  intro steps
  induction steps with
  | zero => intro i i' it l h; simp [Bfs.collect] at h
  | succ steps ih =>
    intro i i' it l h
    unfold Bfs.collect at h ⊢
    split at h
    · rename_i hf; rw [if_pos hf]; exact ⟨[], rfl⟩
    · rename_i hf
      rw [if_neg hf]
      split at h
      · simp at h
      · rename_i p hcur
        obtain ⟨it1, h1, h⟩ := Res.bind_eq_ok.1 h
        obtain ⟨l1, h2, h⟩ := Res.bind_eq_ok.1 h
        rcases Bfs.next_late_ok (late := clock i) _ _ _ _ h1 with h3 | h3
        · rw [h3, Res.bind_ok]
          cases steps with
          | zero => simp [Bfs.collect] at h2
          | succ s =>
            refine ⟨[p], ?_⟩
            simp [Bfs.collect, Bfs.It.finished]
        · rw [h3, Res.bind_ok]
          obtain ⟨l', hl'⟩ := ih (i + 1) _ _ _ h2
          rw [hl']
          exact ⟨_, rfl⟩

theorem Bfs.run_late_ok {sp : Space N} {D : Nat} {clock : Nat → Nat → Bool} {fuel : Nat} {root : N}
    {l : List (List N)} (h : Bfs.run sp D (fun _ _ => false) fuel root = .ok l) :
    ∃ l', Bfs.run sp D clock fuel root = .ok l' := by
  unfold Bfs.run Bfs.begin at h ⊢
  obtain ⟨it, h1, h2⟩ := Res.bind_eq_ok.1 h
  rcases Bfs.next_late_ok (late := clock 0) _ _ _ _ h1 with h3 | h3
  · rw [h3, Res.bind_ok]
    cases fuel with
    | zero => simp [Bfs.collect] at h2
    | succ s => exact ⟨[], by simp [Bfs.collect, Bfs.It.finished]⟩
  · rw [h3, Res.bind_ok]
    exact Bfs.collect_late_ok _ _ _ _ _ h2

end Symbolic
