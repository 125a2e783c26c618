import Verif.Props.ChildrenBuf
import Verif.Props.ReturnedSearch
import Verif.Props.Complete

/-!
# C57: the planner finds a shortest plan whenever there is one, with the argument buffers

For any axioms, also those that trigger themselves, and after any calls. Nothing is assumed about loops: if the search returns, it
has found a shortest plan or there is none.
-/

namespace Symbolic

section
variable [StrHash] (t : Ptree) (b : Bool) (k : Nat) (P : Pddl) (hP : Pddl.make t b k = .ok P)
  (hnd : ((t.constants ++ t.objects).map Obj.name).Nodup) (hops : Callable t)
  (hclean : ∀ o ∈ t.constants ++ t.objects, CleanArg o.name) (ids : Name → Nat) {fuel : Nat}

/-- A plan from `s` whose steps are actions, with `NextState` as right after construction. -/
def PlanFromB (fuel : Nat) (s : State) (plan : List Name) : Prop :=
  Achieves (fun s a => CallsAction P t a ∧ P.isValidAction s a = .ok true) (fun s a s' => (P.nextStateB ids fuel s a Store.init).1 = .ok s')
    (fun s => P.isGoalSatisfied s = .ok true) s plan

include hP hnd hops hclean

/-- A valid step to a state that was not seen is a child. -/
theorem step_childB (hpar : ∀ op ∈ t.ops, op.isAxiom = false → op.params ≠ []) (hact : P.actions ≠ [])
    {n : PNode} {cs : List PNode} (hcs : (P.spaceB ids fuel).fresh.expand n = .ok cs) {call : Name} {s : State}
    (hc : CallsAction P t call) (hv : P.isValidAction n.state call = .ok true)
    (hs : (P.nextStateB ids fuel n.state call Store.init).1 = .ok s) (hn : s ≠ n.state) (hn' : s ∉ n.anc) :
    ∃ c, (P.spaceB ids fuel).fresh.Child n c ∧ c.state = s ∧ ∀ x, x ∈ c.anc ↔ x = n.state ∨ x ∈ n.anc := by
  obtain ⟨l, anc, h1, h2, h3⟩ := C43_buffers t b k P hP hnd hops hclean ids fuel [] n cs hact hcs
  obtain ⟨op, as, hp, ho, ha⟩ := hc
  obtain ⟨head, ws, -, -, h6, h7⟩ := (C15_parse_accepts_exactly t b k P hP call op as).1 hp
  have hmem : ∀ o ∈ as, o ∈ t.constants ++ t.objects := by
    intro o ho
    clear h7 hp hv hs
    induction h6 with
    | nil => simp at ho
    | cons h _ ih =>
      rcases List.mem_cons.1 ho with rfl | ho
      · exact h.mem
      · exact ih ho
  have hwt : WellTyped (t.constants ++ t.objects) op.params as := wellTyped_of hmem h7
  have hi : (op, as) ∈ instances P P.actions := (C43_instances t b k P hP op as).2 ⟨ho, ha, hpar op ho ha, hwt⟩
  have hpi := parse_instance t b k P hP hnd hops hclean hi
  have hv' : P.isValidAction n.state (Pddl.callOf op as) = .ok true := by
    simp only [Pddl.isValidAction, hpi, Res.bind_ok]
    simpa only [Pddl.isValidAction, hp, Res.bind_ok] using hv
  have hs' : P.nextFresh ids fuel n.state (Pddl.callOf op as) = .ok s := by
    have hs : P.nextFresh ids fuel n.state call = .ok s := hs
    rw [nextFresh_parse, hp] at hs
    rw [nextFresh_parse, hpi]
    exact hs
  have hm := h1.mem_of (fun a h h' => by rw [h] at h'; cases h') (fun a s s' h h' => by rw [h] at h'; cases h'; rfl) hi hv' hs'
    (by simp only [not_or]; exact ⟨hn, hn'⟩)
  refine ⟨⟨s, anc, Pddl.callOf op as, n.depth + 1⟩, ⟨cs, hcs, ?_⟩, rfl, h2⟩
  rw [h3]; exact List.mem_map.2 ⟨((op, as), s), hm, rfl⟩

/-- A shortest plan gives a path of nodes, if the nodes on the way were expanded. -/
theorem shortest_pathB (hpar : ∀ op ∈ t.ops, op.isAxiom = false → op.params ≠ []) (hact : P.actions ≠ []) : ∀ (d : Nat) (n : PNode),
    (∀ q m, IsPath (P.spaceB ids fuel).fresh.Child n q → (∀ x ∈ q.dropLast, ¬ (P.spaceB ids fuel).fresh.Goal x) →
      q.getLast? = some m → q.length ≤ d + 1 → ∃ g, (P.spaceB ids fuel).fresh.goal m = .ok g ∧
        (g = false → q.length ≤ d → ∃ cs, (P.spaceB ids fuel).fresh.expand m = .ok cs)) →
    (∃ plan, plan.length = d ∧ PlanFromB t P ids fuel n.state plan) →
    (∀ plan, PlanFromB t P ids fuel n.state plan → d ≤ plan.length) →
    (∀ x ∈ n.anc, ∀ plan, PlanFromB t P ids fuel x plan → d < plan.length) →
    ∃ p, PlanPath (P.spaceB ids fuel).fresh.Child (P.spaceB ids fuel).fresh.Goal d n p ∧ p.length = d + 1
  | 0, n, _, ⟨plan, h0, h⟩, hmin, hanc => by
    cases plan with
    | cons _ _ => simp at h0
    | nil =>
      cases h with
      | done hg => exact ⟨[n], ⟨.single n, ⟨n, rfl, hg⟩, by simp, by simp⟩, rfl⟩
  | d + 1, n, hex, ⟨plan, h0, h⟩, hmin, hanc => by
    cases h with
    | done _ => simp at h0
    | @step _ s' a as hv hs hrest =>
      have hlen : as.length = d := by simpa using h0
      have hmin' : ∀ plan, PlanFromB t P ids fuel s' plan → d ≤ plan.length := by
        intro plan hp
        have := hmin (a :: plan) (.step hv hs hp)
        simp only [List.length_cons] at this
        omega
      have hne : s' ≠ n.state := by
        rintro rfl
        have := hmin as hrest
        omega
      have hna : s' ∉ n.anc := by
        intro hm
        have := hanc s' hm as hrest
        omega
      have hgoal : ¬ (P.spaceB ids fuel).fresh.Goal n := by
        intro hg
        have := hmin [] (.done hg)
        simp at this
      obtain ⟨g, hg, hcs⟩ := hex [n] n (.single n) (by simp) rfl (by simp)
      have hg' : g = false := by
        cases g with
        | false => rfl
        | true => exact absurd hg hgoal
      obtain ⟨cs, hcs⟩ := hcs hg' (by simp)
      obtain ⟨c, h1, h2, h3⟩ := step_childB t b k P hP hnd hops hclean ids hpar hact hcs hv.1 hv.2 hs hne hna
      obtain ⟨p, h4, h5⟩ := shortest_pathB hpar hact d c
        (by
          intro q m hq hno hm hl
          have hq0 : q ≠ [] := by rintro rfl; simp at hm
          obtain ⟨g, h6, h7⟩ := hex (n :: q) m (.cons h1 hq) (by
            rw [List.dropLast_cons_of_ne_nil hq0]
            intro x hx
            rcases List.mem_cons.1 hx with rfl | hx
            · exact hgoal
            · exact hno x hx) (by rw [List.getLast?_cons_of_ne_nil hq0]; exact hm) (by simp only [List.length_cons]; omega)
          exact ⟨g, h6, fun hf hl => h7 hf (by simp only [List.length_cons]; omega)⟩)
        (by rw [h2]; exact ⟨as, hlen, hrest⟩) (by rw [h2]; exact hmin')
        (by
          intro x hx plan hp
          rcases (h3 x).1 hx with rfl | hx
          · have := hmin plan hp; omega
          · have := hanc x hx plan hp; omega)
      refine ⟨n :: p, ⟨.cons h1 h4.path, ?_, ?_, by simp [h5]⟩, by simp [h5]⟩
      · obtain ⟨g, hg1, hg2⟩ := h4.reached
        cases p with
        | nil => simp at h5
        | cons q p => exact ⟨g, by simpa using hg1, hg2⟩
      · intro m hm
        cases p with
        | nil => simp at h5
        | cons q p =>
          simp only [List.dropLast_cons_cons, List.mem_cons] at hm
          rcases hm with rfl | hm
          · exact hgoal
          · exact h4.first m hm

/-- The action strings along a path call actions. -/
theorem path_callsB {root : PNode} {p : List PNode} (hp : IsPath (P.spaceB ids fuel).fresh.Child root p) (hact : P.actions ≠ []) :
    ∀ c ∈ p.tail.map PNode.action, CallsAction P t c := by
  induction hp with
  | single r => simp
  | @cons r c p hc hp ih =>
    have hh := hp.head
    cases p with
    | nil => simp at hh
    | cons x xs =>
      simp only [List.head?_cons, Option.some.injEq] at hh
      subst hh
      simp only [List.tail_cons, List.map_cons, List.mem_cons]
      rintro a (rfl | ha)
      · obtain ⟨l, hl, hm⟩ := hc
        obtain ⟨cs, anc, h1, -, rfl⟩ := C43_buffers t b k P hP hnd hops hclean ids fuel [] r l hact hl
        obtain ⟨y, hy, rfl⟩ := List.mem_map.1 hm
        have hi := h1.fst_mem y hy
        obtain ⟨h2, h3, -, -⟩ := (C43_instances t b k P hP y.1.1 y.1.2).1 hi
        exact ⟨_, _, parse_instance t b k P hP hnd hops hclean hi, h2, h3⟩
      · exact ih a ha

/-- **C57 (buffers).** Actions all have parameters, and `ConsistentState(initial_state())` is the initial state. If breadth-first
search over `Planner` returns, after any calls and whatever axioms there are: it finds nothing iff there is no list of at most
`max_depth` action calls that `IsValidPlan` accepts; otherwise the first plan it finds is one that `IsValidPlan` accepts, of at most
`max_depth` calls of actions, and no valid plan is shorter. -/
theorem C57_buffers_partial (fuel D : Nat) (hact : P.actions ≠ []) (hpar : ∀ op ∈ t.ops, op.isAxiom = false → op.params ≠ [])
    (hinit : (P.consistentStateB fuel P.initial Store.init).1 = .ok P.initial) (before after : List Pddl.AnyCall)
    (l : List (List PNode))
    (h : (P.answerB ids fuel (.bfs D (fun _ _ => false) P.initial) (P.runAny ids fuel before Store.init)).1 = .ok (.plans l)) :
    (l = [] ↔ ∀ plan, (∀ c ∈ plan, CallsAction P t c) → plan.length ≤ D →
      (P.isValidPlanB ids fuel plan (P.runAny ids fuel after Store.init)).1 ≠ .ok true) ∧
    ∀ q rest, l = q :: rest →
      (P.isValidPlanB ids fuel (q.tail.map PNode.action) (P.runAny ids fuel after Store.init)).1 = .ok true ∧ q.tail.length ≤ D ∧
      (∀ c ∈ q.tail.map PNode.action, CallsAction P t c) ∧
      ∀ plan, (∀ c ∈ plan, CallsAction P t c) →
        (P.isValidPlanB ids fuel plan (P.runAny ids fuel after Store.init)).1 = .ok true → q.tail.length ≤ plan.length := by
  have valid := C44_buffers t b k P hP hnd hops hclean ids fuel D hinit _ (.inl ⟨_, rfl⟩) before after l h
  have hi := runAny_inv P ids fuel before BufInv.init
  have hs : ∀ n, ByValue ((P.spaceB ids fuel).expand n) ((P.spaceB ids fuel).fresh.expand n) := fun n =>
    (childrenB_det P ids n).byValue
  have hroot : ByValue (P.plannerRootB fuel P.initial) (.ok (PNode.root P.initial)) := by
    have := (consistentFixB_det (m := P.omap) (axs := P.axioms) (fuel := fuel) fuel P.initial).byValue
    have h' : (Pddl.consistentFixB P.omap P.axioms fuel fuel P.initial Store.init).1 = .ok P.initial := hinit
    rw [h'] at this
    exact this.andThen (.pure _)
  have hrun : Bfs.run (P.spaceB ids fuel).fresh D (fun _ _ => false) fuel (PNode.root P.initial) = .ok l := by
    have hv := (hroot.andThen (f := Bfs.runB (P.spaceB ids fuel) D (fun _ _ => false) fuel)
      ((Bfs.nextB_val (d := D) (sv := (P.spaceB ids fuel).fresh) rfl hs _ fuel 0 (Bfs.start _)).bind fun it =>
        Bfs.collectB_val (d := D) rfl hs (fun _ _ => false) fuel fuel 1 it)).bind fun l => ByValue.pure (Pddl.Answer.plans l)
    have h := ((hv _ hi).1).symm.trans h
    obtain ⟨l', h1, h2⟩ := Res.bind_eq_ok.1 h
    cases h2
    exact h1
  obtain ⟨h4, h5, h6⟩ := C45_bfs_returned _ D _ fuel l hrun
  have conv : ∀ plan, (∀ c ∈ plan, CallsAction P t c) →
      (P.isValidPlanB ids fuel plan (P.runAny ids fuel after Store.init)).1 = .ok true →
      PlanFromB t P ids fuel P.initial plan := fun plan hc hv =>
    ((C36_buffers_plan P ids fuel after plan).1 hv).imp (fun s a ha hv => ⟨hc a ha, hv⟩) (fun s a s' h => h)
  have sound : ∀ q ∈ l, (P.isValidPlanB ids fuel (q.tail.map PNode.action) (P.runAny ids fuel after Store.init)).1 = .ok true ∧
      q.tail.length ≤ D ∧ ∀ c ∈ q.tail.map PNode.action, CallsAction P t c := by
    intro q hq
    obtain ⟨h7, h8⟩ := valid q hq
    refine ⟨h8, ?_, path_callsB t b k P hP hnd hops hclean ids ((h4 q).1 hq).path hact⟩
    rw [List.length_tail]
    omega
  have short : ∀ plan, PlanFromB t P ids fuel P.initial plan → plan.length ≤ D →
      ∃ p ∈ l, ∀ plan, PlanFromB t P ids fuel P.initial plan → p.length ≤ plan.length + 1 := by
    intro plan hp hD
    have hex : ∃ d plan, plan.length = d ∧ PlanFromB t P ids fuel P.initial plan := ⟨_, plan, rfl, hp⟩
    classical
    have hmin : ∀ plan, PlanFromB t P ids fuel P.initial plan → Nat.find hex ≤ plan.length :=
      fun plan' h' => Nat.find_min' hex ⟨plan', rfl, h'⟩
    have hle : Nat.find hex ≤ D := Nat.le_trans (hmin plan hp) hD
    obtain ⟨p, h1, h2⟩ := shortest_pathB t b k P hP hnd hops hclean ids hpar hact (Nat.find hex) (.root P.initial)
      (fun q m hq hno hm hl => by
        obtain ⟨g, h7, h8⟩ := h6 q m hq hno hm (by omega)
        exact ⟨g, h7, fun hf hl => h8 hf (by omega)⟩)
      (Nat.find_spec hex) hmin (by simp [PNode.root])
    refine ⟨p, (h4 p).2 ⟨h1.path, h1.reached, h1.first, ?_⟩, fun plan' h' => ?_⟩
    · rw [h2]; omega
    · rw [h2]; have := hmin plan' h'; omega
  refine ⟨⟨?_, ?_⟩, ?_⟩
  · rintro rfl plan hc hD hv
    obtain ⟨p, hm, -⟩ := short plan (conv plan hc hv) hD
    simp at hm
  · intro hno
    cases l with
    | nil => rfl
    | cons q l =>
      obtain ⟨h6, h7, h8⟩ := sound q (by simp)
      exact absurd h6 (hno _ h8 (by simpa using h7))
  · rintro q rest rfl
    obtain ⟨h6, h7, h8⟩ := sound q (by simp)
    refine ⟨h6, h7, h8, fun plan hc hv => ?_⟩
    by_cases hD : plan.length ≤ D
    · obtain ⟨p, hm, hmin⟩ := short plan (conv plan hc hv) hD
      have hle : q.length ≤ p.length := by
        rcases List.mem_cons.1 hm with rfl | hm
        · exact Nat.le_refl _
        · exact (List.pairwise_cons.1 h5).1 p hm
      have := hmin plan (conv plan hc hv)
      rw [List.length_tail]
      omega
    · omega
end

namespace Buffers
open Demo
attribute [local instance] lenHash

/-- The plans of an answer. -/
def plansOf : Res Pddl.Answer → Option (List (List PNode))
  | .ok (.plans l) => some l
  | _ => none

theorem plansOf_some {r : Res Pddl.Answer} {l : List (List PNode)} (h : plansOf r = some l) : r = .ok (.plans l) := by
  cases r with
  | ok a => cases a <;> simp_all [plansOf]
  | exc _ => simp [plansOf] at h
  | ub => simp [plansOf] at h
  | fuel => simp [plansOf] at h

/-- In the domain whose axiom triggers itself no plan is empty: the one the search finds first has one action. -/
example (before after : List Pddl.AnyCall) (l : List (List PNode))
    (h : (swirlP.answerB (fun _ => 7) 30 (.bfs 1 (fun _ _ => false) swirlP.initial)
      (swirlP.runAny (fun _ => 7) 30 before Store.init)).1 = .ok (.plans l)) (hl : l ≠ []) :
    ∃ plan, plan.length ≤ 1 ∧
      (swirlP.isValidPlanB (fun _ => 7) 30 plan (swirlP.runAny (fun _ => 7) 30 after Store.init)).1 = .ok true ∧
      ∀ other, (∀ c ∈ other, CallsAction swirlP swirlTree c) →
        (swirlP.isValidPlanB (fun _ => 7) 30 other (swirlP.runAny (fun _ => 7) 30 after Store.init)).1 = .ok true →
        plan.length ≤ other.length := by
  have main := C57_buffers_partial swirlTree true 5 swirlP swirlP_made (by decide) swirl_callable (by
    intro o ho
    change o ∈ [table, a, b] at ho
    simp only [List.mem_cons, List.not_mem_nil, or_false] at ho
    rcases ho with rfl | rfl | rfl <;> simp [CleanArg, IsSep, a, b, table])
    (fun _ => 7) 30 1 (by
      rw [(Pddl.built swirlP_made).actions]
      simp [swirlTree, rotTree, put]) (by
      intro op hop ha
      simp only [swirlTree, rotTree, List.mem_cons, List.not_mem_nil, or_false] at hop
      rcases hop with rfl | rfl
      · simp [put]
      · simp [rot] at ha) (by decide +kernel) before after l h
  obtain ⟨q, rest, rfl⟩ := List.exists_cons_of_ne_nil hl
  obtain ⟨h1, h2, -, h4⟩ := main.2 q rest rfl
  exact ⟨_, by simpa using h2, h1, by simpa using h4⟩

/-- That search returns, and finds a plan. -/
example : (plansOf (swirlP.answerB (fun _ => 7) 30 (.bfs 1 (fun _ _ => false) swirlP.initial) Store.init).1).map List.length =
    some 1 := by decide +kernel
end Buffers

end Symbolic
