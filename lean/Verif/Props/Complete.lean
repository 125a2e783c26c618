import Mathlib.Data.Nat.Find
import Verif.Props.Returns
import Verif.Props.Planner
import Verif.Props.Search

/-!
# C57: the planner finds a shortest plan whenever there is one
-/

namespace Symbolic

/-- The string calls an action (not an axiom) of the domain. -/
def CallsAction [StrHash] (P : Pddl) (t : Ptree) (call : Name) : Prop :=
  ∃ op as, P.parseAction call = .ok (op, as) ∧ op ∈ t.ops ∧ op.isAxiom = false

/-- A plan from `s` whose steps are actions. -/
def PlanFrom [StrHash] (P : Pddl) (t : Ptree) (fuel : Nat) (s : State) (plan : List Name) : Prop :=
  Achieves (fun s a => CallsAction P t a ∧ P.isValidAction s a = .ok true) (fun s a s' => P.nextState fuel s a = .ok s')
    (fun s => P.isGoalSatisfied s = .ok true) s plan

theorem Achieves.imp [StrHash] {v v' : State → Name → Prop} {st st' : State → Name → State → Prop} {g : State → Prop}
    {s : State} {plan : List Name} (h : Achieves v st g s plan) (hv : ∀ s, ∀ a ∈ plan, v s a → v' s a)
    (hs : ∀ s a s', st s a s' → st' s a s') : Achieves v' st' g s plan := by
  induction h with
  | done h => exact .done h
  | step h1 h2 _ ih =>
    exact .step (hv _ _ (by simp) h1) (hs _ _ _ h2) (ih (fun s a ha => hv s a (by simp [ha])))

theorem Offspring.mem_of [StrHash] {α : Type} {valid invalid : α → Prop} {step : α → State → Prop} {seen : State → Prop}
    {as : List α} {cs : List (α × State)} (h : Offspring valid invalid step seen as cs)
    (hex : ∀ a, valid a → ¬ invalid a) (hfn : ∀ a s s', step a s → step a s' → s = s') {a : α} {s : State}
    (ha : a ∈ as) (hv : valid a) (hs : step a s) (hn : ¬ seen s) : (a, s) ∈ cs := by
  induction h with
  | nil => simp at ha
  | skip h1 _ ih =>
    rcases List.mem_cons.1 ha with rfl | ha
    · exact absurd h1 (hex _ hv)
    · exact ih ha
  | repeated h1 h2 h3 _ ih =>
    rcases List.mem_cons.1 ha with rfl | ha
    · rw [hfn _ _ _ h2 hs] at h3; exact absurd h3 hn
    · exact ih ha
  | child h1 h2 h3 _ ih =>
    rcases List.mem_cons.1 ha with rfl | ha
    · rw [hfn _ _ _ h2 hs]; simp
    · exact List.mem_cons_of_mem _ (ih ha)

theorem Offspring.total [StrHash] {α : Type} {valid invalid : α → Prop} {step : α → State → Prop} {seen : State → Prop} :
    ∀ {as : List α}, (∀ a ∈ as, valid a ∨ invalid a) → (∀ a ∈ as, ∃ s, step a s) →
    ∃ cs, Offspring valid invalid step seen as cs
  | [], _, _ => ⟨[], .nil⟩
  | a :: as, hv, hs => by
    obtain ⟨cs, ih⟩ := Offspring.total (as := as) (fun a h => hv a (by simp [h])) (fun a h => hs a (by simp [h]))
    rcases hv a (by simp) with h | h
    · obtain ⟨s, hst⟩ := hs a (by simp)
      by_cases hn : seen s
      · exact ⟨cs, .repeated h hst hn ih⟩
      · exact ⟨_, .child h hst hn ih⟩
    · exact ⟨cs, .skip h ih⟩

theorem Offspring.fst_mem [StrHash] {α : Type} {valid invalid : α → Prop} {step : α → State → Prop} {seen : State → Prop}
    {as : List α} {cs : List (α × State)} (h : Offspring valid invalid step seen as cs) : ∀ c ∈ cs, c.1 ∈ as := by
  induction h with
  | nil => simp
  | skip _ _ ih => exact fun c hc => List.mem_cons_of_mem _ (ih c hc)
  | repeated _ _ _ _ ih => exact fun c hc => List.mem_cons_of_mem _ (ih c hc)
  | child h1 h2 _ _ ih =>
    intro c hc
    rcases List.mem_cons.1 hc with rfl | hc
    · simp
    · exact List.mem_cons_of_mem _ (ih c hc)

/-- A larger budget does not change a plan that was accepted. -/
theorem isValidPlan_mono [StrHash] (P : Pddl) {m fuel : Nat} (h : m ≤ fuel) {plan : List Name}
    (hv : P.isValidPlan m plan = .ok true) : P.isValidPlan fuel plan = .ok true :=
  (C36_valid_plan P fuel plan).2 (((C36_valid_plan P m plan).1 hv).imp (fun _ _ _ hv => hv) (fun s a s' hs => by
    simp only [Pddl.nextState, Res.bind_eq_ok] at hs ⊢
    obtain ⟨oa, h1, h2⟩ := hs
    refine ⟨oa, h1, ?_⟩
    rcases P.applyOp_le oa.1 oa.2 s h with h | h
    · rw [h2] at h; cases h
    · rw [h, h2]))

theorem wellTyped_of {objects : List Obj} : ∀ {ps as : List Obj}, (∀ o ∈ as, o ∈ objects) →
    List.Forall₂ (fun p a => HasType a p.typeName) ps as → WellTyped objects ps as
  | _, _, _, .nil => .nil
  | _, _, hm, .cons h hs => .cons ⟨hm _ (by simp), h⟩ (wellTyped_of (fun o ho => hm o (by simp [ho])) hs)

section
variable [StrHash] (t : Ptree) (b : Bool) (k : Nat) (P : Pddl) (hP : Pddl.make t b k = .ok P)
  (hw : t.WellFormed) (hl : t.NoLoops) (hops : Callable t) (hclean : ∀ o ∈ t.constants ++ t.objects, CleanArg o.name)
include hP hw hl hops hclean

/-- Goal test and expansion of every planner node return. -/
theorem space_returns (hact : P.actions ≠ []) : ∃ F, ∀ fuel ≥ F, ∀ n : PNode,
    (∃ v, (P.space fuel).goal n = .ok v) ∧ ∃ cs, (P.space fuel).expand n = .ok cs := by
  obtain ⟨F, hF⟩ := C56_next_state_returns t b k P hP hw hl
  refine ⟨F, fun fuel hf n => ⟨(C56_tests_return t b k P hP hw n.state).2, ?_⟩⟩
  obtain ⟨l, hl⟩ := Offspring.total (as := instances P P.actions)
    (valid := fun a : Op × List Obj => P.isValidAction n.state (Pddl.callOf a.1 a.2) = .ok true)
    (invalid := fun a => P.isValidAction n.state (Pddl.callOf a.1 a.2) = .ok false)
    (step := fun a s => P.nextState fuel n.state (Pddl.callOf a.1 a.2) = .ok s)
    (seen := fun s => s = n.state ∨ s ∈ n.anc)
    (fun a ha => by
      obtain ⟨v, hv⟩ := (C56_tests_return t b k P hP hw n.state).1 _ _ (parse_instance t b k P hP hw.names hops hclean ha)
      cases v with
      | true => exact Or.inl hv
      | false => exact Or.inr hv)
    (fun a ha => by
      obtain ⟨s', hs⟩ := hF n.state _ _ (parse_instance t b k P hP hw.names hops hclean ha)
      exact ⟨s', hs fuel hf⟩)
  obtain ⟨cs, h, -⟩ := C43_children_return t b k P hP hw.names hops hclean fuel n hact l hl
  exact ⟨cs, h⟩

omit hl in
/-- A valid step to a state that was not seen is a child. -/
theorem step_child (hpar : ∀ op ∈ t.ops, op.isAxiom = false → op.params ≠ []) (hact : P.actions ≠ []) {fuel : Nat}
    {n : PNode} {cs : List PNode} (hcs : (P.space fuel).expand n = .ok cs) {call : Name} {s : State}
    (hc : CallsAction P t call) (hv : P.isValidAction n.state call = .ok true)
    (hs : P.nextState fuel n.state call = .ok s) (hn : s ≠ n.state) (hn' : s ∉ n.anc) :
    ∃ c, (P.space fuel).Child n c ∧ c.state = s ∧ ∀ x, x ∈ c.anc ↔ x = n.state ∨ x ∈ n.anc := by
  have hcs' : P.children fuel n = .ok cs := hcs
  obtain ⟨l, anc, h1, h2, h3⟩ := C43_children t b k P hP hw.names hops hclean fuel n cs hact hcs'
  obtain ⟨op, as, hp, ho, ha⟩ := hc
  obtain ⟨head, ws, -, -, h6, h7⟩ := (C15_parse_accepts_exactly t b k P hP call op as).1 hp
  have hmem : ∀ o ∈ as, o ∈ t.constants ++ t.objects := by
    intro o ho
    clear h7 hp hv hs
    induction h6 with
    | nil => simp at ho
    | cons h _ ih =>
      rcases List.mem_cons.1 ho with rfl | ho
      · exact h.mem
      · exact ih ho
  have hwt : WellTyped (t.constants ++ t.objects) op.params as := wellTyped_of hmem h7
  have hi : (op, as) ∈ instances P P.actions := (C43_instances t b k P hP op as).2 ⟨ho, ha, hpar op ho ha, hwt⟩
  have hpi := parse_instance t b k P hP hw.names hops hclean hi
  have hv' : P.isValidAction n.state (Pddl.callOf op as) = .ok true := by
    simp only [Pddl.isValidAction, hpi, Res.bind_ok]
    simpa only [Pddl.isValidAction, hp, Res.bind_ok] using hv
  have hs' : P.nextState fuel n.state (Pddl.callOf op as) = .ok s := by
    simp only [Pddl.nextState, hpi, Res.bind_ok]
    simpa only [Pddl.nextState, hp, Res.bind_ok] using hs
  have hm := h1.mem_of (fun a h h' => by rw [h] at h'; cases h') (fun a s s' h h' => by rw [h] at h'; cases h'; rfl) hi hv' hs'
    (by simp only [not_or]; exact ⟨hn, hn'⟩)
  refine ⟨⟨s, anc, Pddl.callOf op as, n.depth + 1⟩, ⟨cs, hcs, ?_⟩, rfl, h2⟩
  rw [h3]; exact List.mem_map.2 ⟨((op, as), s), hm, rfl⟩

/-- A shortest plan gives a path of nodes. -/
theorem shortest_path (hpar : ∀ op ∈ t.ops, op.isAxiom = false → op.params ≠ []) (hact : P.actions ≠ []) {fuel : Nat}
    (hex : ∀ n : PNode, ∃ cs, (P.space fuel).expand n = .ok cs) : ∀ (d : Nat) (n : PNode),
    (∃ plan, plan.length = d ∧ PlanFrom P t fuel n.state plan) →
    (∀ plan, PlanFrom P t fuel n.state plan → d ≤ plan.length) →
    (∀ x ∈ n.anc, ∀ plan, PlanFrom P t fuel x plan → d < plan.length) →
    ∃ p, PlanPath (P.space fuel).Child (P.space fuel).Goal d n p ∧ p.length = d + 1
  | 0, n, ⟨plan, h0, h⟩, hmin, hanc => by
    cases plan with
    | cons _ _ => simp at h0
    | nil =>
      cases h with
      | done hg => exact ⟨[n], ⟨.single n, ⟨n, rfl, hg⟩, by simp, by simp⟩, rfl⟩
  | d + 1, n, ⟨plan, h0, h⟩, hmin, hanc => by
    cases h with
    | done _ => simp at h0
    | @step _ s' a as hv hs hrest =>
      have hlen : as.length = d := by simpa using h0
      have hmin' : ∀ plan, PlanFrom P t fuel s' plan → d ≤ plan.length := by
        intro plan hp
        have := hmin (a :: plan) (.step hv hs hp)
        simp only [List.length_cons] at this
        omega
      have hne : s' ≠ n.state := by
        rintro rfl
        have := hmin as hrest
        omega
      have hna : s' ∉ n.anc := by
        intro hm
        have := hanc s' hm as hrest
        omega
      obtain ⟨cs, hcs⟩ := hex n
      obtain ⟨c, h1, h2, h3⟩ := step_child t b k P hP hw hops hclean hpar hact hcs hv.1 hv.2 hs hne hna
      obtain ⟨p, h4, h5⟩ := shortest_path hpar hact hex d c (by rw [h2]; exact ⟨as, hlen, hrest⟩) (by rw [h2]; exact hmin')
        (by
          intro x hx plan hp
          rcases (h3 x).1 hx with rfl | hx
          · have := hmin plan hp; omega
          · have := hanc x hx plan hp; omega)
      refine ⟨n :: p, ⟨.cons h1 h4.path, ?_, ?_, by simp [h5]⟩, by simp [h5]⟩
      · obtain ⟨g, hg1, hg2⟩ := h4.reached
        cases p with
        | nil => simp at h5
        | cons q p => exact ⟨g, by simpa using hg1, hg2⟩
      · intro m hm
        cases p with
        | nil => simp at h5
        | cons q p =>
          simp only [List.dropLast_cons_cons, List.mem_cons] at hm
          rcases hm with rfl | hm
          · intro hg
            have := hmin [] (.done hg)
            simp at this
          · exact h4.first m hm

omit hl in
/-- The action strings along a path call actions. -/
theorem path_calls {fuel : Nat} {root : PNode} {p : List PNode} (hp : IsPath (P.space fuel).Child root p) :
    ∀ c ∈ p.tail.map PNode.action, CallsAction P t c := by
  induction hp with
  | single r => simp
  | @cons r c p hc hp ih =>
    have hh := hp.head
    cases p with
    | nil => simp at hh
    | cons x xs =>
      simp only [List.head?_cons, Option.some.injEq] at hh
      subst hh
      simp only [List.tail_cons, List.map_cons, List.mem_cons]
      rintro a (rfl | ha)
      · obtain ⟨l, hl, hm⟩ := hc
        have hl : P.children fuel r = .ok l := hl
        have hact : P.actions ≠ [] := by
          intro he; rw [C43_no_actions_refuted P he] at hl; cases hl
        obtain ⟨cs, anc, h1, -, rfl⟩ := C43_children t b k P hP hw.names hops hclean fuel r l hact hl
        obtain ⟨y, hy, rfl⟩ := List.mem_map.1 hm
        have hi := h1.fst_mem y hy
        obtain ⟨h2, h3, -, -⟩ := (C43_instances t b k P hP y.1.1 y.1.2).1 hi
        exact ⟨_, _, parse_instance t b k P hP hw.names hops hclean hi, h2, h3⟩
      · exact ih a ha

/-- **C57.** In a well-formed domain without loops whose actions all have parameters, and whose initial state satisfies the
axioms: breadth-first search over `Planner` returns. It finds nothing iff `IsValidPlan` rejects every list of at most
`max_depth` action calls; otherwise the first plan it finds is one that `IsValidPlan` accepts, of at most `max_depth` calls
of actions, and no valid plan is shorter. -/
theorem C57_planner_decides_partial (hact : P.actions ≠ [])
    (hpar : ∀ op ∈ t.ops, op.isAxiom = false → op.params ≠ [])
    (j : Nat) (hinit : P.isValidState j P.initial = .ok true) (D : Nat) :
    ∃ F, ∀ fuel ≥ F, ∃ root, P.plannerRoot fuel P.initial = .ok root ∧
      ∃ F', ∀ steps ≥ F', ∃ l, Bfs.run (P.space fuel) D (fun _ _ => false) steps root = .ok l ∧
        (l = [] ↔ ∀ plan, (∀ c ∈ plan, CallsAction P t c) → plan.length ≤ D → P.isValidPlan fuel plan = .ok false) ∧
        ∀ q rest, l = q :: rest →
          P.isValidPlan fuel (q.tail.map PNode.action) = .ok true ∧ q.tail.length ≤ D ∧
          (∀ c ∈ q.tail.map PNode.action, CallsAction P t c) ∧
          ∀ plan, (∀ c ∈ plan, CallsAction P t c) → P.isValidPlan fuel plan = .ok true → q.tail.length ≤ plan.length := by
  obtain ⟨F, hF⟩ := space_returns t b k P hP hw hl hops hclean hact
  obtain ⟨F2, hF2⟩ := C56_plans_return t b k P hP hw hl
  refine ⟨F + F2 + j + 1, fun fuel hf => ⟨.root P.initial, ?_, ?_⟩⟩
  · simp only [Pddl.plannerRoot, C31_valid_state_is_consistent P j _ hinit fuel (by omega), Res.bind_ok, Res.pure_eq]
  have hret := hF fuel (by omega)
  choose g hg using fun n => (hret n).1
  choose ch hch using fun n => (hret n).2
  have ht : (P.space fuel).Total (.root P.initial) g ch := ⟨fun n _ _ _ => hg n, fun n _ _ _ => hch n⟩
  obtain ⟨F', hF'⟩ := C45_bfs_complete (P.space fuel) D (.root P.initial) g ch ht
  refine ⟨F', fun steps hst => ?_⟩
  obtain ⟨l, h3, h4, h5, -⟩ := hF' steps hst
  have conv : ∀ plan, (∀ c ∈ plan, CallsAction P t c) → P.isValidPlan fuel plan = .ok true →
      PlanFrom P t fuel P.initial plan := fun plan hc hv =>
    ((C36_valid_plan P fuel plan).1 hv).imp (fun s a ha hv => ⟨hc a ha, hv⟩) (fun s a s' h => h)
  have sound : ∀ q ∈ l, P.isValidPlan fuel (q.tail.map PNode.action) = .ok true ∧ q.tail.length ≤ D ∧
      ∀ c ∈ q.tail.map PNode.action, CallsAction P t c := by
    intro q hq
    have hq := (h4 q).1 hq
    refine ⟨C44_planner_plans_valid t b k P hP hw.names hops hclean fuel D _ rfl q hq, ?_,
      path_calls t b k P hP hw hops hclean hq.path⟩
    have := hq.length
    rw [List.length_tail]
    omega
  -- a shortest plan gives a path, so it is no shorter than the first one found
  have short : ∀ plan, PlanFrom P t fuel P.initial plan → plan.length ≤ D →
      ∃ p ∈ l, ∀ plan, PlanFrom P t fuel P.initial plan → p.length ≤ plan.length + 1 := by
    intro plan hp hD
    have hex : ∃ d plan, plan.length = d ∧ PlanFrom P t fuel P.initial plan := ⟨_, plan, rfl, hp⟩
    classical
    have hmin : ∀ plan, PlanFrom P t fuel P.initial plan → Nat.find hex ≤ plan.length :=
      fun plan' h' => Nat.find_min' hex ⟨plan', rfl, h'⟩
    obtain ⟨p, h1, h2⟩ := shortest_path t b k P hP hw hl hops hclean hpar hact (fun n => (hret n).2) (Nat.find hex)
      (.root P.initial) (Nat.find_spec hex) hmin (by simp [PNode.root])
    refine ⟨p, (h4 p).2 ⟨h1.path, h1.reached, h1.first, ?_⟩, fun plan' h' => ?_⟩
    · rw [h2]; have := hmin plan hp; omega
    · rw [h2]; have := hmin plan' h'; omega
  refine ⟨l, h3, ⟨?_, ?_⟩, ?_⟩
  · rintro rfl plan hc hD
    obtain ⟨v, hv⟩ := (hF2 plan (fun c hm => by obtain ⟨op, as, h, -⟩ := hc c hm; exact ⟨_, h⟩)).1
    have hv := hv fuel (by omega)
    cases v with
    | false => exact hv
    | true =>
      obtain ⟨p, hm, -⟩ := short plan (conv plan hc hv) hD
      simp at hm
  · intro hno
    cases l with
    | nil => rfl
    | cons q l =>
      obtain ⟨h6, h7, h8⟩ := sound q (by simp)
      have := hno _ h8 (by simpa using h7)
      rw [h6] at this
      cases this
  · rintro q rest rfl
    obtain ⟨h6, h7, h8⟩ := sound q (by simp)
    refine ⟨h6, h7, h8, fun plan hc hv => ?_⟩
    by_cases hD : plan.length ≤ D
    · obtain ⟨p, hm, hmin⟩ := short plan (conv plan hc hv) hD
      have hle : q.length ≤ p.length := by
        rcases List.mem_cons.1 hm with rfl | hm
        · exact Nat.le_refl _
        · exact (List.pairwise_cons.1 h5).1 p hm
      have := hmin plan (conv plan hc hv)
      rw [List.length_tail]
      omega
    · omega

omit hw hl hops hclean in
/-- **C57.** A Pddl constructed with `apply_axioms` has an initial state that satisfies the axioms. -/
theorem C57_initial_valid (hb : b = true) : P.isValidState k P.initial = .ok true := by
  have B := Pddl.built hP
  subst hb
  simp only [Pddl.make, Res.bind_eq_ok] at hP
  obtain ⟨axs0, h0, ⟨⟩, h1, ⟨⟩, h2, h⟩ := hP
  split at h
  · simp at h
  · simp only [Res.bind_eq_ok, Res.pure_eq, Res.ok.injEq, if_true] at h
    obtain ⟨⟨⟩, h3, axs, h4, ⟨⟩, h5, init, h6, rfl⟩ := h
    exact (C31_consistent_state_is_valid ⟨t, t.constants, t.constants ++ t.objects, _, axs, _, init⟩ k (State.ofList t.init) _ h6 k (Nat.le_refl _)).1

end

section
open Demo
attribute [local instance] lenHash

/-- The demo domain meets the hypotheses; the search finds its shortest plan of two actions. -/
example : ∃ F, ∀ fuel ≥ F, ∃ root, P.plannerRoot fuel P.initial = .ok root ∧
    ∃ F', ∀ steps ≥ F', ∃ q l, Bfs.run (P.space fuel) 3 (fun _ _ => false) steps root = .ok (q :: l) ∧ q.length ≤ 3 := by
  have hc : Callable tree := by
    intro op hop ha
    simp only [tree, List.mem_cons, List.not_mem_nil, or_false] at hop
    rcases hop with rfl | rfl | rfl
    · exact ⟨⟨[], _, rfl, rfl, by simp⟩, by simp [CleanHead, pick]⟩
    · exact ⟨⟨[pick], _, rfl, rfl, by simp [pick, place]⟩, by simp [CleanHead, place]⟩
    · simp [held] at ha
  have ho : ∀ o ∈ tree.constants ++ tree.objects, CleanArg o.name := by
    intro o ho
    simp only [tree, List.cons_append, List.nil_append, List.mem_cons, List.not_mem_nil, or_false] at ho
    rcases ho with rfl | rfl | rfl <;> exact ⟨by decide, by simp [IsSep, Demo.a, Demo.b, table]⟩
  have call : ∀ op as, op ∈ tree.ops → op.isAxiom = false → WellTyped (tree.constants ++ tree.objects) op.params as →
      P.parseAction (Pddl.callOf op as) = .ok (op, as) := fun op as h1 h2 h3 =>
    C14_action_round_trip tree true 5 P P_made op as (hc op h1 h2).1 h3 demo_wellFormed.names
      ⟨(hc op h1 h2).2, fun o h => ho o (WellTyped.mem h3 h).1⟩
  have hv : P.isValidPlan 5 [n!"pick(a)", n!"place(a, b)"] = .ok true := by decide +kernel
  have e1 : Pddl.callOf pick [Demo.a] = n!"pick(a)" := by decide
  have e2 : Pddl.callOf place [Demo.a, Demo.b] = n!"place(a, b)" := by decide
  have hcalls : ∀ c ∈ [n!"pick(a)", n!"place(a, b)"], CallsAction P tree c := by
    intro c hm
    simp only [List.mem_cons, List.not_mem_nil, or_false] at hm
    rcases hm with rfl | rfl
    · exact ⟨pick, [Demo.a], e1 ▸ call pick [Demo.a] (by simp [tree]) rfl
        (.cons ⟨by simp [tree], by unfold HasType; decide⟩ .nil), by simp [tree], rfl⟩
    · exact ⟨place, [Demo.a, Demo.b], e2 ▸ call place [Demo.a, Demo.b] (by simp [tree]) rfl
        (.cons ⟨by simp [tree], by unfold HasType; decide⟩
          (.cons ⟨by simp [tree], by unfold HasType; decide⟩ .nil)), by simp [tree], rfl⟩
  obtain ⟨F, hF⟩ := C57_planner_decides_partial tree true 5 P P_made demo_wellFormed demo_noLoops hc ho (by decide +kernel)
    (by decide) 5 (C57_initial_valid tree true 5 P P_made rfl) 3
  refine ⟨F + 5, fun fuel hf => ?_⟩
  obtain ⟨root, h1, F', h2⟩ := hF fuel (by omega)
  refine ⟨root, h1, F', fun steps hs => ?_⟩
  obtain ⟨l, h3, h4, h5⟩ := h2 steps hs
  have hv' : P.isValidPlan fuel [n!"pick(a)", n!"place(a, b)"] = .ok true := by
    exact isValidPlan_mono P (by omega) hv
  cases l with
  | nil =>
    have := h4.1 rfl _ hcalls (by decide)
    rw [hv'] at this; cases this
  | cons q l =>
    obtain ⟨-, -, -, h6⟩ := h5 q l rfl
    have := h6 _ hcalls hv'
    rw [List.length_tail] at this
    exact ⟨q, l, h3, by simp only [List.length_cons, List.length_nil] at this; omega⟩

/-- The plan `["reset()"]` for the domain whose only action has no parameters. -/
def resetGoal : Ptree := { resetTree with goal := .atom n!"on" [.const a, .const b] }
theorem resetGoalMade : (Pddl.make resetGoal true 5).isOk = true := by decide +kernel
def resetGoalP : Pddl := get _ resetGoalMade

/-- **C57, refuted for actions without parameters:** `["reset()"]` is a valid plan; the planner finds nothing. -/
theorem C57_nullary_refuted :
    resetGoalP.isValidPlan 5 [n!"reset()"] = .ok true ∧
    (do let root ← resetGoalP.plannerRoot 5 resetGoalP.initial
        Bfs.run (resetGoalP.space 5) 3 (fun _ _ => false) 50 root) = .ok [] := by decide +kernel

end

end Symbolic
