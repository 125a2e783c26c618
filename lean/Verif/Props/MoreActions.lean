import Verif.Spec.MoreActions
import Verif.Props.MoreObjects
import Verif.Props.Complete
import Verif.Model.PddlBuf
import Verif.Model.Normalize

/-!
# C108: more actions
-/

namespace Symbolic

section
variable [StrHash] {t t' : Ptree} {b b' : Bool} {n n' : Nat} {P P' : Pddl}

/-- What the constructor makes of axioms. -/
theorem make_axioms {t : Ptree} {b : Bool} {n : Nat} {P : Pddl} (hP : Pddl.make t b n = .ok P) :
    ∃ axs, Pddl.makeAxioms ⟨t.constants ++ t.objects, ObjMap.create (t.constants ++ t.objects), []⟩ [] (t.ops.filter (·.isAxiom)) =
        .ok axs ∧
      Pddl.makeAxioms ⟨t.constants ++ t.objects, ObjMap.create (t.constants ++ t.objects), []⟩ axs (t.ops.filter (·.isAxiom)) =
        .ok P.axioms := by
  simp only [Pddl.make, Res.bind_eq_ok] at hP
  obtain ⟨axs0, h0, ⟨⟩, h1, ⟨⟩, h2, h⟩ := hP
  split at h
  · simp at h
  · simp only [Res.bind_eq_ok, Res.pure_eq, Res.ok.injEq] at h
    obtain ⟨⟨⟩, h3, axs, h4, ⟨⟩, h5, init, h6, rfl⟩ := h
    exact ⟨axs0, h0, h4⟩

/-- The parts of the two Pddls that do not concern actions. -/
theorem moreActions_parts (hP : Pddl.make t b n = .ok P) (hP' : Pddl.make t' b' n' = .ok P') (h : MoreActions t t') :
    P'.omap = P.omap ∧ P'.axioms = P.axioms ∧ P'.objects = P.objects ∧ P'.drvs = P.drvs ∧ P'.symbols = P.symbols ∧
      P'.tree.goal = P.tree.goal := by
  have B := Pddl.built hP
  have B' := Pddl.built hP'
  obtain ⟨axs, h1, h2⟩ := make_axioms hP
  obtain ⟨axs', h1', h2'⟩ := make_axioms hP'
  have ha := h.axioms
  simp only [h.constants, h.objects, ha] at h1' h2'
  rw [h1] at h1'
  cases h1'
  rw [h2] at h2'
  simp only [Res.ok.injEq] at h2'
  refine ⟨by rw [B.omap, B'.omap, h.constants, h.objects], h2'.symm, by rw [B.objects, B'.objects, h.constants, h.objects], ?_, ?_, ?_⟩
  · rw [Pddl.drvs, Pddl.drvs, B.tree, B'.tree, h.drvs]
  · rw [Pddl.symbols, Pddl.symbols, B.tree, B'.tree, h.constants, h.objects]
  · rw [B.tree, B'.tree, h.goal]

theorem moreActions_parse (hP : Pddl.make t b n = .ok P) (hP' : Pddl.make t' b' n' = .ok P') (h : MoreActions t t') {call : Name}
    (hc : CallsOf t call) : P'.parseAction call = P.parseAction call := by
  obtain ⟨h1, h2, -, -, h3, -⟩ := moreActions_parts hP hP' h
  have B := Pddl.built hP
  have B' := Pddl.built hP'
  have hg : P'.getOp (parseHead call) = P.getOp (parseHead call) := by
    obtain ⟨op, args, hs, hm⟩ := hc
    rw [hs.head_eq]
    obtain ⟨op', ho⟩ : ∃ op', P.getOp op.name = .ok op' := by
      rw [Pddl.getOp, B.tree]
      cases hf : t.ops.find? (fun o => decide (o.name = op.name)) with
      | some op' => exact ⟨op', rfl⟩
      | none =>
        rw [List.find?_eq_none] at hf
        simpa using hf op hm
    rw [ho, getOp_ok, B'.tree]
    rw [getOp_ok, B.tree] at ho
    exact h.named _ _ ho
  rw [Pddl.parseAction, Pddl.parseAction, hg, h1, h2, h3]

/-- **C108, calls.** Everything that is asked about a call of an operator of the smaller domain is answered in the same way, in
every State, whether the answer is a value, an exception or undefined. -/
theorem C108_calls (hP : Pddl.make t b n = .ok P) (hP' : Pddl.make t' b' n' = .ok P') (h : MoreActions t t') (call : Name)
    (hc : CallsOf t call) (s : State) (k : Nat) :
    P'.isValidAction s call = P.isValidAction s call ∧ P'.nextState k s call = P.nextState k s call ∧
      (∀ s', P'.isValidTuple k s call s' = P.isValidTuple k s call s') ∧
      ∀ ax, P'.normalizePre k call ax = P.normalizePre k call ax ∧ P'.normalizePost k call ax = P.normalizePost k call ax ∧
        P'.normalizeConditions k call ax = P.normalizeConditions k call ax := by
  obtain ⟨h1, h2, h3, h4, h5, -⟩ := moreActions_parts hP hP' h
  have hp := moreActions_parse hP hP' h hc
  have hctx : P'.ctx = P.ctx := by rw [Pddl.ctx, Pddl.ctx, h1, h3]
  have hcs : ∀ d, P'.consistentConjs k d = P.consistentConjs k d := by
    intro d
    induction d with
    | nil => rfl
    | cons c d ih => simp only [Pddl.consistentConjs, ih, Pddl.consistentStateP, h1, h2]
  have hcd : ∀ ax d, P'.completeDnf k ax d = P.completeDnf k ax d := by
    intro ax d
    cases d with
    | none => rfl
    | some d => simp only [Pddl.completeDnf, hcs]
  refine ⟨by simp only [Pddl.isValidAction, hp, h1], by simp only [Pddl.nextState, hp, Pddl.applyOp, h1, h2, h4],
    fun s' => by simp only [Pddl.isValidTuple, hp, Pddl.applyOp, h1, h2, h4], fun ax => ⟨?_, ?_, ?_⟩⟩
  · simp only [Pddl.normalizePre, hp, hctx, hcd]
  · simp only [Pddl.normalizePost, hp, hctx, hcd]
  · simp only [Pddl.normalizeConditions, hp, hctx, hcs]

/-- **C108, states.** What does not concern actions is the same. -/
theorem C108_states (hP : Pddl.make t b n = .ok P) (hP' : Pddl.make t' b' n' = .ok P') (h : MoreActions t t') (k : Nat) (s : State)
    (p : PartialState) :
    P'.derivedState k s = P.derivedState k s ∧ P'.consistentState k s = P.consistentState k s ∧
      P'.consistentStateP k p = P.consistentStateP k p ∧ P'.isValidState k s = P.isValidState k s ∧
      P'.isValidStateP k p = P.isValidStateP k p ∧ P'.isGoalSatisfied s = P.isGoalSatisfied s := by
  obtain ⟨h1, h2, -, h4, -, h6⟩ := moreActions_parts hP hP' h
  refine ⟨?_, ?_, ?_, ?_, ?_, ?_⟩
  · simp only [Pddl.derivedState, h1, h4]
  · simp only [Pddl.consistentState, h1, h2]
  · simp only [Pddl.consistentStateP, h1, h2]
  · simp only [Pddl.isValidState, h1, h2]
  · simp only [Pddl.isValidStateP, h1, h2]
  · simp only [Pddl.isGoalSatisfied, h1, h6]

/-- The initial states are equal. -/
theorem moreActions_initial (hP : Pddl.make t b n = .ok P) (hP' : Pddl.make t' b n' = .ok P') (h : MoreActions t t')
    (hi : t'.init = t.init) : P'.initial = P.initial := by
  have key : ∀ {t : Ptree} {n : Nat} {P : Pddl}, Pddl.make t b n = .ok P →
      (if b then P.consistentState n (State.ofList t.init) else pure (State.ofList t.init)) = .ok P.initial := by
    intro t n P hP
    simp only [Pddl.make, Res.bind_eq_ok] at hP
    obtain ⟨axs0, h0, ⟨⟩, h1, ⟨⟩, h2, h⟩ := hP
    split at h
    · simp at h
    · simp only [Res.bind_eq_ok, Res.pure_eq, Res.ok.injEq] at h
      obtain ⟨⟨⟩, h3, axs, h4, ⟨⟩, h5, init, h6, rfl⟩ := h
      exact h6
  have e := key hP
  have e' := key hP'
  rw [hi] at e'
  cases b with
  | false =>
    simp only [Bool.false_eq_true, if_false] at e e'
    rw [e] at e'
    simpa using e'.symm
  | true =>
    simp only [if_true] at e e'
    rw [(C108_states hP hP' h n' _ ⟨State.empty, State.empty⟩).2.1] at e'
    rcases Nat.le_total n n' with hn | hn
    · rcases P.consistentState_le (State.ofList t.init) hn with h7 | h7
      · rw [h7] at e; simp at e
      · rw [h7, e] at e'; simpa using e'.symm
    · rcases P.consistentState_le (State.ofList t.init) hn with h7 | h7
      · rw [h7] at e'; simp at e'
      · rw [← h7, e] at e'; simpa using e'.symm

/-- **C108, plans.** Sequences of calls of operators of the smaller domain are applied and judged in the same way. -/
theorem C108_plans (hP : Pddl.make t b n = .ok P) (hP' : Pddl.make t' b n' = .ok P') (h : MoreActions t t') (hi : t'.init = t.init)
    (calls : List Name) (hc : ∀ c ∈ calls, CallsOf t c) (k : Nat) :
    (∀ s, P'.applyActions k s calls = P.applyActions k s calls) ∧ P'.isValidPlan k calls = P.isValidPlan k calls := by
  obtain ⟨h1, h2, -, h4, -, h6⟩ := moreActions_parts hP hP' h
  have ha : ∀ s, P'.applyActions k s calls = P.applyActions k s calls := by
    induction calls with
    | nil => exact fun s => rfl
    | cons c calls ih =>
      intro s
      have hp := moreActions_parse hP hP' h (hc c (by simp))
      simp only [Pddl.applyActions, hp, Pddl.applyOp, h1, h2, h4, ih (fun c hm => hc c (by simp [hm]))]
  have hv : ∀ s, P'.validPlanFrom k s calls = P.validPlanFrom k s calls := by
    clear ha
    induction calls with
    | nil => exact fun s => by simp only [Pddl.validPlanFrom, Pddl.isGoalSatisfied, h1, h6]
    | cons c calls ih =>
      intro s
      have hp := moreActions_parse hP hP' h (hc c (by simp))
      simp only [Pddl.validPlanFrom, hp, Pddl.applyOp, h1, h2, h4, ih (fun c hm => hc c (by simp [hm]))]
  exact ⟨ha, by rw [Pddl.isValidPlan, Pddl.isValidPlan, moreActions_initial hP hP' h hi, hv]⟩

/-- **C108, plans, with buffers.** Also the argument buffers are left in the same way, from whatever they contain. -/
theorem C108_plans_buffers (hP : Pddl.make t b n = .ok P) (hP' : Pddl.make t' b n' = .ok P') (h : MoreActions t t')
    (hi : t'.init = t.init) (ids : Name → Nat) (calls : List Name) (hc : ∀ c ∈ calls, CallsOf t c) (k : Nat) :
    (∀ s, P'.applyActionsB ids k s calls = P.applyActionsB ids k s calls) ∧
      P'.isValidPlanB ids k calls = P.isValidPlanB ids k calls := by
  obtain ⟨h1, h2, -, h4, -, h6⟩ := moreActions_parts hP hP' h
  have ho : ∀ op args s, P'.applyOpB ids k op args s = P.applyOpB ids k op args s := fun op args s => by
    simp only [Pddl.applyOpB, h1, h2, h4]
  have ha : ∀ s, P'.applyActionsB ids k s calls = P.applyActionsB ids k s calls := by
    induction calls with
    | nil => exact fun s => rfl
    | cons c calls ih =>
      intro s
      have hp := moreActions_parse hP hP' h (hc c (by simp))
      simp only [Pddl.applyActionsB, hp, ho, ih (fun c hm => hc c (by simp [hm]))]
  have hv : ∀ s, P'.validPlanFromB ids k s calls = P.validPlanFromB ids k s calls := by
    clear ha
    induction calls with
    | nil => exact fun s => by simp only [Pddl.validPlanFromB, Pddl.isGoalSatisfied, h1, h6]
    | cons c calls ih =>
      intro s
      have hp := moreActions_parse hP hP' h (hc c (by simp))
      simp only [Pddl.validPlanFromB, hp, h1, ho, ih (fun c hm => hc c (by simp [hm]))]
  exact ⟨ha, by rw [Pddl.isValidPlanB, Pddl.isValidPlanB, moreActions_initial hP hP' h hi, hv]⟩

/-- **C108, listing.** `ListValidActions` returns the calls it returned before, in the same order, with calls of further actions
among them. -/
theorem C108_list (hP : Pddl.make t b n = .ok P) (hP' : Pddl.make t' b' n' = .ok P') (h : MoreActions t t') (s : State)
    (l' : List Name) (e' : P'.listValidActions s = .ok l') : ∃ l, P.listValidActions s = .ok l ∧ l.Sublist l' := by
  obtain ⟨h1, -⟩ := moreActions_parts hP hP' h
  have hf : ∀ op as, P'.filterValid s op as = P.filterValid s op as := by
    intro op as
    induction as with
    | nil => rfl
    | cons a as ih => simp only [Pddl.filterValid, ih, h1]
  have hl : ∀ op, P'.listValidArguments s op = P.listValidArguments s op := fun op => by
    simp only [Pddl.listValidArguments, h1, hf]
  have key : ∀ ops ops' : List Op, ops.Sublist ops' → ∀ l', P'.listLoop s ops' = .ok l' →
      ∃ l, P.listLoop s ops = .ok l ∧ l.Sublist l' := by
    intro ops ops' hs
    induction hs with
    | slnil => exact fun l' e => ⟨[], rfl, List.nil_sublist _⟩
    | cons op _ ih =>
      intro l' e
      simp only [Pddl.listLoop, Res.bind_eq_ok, Res.pure_eq, Res.ok.injEq] at e
      obtain ⟨as, -, r, e, rfl⟩ := e
      obtain ⟨l, e, hs⟩ := ih r e
      exact ⟨l, e, hs.trans (List.sublist_append_right _ _)⟩
    | cons_cons op _ ih =>
      intro l' e
      simp only [Pddl.listLoop, Res.bind_eq_ok, Res.pure_eq, Res.ok.injEq] at e
      obtain ⟨as, ea, r, e, rfl⟩ := e
      obtain ⟨l, e, hs⟩ := ih r e
      refine ⟨as.map (Pddl.callOf op) ++ l, ?_, List.Sublist.append (.refl _) hs⟩
      rw [Pddl.listLoop, ← hl, ea, Res.bind_ok, e]
      rfl
  rw [Pddl.listValidActions, (Pddl.built hP').actions] at e'
  rw [Pddl.listValidActions, (Pddl.built hP).actions]
  exact key _ _ h.actions l' e'

theorem callsAction_named (hP : Pddl.make t b n = .ok P) {c : Name} (hc : CallsAction P t c) : CallsOf t c := by
  obtain ⟨op, as, h1, h2, -⟩ := hc
  obtain ⟨head, ws, hs⟩ := callShape_exists c
  have B := Pddl.built hP
  rw [Pddl.parseAction, Res.bind_eq_ok] at h1
  obtain ⟨op', h3, -⟩ := h1
  rw [hs.head_eq, getOp_ok, B.tree] at h3
  obtain ⟨l₁, l₂, h4, h5, -⟩ := h3
  exact ⟨op', ws, by rw [h5]; exact hs, by rw [h4]; simp⟩

theorem moreActions_callsAction (hP : Pddl.make t b n = .ok P) (hP' : Pddl.make t' b' n' = .ok P') (h : MoreActions t t') {c : Name}
    (hc : CallsAction P t c) : CallsAction P' t' c := by
  have hp := moreActions_parse hP hP' h (callsAction_named hP hc)
  obtain ⟨op, as, h1, h2, h3⟩ := hc
  refine ⟨op, as, hp.trans h1, ?_, h3⟩
  have := (parseAction_ok (hp.trans h1)).1
  rwa [(Pddl.built hP').tree] at this

/-- If valid plans stay valid, the search finds a plan in the second problem whenever it finds one in the first, and the first plan
that it finds is no longer. -/
theorem shorter_plans (hP : Pddl.make t b n = .ok P) (hP' : Pddl.make t' b' n' = .ok P') (hw : t.WellFormed) (hw' : t'.WellFormed)
    (hl : t.NoLoops) (hl' : t'.NoLoops) (hops : Callable t) (hops' : Callable t')
    (hclean : ∀ o ∈ t.constants ++ t.objects, CleanArg o.name) (hclean' : ∀ o ∈ t'.constants ++ t'.objects, CleanArg o.name)
    (hact : P.actions ≠ []) (hact' : P'.actions ≠ []) (hpar : ∀ op ∈ t.ops, op.isAxiom = false → op.params ≠ [])
    (hpar' : ∀ op ∈ t'.ops, op.isAxiom = false → op.params ≠ []) (j j' : Nat) (hinit : P.isValidState j P.initial = .ok true)
    (hinit' : P'.isValidState j' P'.initial = .ok true) (hca : ∀ c, CallsAction P t c → CallsAction P' t' c) (N : Nat)
    (hv : ∀ k ≥ N, ∀ plan, (∀ c ∈ plan, CallsAction P t c) → P.isValidPlan k plan = .ok true → P'.isValidPlan k plan = .ok true)
    (D : Nat) :
    ∃ F, ∀ fuel ≥ F, ∃ root root', P.plannerRoot fuel P.initial = .ok root ∧ P'.plannerRoot fuel P'.initial = .ok root' ∧
      ∃ F', ∀ steps ≥ F', ∃ l l', Bfs.run (P.space fuel) D (fun _ _ => false) steps root = .ok l ∧
        Bfs.run (P'.space fuel) D (fun _ _ => false) steps root' = .ok l' ∧
        ∀ q rest, l = q :: rest → ∃ q' rest', l' = q' :: rest' ∧ q'.tail.length ≤ q.tail.length := by
  obtain ⟨F, hF⟩ := C57_planner_decides_partial t b n P hP hw hl hops hclean hact hpar j hinit D
  obtain ⟨F', hF'⟩ := C57_planner_decides_partial t' b' n' P' hP' hw' hl' hops' hclean' hact' hpar' j' hinit' D
  refine ⟨F + F' + N, fun fuel hf => ?_⟩
  obtain ⟨root, h1, G, hG⟩ := hF fuel (by omega)
  obtain ⟨root', h1', G', hG'⟩ := hF' fuel (by omega)
  refine ⟨root, root', h1, h1', G + G', fun steps hs => ?_⟩
  obtain ⟨l, h2, -, h3⟩ := hG steps (by omega)
  obtain ⟨l', h2', h4', h3'⟩ := hG' steps (by omega)
  refine ⟨l, l', h2, h2', fun q rest e => ?_⟩
  obtain ⟨h5, h6, h7, -⟩ := h3 q rest e
  have h8 := hv fuel (by omega) _ h7 h5
  have h9 := fun c hc => hca c (h7 c hc)
  cases l' with
  | nil =>
    have := h4'.1 rfl _ h9 (by simpa using h6)
    rw [h8] at this
    simp at this
  | cons q' rest' => exact ⟨q', rest', rfl, by simpa using (h3' q' rest' rfl).2.2.2 _ h9 h8⟩

/-- **C108, planner, partial.** If breadth-first search finds a plan with the smaller domain, it finds one with the larger domain,
and the first one is no longer.

Missing for the full claim: the conditions of `C57_planner_decides_partial`. -/
theorem C108_planner_partial (hP : Pddl.make t b n = .ok P) (hP' : Pddl.make t' b n' = .ok P') (h : MoreActions t t')
    (hi : t'.init = t.init) (hw : t.WellFormed) (hw' : t'.WellFormed)
    (hl : t.NoLoops) (hl' : t'.NoLoops) (hops : Callable t) (hops' : Callable t')
    (hclean : ∀ o ∈ t.constants ++ t.objects, CleanArg o.name)
    (hact : P.actions ≠ []) (hpar : ∀ op ∈ t.ops, op.isAxiom = false → op.params ≠ [])
    (hpar' : ∀ op ∈ t'.ops, op.isAxiom = false → op.params ≠ []) (j : Nat) (hinit : P.isValidState j P.initial = .ok true)
    (D : Nat) :
    ∃ F, ∀ fuel ≥ F, ∃ root root', P.plannerRoot fuel P.initial = .ok root ∧ P'.plannerRoot fuel P'.initial = .ok root' ∧
      ∃ F', ∀ steps ≥ F', ∃ l l', Bfs.run (P.space fuel) D (fun _ _ => false) steps root = .ok l ∧
        Bfs.run (P'.space fuel) D (fun _ _ => false) steps root' = .ok l' ∧
        ∀ q rest, l = q :: rest → ∃ q' rest', l' = q' :: rest' ∧ q'.tail.length ≤ q.tail.length := by
  refine shorter_plans hP hP' hw hw' hl hl' hops hops' hclean (by rw [h.constants, h.objects]; exact hclean) hact ?_ hpar hpar' j j
    hinit ?_ (fun c => moreActions_callsAction hP hP' h) 0 (fun k _ plan hc hv => ?_) D
  · rw [(Pddl.built hP).actions] at hact
    rw [(Pddl.built hP').actions]
    intro he
    have := h.actions
    rw [he, List.sublist_nil] at this
    exact hact this
  · rw [moreActions_initial hP hP' h hi]
    exact ((C108_states hP hP' h j P.initial ⟨State.empty, State.empty⟩).2.2.2.1).trans hinit
  · rw [(C108_plans hP hP' h hi plan (fun c hm => callsAction_named hP (hc c hm)) k).2]
    exact hv

/-- **C107, planner, partial.** Likewise for problems with more objects, under the conditions of `C107_plan_partial`. -/
theorem C107_planner_partial (hP : Pddl.make t b n = .ok P) (hP' : Pddl.make t' b' n' = .ok P') (h : MoreObjects t t')
    (hg : t'.goal = t.goal) (up up' : Name → List Name) (ht : t.TypeChecked up) (ht' : t'.TypeChecked up') (hw : t.WellFormed)
    (hw' : t'.WellFormed) (hL : t.Local) (hcl : t.goal.Closed (t.constants ++ t.objects)) (rank : Name → Nat)
    (ha : Acyclic rank t.drvs) (hq : ∀ op ∈ t.ops, op.pre.Quants true) (hgq : t.goal.Quants true)
    (hi : AgreeAbout (t.constants ++ t.objects) (· ∈ P.initial) (· ∈ P'.initial))
    (hf : ∀ op ∈ t.ops, op.isAxiom = false → ∀ args, WellTyped (t.constants ++ t.objects) op.params args → ∀ s : State,
      NoConflict (t'.CausesIn (· ∈ s) op args) ∧ t'.NotRead op (t'.CausesIn (· ∈ s) op args))
    (hl : t.NoLoops) (hl' : t'.NoLoops) (hops : Callable t)
    (hclean' : ∀ o ∈ t'.constants ++ t'.objects, CleanArg o.name)
    (hact : P.actions ≠ []) (hpar : ∀ op ∈ t.ops, op.isAxiom = false → op.params ≠ [])
    (j j' : Nat) (hinit : P.isValidState j P.initial = .ok true) (hinit' : P'.isValidState j' P'.initial = .ok true) (D : Nat) :
    ∃ F, ∀ fuel ≥ F, ∃ root root', P.plannerRoot fuel P.initial = .ok root ∧ P'.plannerRoot fuel P'.initial = .ok root' ∧
      ∃ F', ∀ steps ≥ F', ∃ l l', Bfs.run (P.space fuel) D (fun _ _ => false) steps root = .ok l ∧
        Bfs.run (P'.space fuel) D (fun _ _ => false) steps root' = .ok l' ∧
        ∀ q rest, l = q :: rest → ∃ q' rest', l' = q' :: rest' ∧ q'.tail.length ≤ q.tail.length := by
  obtain ⟨N, hN⟩ := C107_plan_partial hP hP' h hg up up' ht ht' hw hw' hL hcl rank ha hq hgq hi
  have hops' : Callable t' := by
    unfold Callable
    rw [h.ops]
    exact hops
  have B := Pddl.built hP
  have B' := Pddl.built hP'
  refine shorter_plans hP hP' hw hw' hl hl' hops hops' (fun o ho => hclean' o (h.objects o ho)) hclean' hact ?_ hpar ?_ j j' hinit
    hinit' ?_ N ?_ D
  · rw [B'.actions, h.ops, ← B.actions]
    exact hact
  · rw [h.ops]
    exact hpar
  · rintro c ⟨op, as, h1, h2, h3⟩
    exact ⟨op, as, parseAction_more h B B' hw'.names h1, by rw [h.ops]; exact h2, h3⟩
  · intro k hk plan hc hv
    refine (hN plan (fun c hm => ?_) k k hk hk).1 hv
    obtain ⟨op, as, h1, h2, h3⟩ := hc c hm
    have hwt := (parseAction_ok h1).2
    rw [Pddl.symbols, B.tree] at hwt
    exact ⟨op, as, h1, hf op h2 h3 as hwt⟩

end

section
open Demo
attribute [local instance] lenHash

/-- `drop(?x)` puts a box on `b`, from wherever it is. -/
def toB : Op where
  name := n!"drop"
  params := [x]
  pre := .neg (.atom n!"=" [.var x, .const b])
  eff := .mk .nil [(n!"on", [.var x, .const b])] [] .nil

/-- The demo domain with a shortcut. -/
def shortTree : Ptree := { tree with ops := [pick, toB, place, held] }
theorem shortMade : (Pddl.make shortTree true 5).isOk = true := by decide +kernel
def shortP : Pddl := get _ shortMade
theorem shortP_made : Pddl.make shortTree true 5 = .ok shortP := get_eq _ _

theorem short_more : MoreActions tree shortTree where
  constants := rfl
  objects := rfl
  named := by
    intro n op h
    have e := fun l : List Op => (getOp_ok { P with tree := { tree with ops := l } } n op)
    have h := (e tree.ops).2 h
    refine (e shortTree.ops).1 ?_
    simp only [Pddl.getOp, tree, shortTree, List.find?_cons] at h ⊢
    by_cases h1 : n = n!"drop"
    · subst h1
      simp [pick, place, held] at h
    · have : decide (toB.name = n) = false := by
        exact decide_eq_false fun h2 : n!"drop" = n => h1 h2.symm
      rw [this]
      exact h
  axioms := rfl
  actions := by
    show [pick, place].Sublist [pick, toB, place]
    exact .cons_cons _ (.cons _ (.refl _))
  drvs := rfl
  goal := rfl

/-- Every plan of the demo domain is judged in the same way when there is a shortcut. -/
example (calls : List Name) (hc : ∀ c ∈ calls, CallsOf tree c) (k : Nat) : shortP.isValidPlan k calls = P.isValidPlan k calls :=
  (C108_plans P_made shortP_made short_more rfl calls hc k).2

/-- With the shortcut there is a plan of one action. -/
example : P.isValidPlan 5 [n!"pick(a)", n!"place(a, b)"] = .ok true ∧
    shortP.isValidPlan 5 [n!"pick(a)", n!"place(a, b)"] = .ok true ∧ shortP.isValidPlan 5 [n!"drop(a)"] = .ok true ∧
    P.isValidPlan 5 [n!"drop(a)"] = .exc .runtimeError := by decide +kernel

theorem short_wellFormed : shortTree.WellFormed := by
  refine ⟨by decide, ?_, ?_, demo_wellFormed.goal, demo_wellFormed.drvs, by decide⟩
  · intro op ho
    simp only [shortTree, List.mem_cons, List.not_mem_nil, or_false] at ho
    rcases ho with rfl | rfl | rfl | rfl
    · exact demo_wellFormed.pre pick (by simp [tree])
    · simp [shortTree, tree, toB, Goal.WF, Term.Scoped, a, b, table, x, tBox, tObj]
    · exact demo_wellFormed.pre place (by simp [tree])
    · exact demo_wellFormed.pre held (by simp [tree])
  · intro op ho
    simp only [shortTree, List.mem_cons, List.not_mem_nil, or_false] at ho
    rcases ho with rfl | rfl | rfl | rfl
    · exact demo_wellFormed.eff pick (by simp [tree])
    · simp [shortTree, tree, toB, Eff.WF, FList.WF, CList.WF, WFLits, Term.Scoped, IsType, HasType, a, b, table, x, tBox, tObj]
    · exact demo_wellFormed.eff place (by simp [tree])
    · exact demo_wellFormed.eff held (by simp [tree])

theorem short_noLoops : shortTree.NoLoops := by
  obtain ⟨⟨r, h⟩, h'⟩ := demo_noLoops
  refine ⟨⟨r, fun op ho ha => ?_⟩, h'⟩
  refine h op ?_ ha
  simp only [shortTree, List.mem_cons, List.not_mem_nil, or_false] at ho
  rcases ho with rfl | rfl | rfl | rfl
  · simp [tree]
  · simp [toB] at ha
  · simp [tree]
  · simp [tree]

theorem demo_callable : Callable tree := by
  intro op hop ha
  simp only [tree, List.mem_cons, List.not_mem_nil, or_false] at hop
  rcases hop with rfl | rfl | rfl
  · exact ⟨⟨[], _, rfl, rfl, by simp⟩, by simp [CleanHead, pick]⟩
  · exact ⟨⟨[pick], _, rfl, rfl, by simp [pick, place]⟩, by simp [CleanHead, place]⟩
  · simp [held] at ha

theorem short_callable : Callable shortTree := by
  intro op hop ha
  simp only [shortTree, List.mem_cons, List.not_mem_nil, or_false] at hop
  rcases hop with rfl | rfl | rfl | rfl
  · exact ⟨⟨[], _, rfl, rfl, by simp⟩, by simp [CleanHead, pick]⟩
  · exact ⟨⟨[pick], _, rfl, rfl, by simp [pick, toB]⟩, by simp [CleanHead, toB]⟩
  · exact ⟨⟨[pick, toB], _, rfl, rfl, by simp [pick, toB, place]⟩, by simp [CleanHead, place]⟩
  · simp [held] at ha

/-- The search finds a plan with the shortcut that is no longer than the one without. -/
example : ∃ F, ∀ fuel ≥ F, ∃ root root', P.plannerRoot fuel P.initial = .ok root ∧
    shortP.plannerRoot fuel shortP.initial = .ok root' ∧ ∃ F', ∀ steps ≥ F', ∃ l l',
      Bfs.run (P.space fuel) 3 (fun _ _ => false) steps root = .ok l ∧
      Bfs.run (shortP.space fuel) 3 (fun _ _ => false) steps root' = .ok l' ∧
      ∀ q rest, l = q :: rest → ∃ q' rest', l' = q' :: rest' ∧ q'.tail.length ≤ q.tail.length :=
  C108_planner_partial P_made shortP_made short_more rfl demo_wellFormed short_wellFormed demo_noLoops short_noLoops demo_callable
    short_callable
    (by
      intro o ho
      simp only [tree, List.cons_append, List.nil_append, List.mem_cons, List.not_mem_nil, or_false] at ho
      rcases ho with rfl | rfl | rfl <;> exact ⟨by decide, by simp [IsSep, Demo.a, Demo.b, table]⟩)
    (by decide +kernel) (by decide) (by decide) 5 (C57_initial_valid tree true 5 P P_made rfl) 3

/-! ## More objects -/

/-- What `take` causes with three boxes. -/
theorem many_take_any {S : Atom → Prop} {so : Bool → Atom → Prop} {args : List Obj} {sign : Bool} {p : Atom}
    (h : manyTree.Causes S so take args sign p) : (sign = true ∧ p.pred = n!"inhand") ∨ (sign = false ∧ p.pred = n!"on") := by
  induction h with
  | own h =>
    left
    simp only [take, pick, Makes, MakesF, MakesC, Lists, List.mem_cons, List.not_mem_nil, or_false, false_or, Prod.mk.injEq] at h
    simp only [false_and, exists_false, and_false, or_false] at h
    obtain ⟨h, pred, ts, os, ⟨rfl, rfl⟩, hd, rfl⟩ := h
    exact ⟨h, rfl⟩
  | @triggered ax as q sign p h1 h2 _ _ _ h6 _ =>
    simp only [manyTree, fewTree, List.mem_cons, List.not_mem_nil, or_false] at h1
    rcases h1 with rfl | rfl | rfl
    · simp [take, pick] at h2
    · simp [place] at h2
    · right
      simp only [held, Makes, MakesF, MakesC, Lists, List.mem_cons, List.not_mem_nil, or_false, false_or, Prod.mk.injEq] at h6
      simp only [false_and, exists_false, and_false, or_false, false_or] at h6
      obtain ⟨_, _, h, pred, ts, os, ⟨rfl, rfl⟩, -, rfl⟩ := h6
      exact ⟨h, rfl⟩

theorem few_noLoops : fewTree.NoLoops := by
  refine ⟨⟨fun _ p => if p = n!"inhand" then 1 else 0, ?_⟩, ⟨fun _ => 0, ?_⟩⟩
  · intro op ho ha sign p ht
    simp only [fewTree, List.mem_cons, List.not_mem_nil, or_false] at ho
    rcases ho with rfl | rfl | rfl
    · simp [take, pick] at ha
    · simp [place] at ha
    · simp only [held, Eff.Touches, FList.Touches, CList.Touches, ListsPred, List.not_mem_nil, exists_false, and_false,
        or_false, List.mem_singleton, Prod.mk.injEq, false_or] at ht
      obtain ⟨-, _, rfl, -⟩ := ht
      simp [held, Op.ctxPred]
  · intro d hd p n hm hh
    simp only [fewTree, List.mem_singleton] at hd
    subst hd
    obtain ⟨d, hd, rfl⟩ := hh
    simp only [fewTree, List.mem_singleton] at hd
    subst hd
    simp [inUse, Goal.Mentions, Goal.MentionsL] at hm

theorem few_callable : Callable fewTree := by
  intro op hop ha
  simp only [fewTree, List.mem_cons, List.not_mem_nil, or_false] at hop
  rcases hop with rfl | rfl | rfl
  · exact ⟨⟨[], _, rfl, rfl, by simp⟩, by simp [CleanHead, take, pick]⟩
  · exact ⟨⟨[take], _, rfl, rfl, by simp [take, pick, place]⟩, by simp [CleanHead, place]⟩
  · simp [held] at ha

/-- The search with three boxes finds a plan that is no longer than the one with two boxes. -/
example : ∃ F, ∀ fuel ≥ F, ∃ root root', fewP.plannerRoot fuel fewP.initial = .ok root ∧
    manyP.plannerRoot fuel manyP.initial = .ok root' ∧ ∃ F', ∀ steps ≥ F', ∃ l l',
      Bfs.run (fewP.space fuel) 3 (fun _ _ => false) steps root = .ok l ∧
      Bfs.run (manyP.space fuel) 3 (fun _ _ => false) steps root' = .ok l' ∧
      ∀ q rest, l = q :: rest → ∃ q' rest', l' = q' :: rest' ∧ q'.tail.length ≤ q.tail.length :=
  C107_planner_partial fewP_made manyP_made few_many rfl demoUp demoUp few_checked many_checked few_wellFormed
    many_wellFormed few_local few_goal (fun _ => 0) few_acyclic few_quants (by simp [fewTree, Goal.Quants]) few_initial
    (by
      intro op ho ha args hw s
      refine ⟨fun p h h' => ?_, many_unread ho _⟩
      simp only [fewTree, List.mem_cons, List.not_mem_nil, or_false] at ho
      rcases ho with rfl | rfl | rfl
      · rcases many_take_any h with ⟨-, h⟩ | ⟨h, -⟩
        · rcases many_take_any h' with ⟨h', -⟩ | ⟨-, h'⟩
          · simp at h'
          · rw [h] at h'
            exact absurd h' (by decide)
        · simp at h
      · rcases many_place h with ⟨-, h⟩ | ⟨h, -⟩
        · rcases many_place h' with ⟨h', -⟩ | ⟨-, h'⟩
          · simp at h'
          · rw [h] at h'
            exact absurd h' (by decide)
        · simp at h
      · simp [held] at ha)
    few_noLoops ⟨few_noLoops.1, few_noLoops.2⟩ few_callable
    (by
      intro o ho
      simp only [manyTree, fewTree, tree, List.cons_append, List.nil_append, List.mem_cons, List.not_mem_nil, or_false] at ho
      rcases ho with rfl | rfl | rfl | rfl <;> exact ⟨by decide, by simp [IsSep, Demo.a, Demo.b, table, crate]⟩)
    (by decide +kernel) (by decide) 5 5 (C57_initial_valid _ _ _ _ fewP_made rfl) (C57_initial_valid _ _ _ _ manyP_made rfl) 3

/-! ## Refutation -/

def shadowTree : Ptree := { tree with ops := [{ toB with name := n!"pick" }, pick, place, held] }
theorem shadowMade : (Pddl.make shadowTree true 5).isOk = true := by decide +kernel
def shadowP : Pddl := get _ shadowMade

/-- **C108, refuted** for a new action with the name of an old one that is declared before it: the old action can no longer be
called, and a plan becomes invalid. -/
theorem C108_shadow_refuted : Pddl.make shadowTree true 5 = .ok shadowP ∧ (tree.ops.Sublist shadowTree.ops) ∧
    P.isValidPlan 5 [n!"pick(a)", n!"place(a, b)"] = .ok true ∧
    shadowP.isValidPlan 5 [n!"pick(a)", n!"place(a, b)"] = .ok false :=
  ⟨get_eq _ _, .cons _ (.refl _), by decide +kernel, by decide +kernel⟩

end

end Symbolic
