import Verif.Lemmas.State
import Verif.Lemmas.Formula
import Verif.Lemmas.ParseAction
import Verif.Lemmas.DerivedTerm
import Verif.Spec.Plans
import Verif.Props.Strings
import Verif.Props.Types

/-!
# C35-C37: applying and listing actions
-/

namespace Symbolic

/-! ## C35 -/

/-- **C35.** `ApplyActions` is iterated `NextState`, with the same exceptions and the same non-termination. -/
theorem C35_apply_actions_iterates [StrHash] (P : Pddl) (fuel : Nat) (s : State) (calls : List Name) :
    P.applyActions fuel s calls = calls.foldlM (P.nextState fuel) s := by
  induction calls generalizing s with
  | nil => rfl
  | cons c cs ih =>
    simp only [Pddl.applyActions, List.foldlM_cons, Pddl.nextState]
    cases P.parseAction c with
    | ok oa =>
      simp only [Res.bind_ok]
      cases P.applyOp fuel oa.1 oa.2 s with
      | ok s' => simpa using ih s'
      | exc e => rfl
      | ub => rfl
      | fuel => rfl
    | exc e => rfl
    | ub => rfl
    | fuel => rfl

/-- **C35.** Applying a concatenation is applying one list after the other. -/
theorem C35_append [StrHash] (P : Pddl) (fuel : Nat) (s : State) (xs ys : List Name) :
    P.applyActions fuel s (xs ++ ys) = (P.applyActions fuel s xs >>= fun s' => P.applyActions fuel s' ys) := by
  induction xs generalizing s with
  | nil => rfl
  | cons c cs ih =>
    simp only [List.cons_append, Pddl.applyActions]
    cases P.parseAction c with
    | ok oa =>
      simp only [Res.bind_ok]
      cases P.applyOp fuel oa.1 oa.2 s with
      | ok s' => simpa using ih s'
      | exc e => rfl
      | ub => rfl
      | fuel => rfl
    | exc e => rfl
    | ub => rfl
    | fuel => rfl

/-! ## C36 -/

/-- **C36.** `IsValidTuple(s, a, s')` is true iff the action is valid in `s` and `NextState(s, a)` returns `s'`. -/
theorem C36_valid_tuple [StrHash] (P : Pddl) (fuel : Nat) (s s' : State) (call : Name) :
    P.isValidTuple fuel s call s' = .ok true ↔
      P.isValidAction s call = .ok true ∧ P.nextState fuel s call = .ok s' := by
  simp only [Pddl.isValidTuple, Pddl.isValidAction, Pddl.nextState]
  cases P.parseAction call with
  | ok oa =>
    simp only [Res.bind_ok]
    cases oa.1.isValid P.omap s oa.2 with
    | ok v =>
      cases v with
      | false => simp
      | true =>
        simp only [Res.bind_ok, if_true]
        cases P.applyOp fuel oa.1 oa.2 s with
        | ok t => simp [State.beq_iff]
        | exc e => simp
        | ub => simp
        | fuel => simp
    | exc e => simp
    | ub => simp
    | fuel => simp
  | exc e => simp
  | ub => simp
  | fuel => simp

/-- **C36.** It is false iff the action is not valid, or leads to a different state. -/
theorem C36_invalid_tuple [StrHash] (P : Pddl) (fuel : Nat) (s s' : State) (call : Name) :
    P.isValidTuple fuel s call s' = .ok false ↔
      P.isValidAction s call = .ok false ∨
        (P.isValidAction s call = .ok true ∧ ∃ t, P.nextState fuel s call = .ok t ∧ ∃ x, ¬ (x ∈ t ↔ x ∈ s')) := by
  have hext : ∀ t : State, (∃ x, ¬ (x ∈ t ↔ x ∈ s')) ↔ t ≠ s' := by
    intro t
    rw [← not_forall]
    exact not_congr ⟨fun h => State.ext h, fun h x => by rw [h]⟩
  simp only [hext]
  simp only [Pddl.isValidTuple, Pddl.isValidAction, Pddl.nextState]
  cases P.parseAction call with
  | ok oa =>
    simp only [Res.bind_ok]
    cases oa.1.isValid P.omap s oa.2 with
    | ok v =>
      cases v with
      | false => simp
      | true =>
        simp only [Res.bind_ok, if_true]
        cases P.applyOp fuel oa.1 oa.2 s with
        | ok t =>
          simp only [Res.bind_ok, Res.pure_eq, Res.ok.injEq]
          rw [← Bool.not_eq_true, State.beq_iff]
          simp
        | exc e => simp
        | ub => simp
        | fuel => simp
    | exc e => simp
    | ub => simp
    | fuel => simp
  | exc e => simp
  | ub => simp
  | fuel => simp

theorem validPlanFrom_iff [StrHash] (P : Pddl) (fuel : Nat) (plan : List Name) : ∀ s : State,
    P.validPlanFrom fuel s plan = .ok true ↔
      Achieves (fun s a => P.isValidAction s a = .ok true) (fun s a s' => P.nextState fuel s a = .ok s')
        (fun s => P.isGoalSatisfied s = .ok true) s plan := by
  induction plan with
  | nil =>
    intro s
    constructor
    · intro h; exact .done h
    · rintro ⟨h⟩; exact h
  | cons c cs ih =>
    intro s
    have hstep : P.validPlanFrom fuel s (c :: cs) = .ok true ↔
        P.isValidAction s c = .ok true ∧ ∃ s', P.nextState fuel s c = .ok s' ∧ P.validPlanFrom fuel s' cs = .ok true := by
      simp only [Pddl.validPlanFrom, Pddl.isValidAction, Pddl.nextState]
      cases P.parseAction c with
      | ok oa =>
        simp only [Res.bind_ok]
        cases oa.1.isValid P.omap s oa.2 with
        | ok v =>
          cases v with
          | false => simp
          | true =>
            simp only [Res.bind_ok, if_true]
            cases P.applyOp fuel oa.1 oa.2 s with
            | ok t => simp
            | exc e => simp
            | ub => simp
            | fuel => simp
        | exc e => simp
        | ub => simp
        | fuel => simp
      | exc e => simp
      | ub => simp
      | fuel => simp
    rw [hstep]
    constructor
    · rintro ⟨h1, s', h2, h3⟩
      exact .step h1 h2 ((ih s').1 h3)
    · intro h
      cases h with
      | step h1 h2 h3 => exact ⟨h1, _, h2, (ih _).2 h3⟩

/-- **C36.** `IsValidPlan(plan)` is true iff there is a chain of states from `initial_state()` in which every action is
valid and produces the next state, and the last state satisfies the goal. -/
theorem C36_valid_plan [StrHash] (P : Pddl) (fuel : Nat) (plan : List Name) :
    P.isValidPlan fuel plan = .ok true ↔
      Achieves (fun s a => P.isValidAction s a = .ok true) (fun s a s' => P.nextState fuel s a = .ok s')
        (fun s => P.isGoalSatisfied s = .ok true) P.initial plan :=
  validPlanFrom_iff P fuel plan P.initial

section
open Demo
attribute [local instance] lenHash

example : P.applyActions 5 P.initial [n!"pick(a)", n!"place(a, b)"] =
    .ok (State.ofList [on a b, on b table, busyA b]) := by decide +kernel

example : P.applyActions 5 P.initial [n!"pick(a)", n!"fly(a)"] = .exc .runtimeError := by decide +kernel

example : P.isValidTuple 5 P.initial n!"pick(a)" (State.ofList [inhand a, on b table, busyA a]) = .ok true := by
  decide +kernel

example : P.isValidTuple 5 P.initial n!"pick(a)" (State.ofList [inhand a, busyA a]) = .ok false := by decide +kernel

/-- Picking `b` and putting it on `a` is a plan for `on(b, a)`, not for the goal `on(a, b)`. -/
example : P.isValidPlan 5 [n!"pick(a)", n!"place(a, b)"] = .ok true ∧
    P.isValidPlan 5 [n!"pick(b)", n!"place(b, a)"] = .ok false := by decide +kernel

end

/-! ## C37 -/

theorem genLoop_nodup {objects params : List Obj} {l : List (List Obj)} (hn : objects.Nodup)
    (ht : ∀ o ∈ objects, o.listTypes.Nodup)
    (hl : genLoop (paramTypes (ObjMap.create objects) params) = .ok l) : l.Nodup := by
  by_cases hp : params = []
  · subst hp
    simp only [genLoop_ok (paramTypes_ne (ObjMap.nonEmpty_create objects) []), Res.ok.injEq] at hl
    subst hl
    simp [paramTypes, paramTypes.go]
  · obtain ⟨options, l', h1, h2, -, -, h5, -⟩ := C11_parameter_generator_exact objects params hp
    have he : options = paramTypes (ObjMap.create objects) params := by
      rw [paramGen_ok (ObjMap.nonEmpty_create objects)] at h1
      exact (Res.ok.inj h1).symm
    subst he
    have := h2 (Comb.size (paramTypes (ObjMap.create objects) params) + 1) (by omega)
    have e : l = l' := by
      have h3 : genLoop (paramTypes (ObjMap.create objects) params) = .ok l' := this
      rw [hl] at h3; exact Res.ok.inj h3
    rw [e]
    exact h5 hn ht

theorem filterValid_ok [StrHash] {P : Pddl} {s : State} {op : Op} : ∀ {l r : List (List Obj)},
    P.filterValid s op l = .ok r →
    r.Sublist l ∧ ∀ as, as ∈ r ↔ as ∈ l ∧ op.isValid P.omap s as = .ok true
  | [], r, h => by
    simp only [Pddl.filterValid, Res.ok.injEq] at h
    subst h; simp
  | as :: l, r, h => by
    simp only [Pddl.filterValid, Res.bind_eq_ok, Res.pure_eq, Res.ok.injEq] at h
    obtain ⟨v, h1, r', h2, rfl⟩ := h
    obtain ⟨h3, h4⟩ := filterValid_ok h2
    cases v with
    | false =>
      refine ⟨h3.cons as, fun bs => ?_⟩
      simp only [Bool.false_eq_true, if_false, List.mem_cons, h4]
      constructor
      · rintro ⟨h5, h6⟩; exact ⟨Or.inr h5, h6⟩
      · rintro ⟨rfl | h5, h6⟩
        · rw [h1] at h6; simp at h6
        · exact ⟨h5, h6⟩
    | true =>
      refine ⟨h3.cons_cons as, fun bs => ?_⟩
      simp only [if_true, List.mem_cons, h4]
      constructor
      · rintro (rfl | ⟨h5, h6⟩)
        · exact ⟨Or.inl rfl, h1⟩
        · exact ⟨Or.inr h5, h6⟩
      · rintro ⟨rfl | h5, h6⟩
        · exact Or.inl rfl
        · exact Or.inr ⟨h5, h6⟩

theorem filterValid_total [StrHash] {P : Pddl} {s : State} {op : Op} : ∀ {l : List (List Obj)},
    (∀ as ∈ l, ∃ v, op.isValid P.omap s as = .ok v) → ∃ r, P.filterValid s op l = .ok r
  | [], _ => ⟨[], rfl⟩
  | as :: l, h => by
    obtain ⟨v, hv⟩ := h as (by simp)
    obtain ⟨r, hr⟩ := filterValid_total (fun bs hb => h bs (by simp [hb]) : ∀ bs ∈ l, _)
    exact ⟨_, by simp [Pddl.filterValid, hv, hr]; rfl⟩

/-- The operators whose calls can be listed: each has parameters and a printable name and is the first operator with its
name. -/
def Listable (t : Ptree) : Prop :=
  ∀ op ∈ t.ops, op.isAxiom = false → op.params ≠ [] ∧ NamedOp t.ops op.name op ∧ CleanHead op.name

theorem listLoop_ok [StrHash] {P : Pddl} {t : Ptree} (B : P.Built t) {s : State} : ∀ {ops : List Op} {l : List Name},
    (∀ op ∈ ops, op.params ≠ []) → P.listLoop s ops = .ok l →
    ∀ c, c ∈ l ↔ ∃ op ∈ ops, ∃ as, WellTyped (t.constants ++ t.objects) op.params as ∧
      op.isValid P.omap s as = .ok true ∧ c = Pddl.callOf op as
  | [], l, _, h, c => by
    simp only [Pddl.listLoop, Res.ok.injEq] at h
    subst h; simp
  | op :: ops, l, hp, h, c => by
    simp only [Pddl.listLoop, Res.bind_eq_ok, Res.pure_eq, Res.ok.injEq, Pddl.listValidArguments] at h
    obtain ⟨argss, ⟨_, -, tuples, h1, h2⟩, r, h3, rfl⟩ := h
    have ih := listLoop_ok B (fun o ho => hp o (by simp [ho])) h3 c
    rw [B.omap] at h1
    have hm := fun as => mem_gen_create (args := as) (hp op (by simp)) h1
    have hf := (filterValid_ok h2).2
    simp only [List.mem_append, List.mem_map, ih, hf, hm, List.mem_cons, exists_eq_or_imp]
    refine or_congr ⟨?_, ?_⟩ Iff.rfl
    · rintro ⟨as, ⟨h5, h6⟩, rfl⟩; exact ⟨as, h5, h6, rfl⟩
    · rintro ⟨as, h5, h6, rfl⟩; exact ⟨as, ⟨h5, h6⟩, rfl⟩

theorem callOf_inj {op op' : Op} {as as' : List Obj} (h : CleanHead op.name) (h' : CleanHead op'.name)
    (ha : ∀ o ∈ as, CleanArg o.name) (ha' : ∀ o ∈ as', CleanArg o.name)
    (e : Pddl.callOf op as = Pddl.callOf op' as') : op.name = op'.name ∧ as.map Obj.name = as'.map Obj.name := by
  have h1 := callShape_callString op.name (as.map Obj.name) h (by simpa using ha)
  have h2 := callShape_callString op'.name (as'.map Obj.name) h' (by simpa using ha')
  have e' : callString op.name (as.map Obj.name) = callString op'.name (as'.map Obj.name) := e
  rw [e'] at h1
  exact ⟨h1.head_eq.symm.trans h2.head_eq, h1.words_eq.symm.trans h2.words_eq⟩

/-- **C37.** `ListValidActions(s)`, when every action has parameters: it lists exactly the strings of type-correct calls
of actions that `IsValidAction(s, ·)` accepts. -/
theorem C37_list_exact [StrHash] (t : Ptree) (b : Bool) (n : Nat) (P : Pddl) (hP : Pddl.make t b n = .ok P)
    (hnd : ((t.constants ++ t.objects).map Obj.name).Nodup) (hops : Listable t)
    (hclean : ∀ o ∈ t.constants ++ t.objects, CleanArg o.name) (s : State) (l : List Name)
    (h : P.listValidActions s = .ok l) (c : Name) :
    c ∈ l ↔ ∃ op ∈ t.ops, op.isAxiom = false ∧ ∃ as, WellTyped (t.constants ++ t.objects) op.params as ∧
      c = Pddl.callOf op as ∧ P.isValidAction s c = .ok true := by
  have B := Pddl.built hP
  rw [Pddl.listValidActions, B.actions] at h
  have hmem : ∀ op, op ∈ t.ops.filter (!·.isAxiom) ↔ op ∈ t.ops ∧ op.isAxiom = false := by
    intro op; simp
  rw [listLoop_ok B (fun op ho => (hops op ((hmem op).1 ho).1 ((hmem op).1 ho).2).1) h]
  constructor
  · rintro ⟨op, ho, as, hw, hv, rfl⟩
    obtain ⟨ho1, ho2⟩ := (hmem op).1 ho
    obtain ⟨-, h2, h3⟩ := hops op ho1 ho2
    refine ⟨op, ho1, ho2, as, hw, rfl, ?_⟩
    rw [Pddl.isValidAction, C14_action_round_trip t b n P hP op as h2 hw hnd
      ⟨h3, fun o ho => hclean o (WellTyped.mem hw ho).1⟩]
    exact hv
  · rintro ⟨op, ho1, ho2, as, hw, rfl, hv⟩
    obtain ⟨-, h2, h3⟩ := hops op ho1 ho2
    rw [Pddl.isValidAction, C14_action_round_trip t b n P hP op as h2 hw hnd
      ⟨h3, fun o ho => hclean o (WellTyped.mem hw ho).1⟩] at hv
    exact ⟨op, (hmem op).2 ⟨ho1, ho2⟩, as, hw, hv, rfl⟩

/-- **C37.** The list has no duplicates. -/
theorem C37_list_nodup [StrHash] (t : Ptree) (b : Bool) (n : Nat) (P : Pddl) (hP : Pddl.make t b n = .ok P)
    (hnd : ((t.constants ++ t.objects).map Obj.name).Nodup) (hops : Listable t)
    (hdist : ((t.ops.filter (!·.isAxiom)).map Op.name).Nodup)
    (htypes : ∀ o ∈ t.constants ++ t.objects, o.listTypes.Nodup)
    (hclean : ∀ o ∈ t.constants ++ t.objects, CleanArg o.name) (s : State) (l : List Name)
    (h : P.listValidActions s = .ok l) : l.Nodup := by
  have B := Pddl.built hP
  rw [Pddl.listValidActions, B.actions] at h
  have hmem : ∀ op ∈ t.ops.filter (!·.isAxiom), op.params ≠ [] ∧ CleanHead op.name := by
    intro op ho
    have := List.mem_filter.1 ho
    have := hops op this.1 (by simpa using this.2)
    exact ⟨this.1, this.2.2⟩
  generalize t.ops.filter (!·.isAxiom) = ops at hmem h hdist
  induction ops generalizing l with
  | nil =>
    simp only [Pddl.listLoop, Res.ok.injEq] at h
    subst h; simp
  | cons op ops ih =>
    have h' := h
    simp only [Pddl.listLoop, Res.bind_eq_ok, Res.pure_eq, Res.ok.injEq, Pddl.listValidArguments] at h
    obtain ⟨argss, ⟨_, -, tuples, h1, h2⟩, r, h3, rfl⟩ := h
    simp only [List.map_cons, List.nodup_cons] at hdist
    have ih := ih r (fun o ho => hmem o (by simp [ho])) h3 hdist.2
    rw [B.omap] at h1
    have hm := fun as => mem_gen_create (args := as) (hmem op (by simp)).1 h1
    have hf := filterValid_ok h2
    have hn : argss.Nodup := hf.1.nodup (genLoop_nodup (List.Nodup.of_map _ hnd) htypes h1)
    have hw : ∀ as ∈ argss, WellTyped (t.constants ++ t.objects) op.params as := fun as ha => (hm as).1 ((hf.2 as).1 ha).1
    have hc : ∀ {op : Op} {as : List Obj}, WellTyped (t.constants ++ t.objects) op.params as →
        ∀ o ∈ as, CleanArg o.name := fun hw o ho => hclean o (WellTyped.mem hw ho).1
    rw [List.nodup_append]
    refine ⟨?_, ih, ?_⟩
    · refine List.Nodup.map_on ?_ hn
      intro as ha as' ha' e
      have := (callOf_inj (hmem op (by simp)).2 (hmem op (by simp)).2 (hc (hw as ha)) (hc (hw as' ha')) e).2
      exact names_inj hnd _ _ (fun o ho => (WellTyped.mem (hw as ha) ho).1) (fun o ho => (WellTyped.mem (hw as' ha') ho).1) this
    · intro c hc1 c' hc2 e
      subst e
      obtain ⟨as, ha, rfl⟩ := List.mem_map.1 hc1
      obtain ⟨op', ho', as', hw', -, e⟩ := (listLoop_ok B (fun o ho => (hmem o (by simp [ho])).1) h3 _).1 hc2
      have := (callOf_inj (hmem op (by simp)).2 (hmem op' (by simp [ho'])).2 (hc (hw as ha)) (hc hw') e).1
      exact hdist.1 (by rw [this]; exact List.mem_map_of_mem ho')

/-- **C37.** With well-formed preconditions `ListValidActions` always returns. -/
theorem C37_list_returns [StrHash] (t : Ptree) (b : Bool) (n : Nat) (P : Pddl) (hP : Pddl.make t b n = .ok P)
    (hops : ∀ op ∈ t.ops, op.isAxiom = false → op.params ≠ [] ∧
      op.pre.WF (t.constants ++ t.objects) (op.params.map Obj.name)) (s : State) :
    ∃ l, P.listValidActions s = .ok l := by
  have B := Pddl.built hP
  rw [Pddl.listValidActions, B.actions]
  have hmem : ∀ op ∈ t.ops.filter (!·.isAxiom), op.params ≠ [] ∧
      op.pre.WF (t.constants ++ t.objects) (op.params.map Obj.name) := by
    intro op ho
    have := List.mem_filter.1 ho
    exact hops op this.1 (by simpa using this.2)
  generalize t.ops.filter (!·.isAxiom) = ops at hmem
  induction ops with
  | nil => exact ⟨[], rfl⟩
  | cons op ops ih =>
    obtain ⟨r, hr⟩ := ih (fun o ho => hmem o (by simp [ho]))
    obtain ⟨hp, hwf⟩ := hmem op (by simp)
    obtain ⟨tuples, h1, h2⟩ := gen_create (t.constants ++ t.objects) op.params hp
    obtain ⟨argss, h3⟩ := filterValid_total (P := P) (s := s) (op := op) (l := tuples) (by
      intro as ha
      obtain ⟨v, hv, -⟩ := eval_sat (t.constants ++ t.objects) s op.pre op.params as ((h2 as).1 ha).length hwf
      exact ⟨v, by rw [Op.isValid, B.omap]; exact hv⟩)
    have h4 : P.listValidArguments s op = .ok argss := by
      simp only [Pddl.listValidArguments, B.omap, paramGen_ok (ObjMap.nonEmpty_create _), Res.bind_ok, h1]
      exact h3
    exact ⟨_, by simp only [Pddl.listLoop, h4, hr, Res.bind_ok]; rfl⟩

section
open Demo
attribute [local instance] lenHash

example : P.listValidActions (State.ofList [inhand a, on b table]) = .ok [n!"pick(b)", n!"place(a, table)", n!"place(a, b)"] := by
  decide +kernel

/-- The demo domain meets the hypotheses. -/
theorem demo_listable : Listable tree ∧ (∀ o ∈ tree.constants ++ tree.objects, CleanArg o.name) ∧
    ((tree.ops.filter (!·.isAxiom)).map Op.name).Nodup ∧ ∀ o ∈ tree.constants ++ tree.objects, o.listTypes.Nodup := by
  refine ⟨?_, ?_, by decide, by decide⟩
  · intro op hop ha
    simp only [tree, List.mem_cons, List.not_mem_nil, or_false] at hop
    rcases hop with rfl | rfl | rfl
    · exact ⟨by simp [pick], ⟨[], _, rfl, rfl, by simp⟩, by simp [CleanHead, pick]⟩
    · exact ⟨by simp [place], ⟨[pick], _, rfl, rfl, by simp [pick, place]⟩, by simp [CleanHead, place]⟩
    · simp [held] at ha
  · intro o ho
    simp only [tree, List.cons_append, List.nil_append, List.mem_cons, List.not_mem_nil, or_false] at ho
    rcases ho with rfl | rfl | rfl <;> exact ⟨by decide, by simp [IsSep, a, b, table]⟩

/-- `reset()`: no parameters, no preconditions. -/
def resetOp : Op := ⟨n!"reset", [], .conj [], .mk .nil [(n!"on", [.const a, .const b])] [] .nil, false⟩
def resetTree : Ptree := { tree with ops := [resetOp] }
theorem resetMade : (Pddl.make resetTree true 5).isOk = true := by decide +kernel
def resetP : Pddl := get _ resetMade

/-- **C37, refuted for actions without parameters:** a valid one is not listed. -/
theorem C37_nullary_refuted :
    resetP.isValidAction resetP.initial n!"reset()" = .ok true ∧ resetP.listValidActions resetP.initial = .ok [] := by
  decide +kernel

end

end Symbolic
