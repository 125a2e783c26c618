import Verif.Lemmas.Reorder
import Verif.Lemmas.ParseAction
import Verif.Props.Plans
import Verif.Props.Derived
import Verif.Props.Least

/-!
# C79: the order of declarations does not matter
-/

namespace Symbolic

section
variable [StrHash] {t₁ t₂ : Ptree} {b₁ b₂ : Bool} {n₁ n₂ : Nat} {P₁ P₂ : Pddl}

omit [StrHash] in
theorem SameDomain.symm (h : SameDomain t₁ t₂) : SameDomain t₂ t₁ :=
  ⟨fun o => (h.objects o).symm, fun o => (h.ops o).symm, fun o => (h.drvs o).symm⟩

omit [StrHash] in
theorem lookupAll_same {os₁ os₂ : List Obj} (ho : ∀ o, o ∈ os₁ ↔ o ∈ os₂) (hnd : (os₁.map Obj.name).Nodup) :
    ∀ ns : List Name, lookupAll os₁ ns = lookupAll os₂ ns
  | [] => rfl
  | n :: ns => by
    have : lookupObject os₁ n = lookupObject os₂ n := by
      rw [lookupObject, lookupObject, find?_same ho]
      intro a ha b hb h1 h2
      have e : a.name = b.name := by
        rw [of_decide_eq_true h1, of_decide_eq_true h2]
      exact List.inj_on_of_nodup_map hnd ha hb e
    rw [lookupAll, lookupAll, this, lookupAll_same ho hnd ns]

/-- A call names the same action and objects. -/
theorem parseAction_same (h : SameDomain t₁ t₂) (B₁ : P₁.Built t₁) (B₂ : P₂.Built t₂)
    (hnd : ((t₁.constants ++ t₁.objects).map Obj.name).Nodup) (call : Name) (h1 : OneNamed t₁.ops (parseHead call)) :
    P₁.parseAction call = P₂.parseAction call := by
  have hop : P₁.getOp (parseHead call) = P₂.getOp (parseHead call) := by
    rw [Pddl.getOp, Pddl.getOp, B₁.tree, B₂.tree, find?_same h.ops]
    intro o ho o' ho' e e'
    exact h1 o ho o' ho' (of_decide_eq_true e) (of_decide_eq_true e')
  have harg : parseArguments P₁.symbols call = parseArguments P₂.symbols call := by
    rw [Pddl.symbols, Pddl.symbols, B₁.tree, B₂.tree]
    exact lookupAll_same h.objects hnd _
  unfold Pddl.parseAction
  rw [harg, ← hop]
  cases e : P₁.getOp (parseHead call) with
  | ok op =>
    have hm₁ : op ∈ t₁.ops := by
      obtain ⟨l1, l2, ho, -⟩ := (getOp_ok _ _ _).1 e
      rw [← B₁.tree, ho]; simp
    simp only [Res.bind_ok]
    rw [B₁.ops op hm₁, B₂.ops op ((h.ops op).1 hm₁)]
  | exc _ => rfl
  | ub => rfl
  | fuel => rfl

theorem parseAction_name {P : Pddl} {call : Name} {op : Op} {args : List Obj} (h : P.parseAction call = .ok (op, args)) :
    op.name = parseHead call := by
  simp only [Pddl.parseAction, Res.bind_eq_ok] at h
  obtain ⟨op', g1, ⟨⟩, -, args', -, g3⟩ := h
  split at g3
  · simp at g3
  · simp only [Res.bind_eq_ok, Res.pure_eq, Res.ok.injEq, Prod.mk.injEq] at g3
    obtain ⟨⟨⟩, -, rfl, -⟩ := g3
    obtain ⟨l1, l2, -, g4, -⟩ := (getOp_ok _ _ _).1 g1
    exact g4

/-- **C79, formulas.** A formula is true for one order of the objects iff it is for another. -/
theorem C79_formula (os₁ os₂ : List Obj) (ho : ∀ o, o ∈ os₁ ↔ o ∈ os₂) (g : Goal) (params : List Obj)
    (hwf : g.WF os₁ (params.map Obj.name)) :
    ∃ F₁ F₂, Formula.make (ObjMap.create os₁) g params = .ok F₁ ∧ Formula.make (ObjMap.create os₂) g params = .ok F₂ ∧
      ∀ (s : State) (args : List Obj), args.length = params.length → F₁.evalState s args = F₂.evalState s args := by
  refine ⟨⟨g, params, ObjMap.create os₁⟩, ⟨g, params, ObjMap.create os₂⟩, by simp [Formula.make, create_of_WF os₁ g _ hwf],
    by simp [Formula.make, create_of_WF os₂ g _ ((goalWF_objects ho g _).1 hwf)], fun s args hlen => ?_⟩
  exact eval_objects ho s g params args hlen.symm hwf

/-- **C79, goals.** -/
theorem C79_goal (hP₁ : Pddl.make t₁ b₁ n₁ = .ok P₁) (hP₂ : Pddl.make t₂ b₂ n₂ = .ok P₂) (h : SameDomain t₁ t₂)
    (hg : t₁.goal = t₂.goal) (hwf : t₁.goal.WF (t₁.constants ++ t₁.objects) []) (s : State) :
    P₁.isGoalSatisfied s = P₂.isGoalSatisfied s := by
  have B₁ := Pddl.built hP₁
  have B₂ := Pddl.built hP₂
  rw [Pddl.isGoalSatisfied, Pddl.isGoalSatisfied, B₁.tree, B₂.tree, B₁.omap, B₂.omap, ← hg]
  exact eval_objects h.objects s _ [] [] rfl hwf

/-- **C79, validity.** For a call whose name belongs to one operator: `IsValidAction` answers the same, and fails the
same. -/
theorem C79_valid_action (hP₁ : Pddl.make t₁ b₁ n₁ = .ok P₁) (hP₂ : Pddl.make t₂ b₂ n₂ = .ok P₂)
    (h : SameDomain t₁ t₂) (hnd : ((t₁.constants ++ t₁.objects).map Obj.name).Nodup) (call : Name)
    (h1 : OneNamed t₁.ops (parseHead call))
    (hwf : ∀ op ∈ t₁.ops, op.pre.WF (t₁.constants ++ t₁.objects) (op.params.map Obj.name)) (s : State) :
    P₁.isValidAction s call = P₂.isValidAction s call := by
  have B₁ := Pddl.built hP₁
  have B₂ := Pddl.built hP₂
  rw [Pddl.isValidAction, Pddl.isValidAction, ← parseAction_same h B₁ B₂ hnd call h1]
  cases e : P₁.parseAction call with
  | ok oa =>
    obtain ⟨hm, hw⟩ := parseAction_ok (op := oa.1) (args := oa.2) e
    rw [B₁.tree] at hm
    simp only [Res.bind_ok, Op.isValid, B₁.omap, B₂.omap]
    exact eval_objects h.objects s _ _ _ hw.length (hwf _ hm)
  | exc _ => rfl
  | ub => rfl
  | fuel => rfl

/-- **C79, listing.** `ListValidActions` returns the same calls, in another order. -/
theorem C79_list (hP₁ : Pddl.make t₁ b₁ n₁ = .ok P₁) (hP₂ : Pddl.make t₂ b₂ n₂ = .ok P₂)
    (h : SameDomain t₁ t₂) (hnd₁ : ((t₁.constants ++ t₁.objects).map Obj.name).Nodup)
    (hnd₂ : ((t₂.constants ++ t₂.objects).map Obj.name).Nodup) (hl₁ : Listable t₁) (hl₂ : Listable t₂)
    (hdist₁ : ((t₁.ops.filter (!·.isAxiom)).map Op.name).Nodup) (hdist₂ : ((t₂.ops.filter (!·.isAxiom)).map Op.name).Nodup)
    (htypes : ∀ o ∈ t₁.constants ++ t₁.objects, o.listTypes.Nodup)
    (hclean : ∀ o ∈ t₁.constants ++ t₁.objects, CleanArg o.name)
    (hwf : ∀ op ∈ t₁.ops, op.pre.WF (t₁.constants ++ t₁.objects) (op.params.map Obj.name)) (s : State) :
    ∃ l₁ l₂, P₁.listValidActions s = .ok l₁ ∧ P₂.listValidActions s = .ok l₂ ∧ l₁.Perm l₂ := by
  have hclean₂ : ∀ o ∈ t₂.constants ++ t₂.objects, CleanArg o.name := fun o ho => hclean o ((h.objects o).2 ho)
  have htypes₂ : ∀ o ∈ t₂.constants ++ t₂.objects, o.listTypes.Nodup := fun o ho => htypes o ((h.objects o).2 ho)
  obtain ⟨l₁, e₁⟩ := C37_list_returns t₁ b₁ n₁ P₁ hP₁ (fun op ho ha => ⟨(hl₁ op ho ha).1, hwf op ho⟩) s
  obtain ⟨l₂, e₂⟩ := C37_list_returns t₂ b₂ n₂ P₂ hP₂ (fun op ho ha => ⟨(hl₂ op ho ha).1,
    (goalWF_objects h.objects _ _).1 (hwf op ((h.ops op).2 ho))⟩) s
  refine ⟨l₁, l₂, e₁, e₂, (List.perm_ext_iff_of_nodup
    (C37_list_nodup t₁ b₁ n₁ P₁ hP₁ hnd₁ hl₁ hdist₁ htypes hclean s l₁ e₁)
    (C37_list_nodup t₂ b₂ n₂ P₂ hP₂ hnd₂ hl₂ hdist₂ htypes₂ hclean₂ s l₂ e₂)).2 fun c => ?_⟩
  rw [C37_list_exact t₁ b₁ n₁ P₁ hP₁ hnd₁ hl₁ hclean s l₁ e₁, C37_list_exact t₂ b₂ n₂ P₂ hP₂ hnd₂ hl₂ hclean₂ s l₂ e₂]
  have valid : ∀ op ∈ t₁.ops, op.isAxiom = false → ∀ as, WellTyped (t₁.constants ++ t₁.objects) op.params as →
      P₁.isValidAction s (Pddl.callOf op as) = P₂.isValidAction s (Pddl.callOf op as) := by
    intro op hm ha as hw
    have r₁ := C14_action_round_trip t₁ b₁ n₁ P₁ hP₁ op as (hl₁ op hm ha).2.1 hw hnd₁
      ⟨(hl₁ op hm ha).2.2, fun o ho => hclean o (WellTyped.mem hw ho).1⟩
    have hw₂ := (wellTyped_congr h.objects).1 hw
    have r₂ := C14_action_round_trip t₂ b₂ n₂ P₂ hP₂ op as (hl₂ op ((h.ops op).1 hm) ha).2.1 hw₂ hnd₂
      ⟨(hl₁ op hm ha).2.2, fun o ho => hclean o (WellTyped.mem hw ho).1⟩
    rw [Pddl.isValidAction, Pddl.isValidAction, r₁, r₂]
    simp only [Res.bind_ok, Op.isValid, (Pddl.built hP₁).omap, (Pddl.built hP₂).omap]
    exact eval_objects h.objects s _ _ _ hw.length (hwf _ hm)
  constructor
  · rintro ⟨op, hm, ha, as, hw, rfl, hv⟩
    exact ⟨op, (h.ops op).1 hm, ha, as, (wellTyped_congr h.objects).1 hw, rfl, by rw [← valid op hm ha as hw]; exact hv⟩
  · rintro ⟨op, hm, ha, as, hw, rfl, hv⟩
    have hw' := (wellTyped_congr h.objects).2 hw
    exact ⟨op, (h.ops op).2 hm, ha, as, hw', rfl, by rw [valid op ((h.ops op).2 hm) ha as hw']; exact hv⟩

/-- **C79, derived predicates, partial.** Rules that are not recursive derive the same from states that agree on the other
atoms.

Missing for the full claim: recursive rules, see `C79_rules_refuted`. -/
theorem C79_derived_partial (hP₁ : Pddl.make t₁ b₁ n₁ = .ok P₁) (hP₂ : Pddl.make t₂ b₂ n₂ = .ok P₂)
    (h : SameDomain t₁ t₂) (hwf : ∀ d ∈ t₁.drvs, d.WF (t₁.constants ++ t₁.objects)) (rank : Name → Nat)
    (ha : Acyclic rank t₁.drvs) (k₁ k₂ : Nat) (s s₁ s₂ : State) (h₁ : P₁.derivedState k₁ s = .ok s₁)
    (h₂ : P₂.derivedState k₂ s = .ok s₂) : s₁ = s₂ := by
  have hwf₂ : ∀ d ∈ t₂.drvs, d.WF (t₂.constants ++ t₂.objects) := fun d hd =>
    (drvWF_objects h.objects d).1 (hwf d ((h.drvs d).2 hd))
  obtain ⟨f₁, e₁, -⟩ := C28_derived_state_is_fixpoint t₁ b₁ n₁ P₁ hP₁ hwf s s₁ k₁ h₁
  obtain ⟨f₂, e₂, -⟩ := C28_derived_state_is_fixpoint t₂ b₂ n₂ P₂ hP₂ hwf₂ s s₂ k₂ h₂
  ext x
  refine fixpoint_unique ha f₁ ((fixpoint_congr h.objects h.drvs _).2 f₂) (fun y hy => (e₁ y hy).trans ?_) _ x
    (Nat.lt_succ_self _)
  exact (e₂ y (fun hd => hy ((isDerived_congr h.objects h.drvs y).2 hd))).symm

/-- An action whose result does not depend on the order of objects: well-formed, universal effects do not interfere with
themselves, no axiom is about its effects. -/
structure Regular (t : Ptree) (op : Op) : Prop where
  pre : op.pre.WF (t.constants ++ t.objects) (op.params.map Obj.name)
  eff : op.eff.WF (t.constants ++ t.objects) (op.params.map Obj.name)
  uniform : op.eff.Uniform
  untriggered : Untriggered t.ops op.eff

theorem apply_same (hP₁ : Pddl.make t₁ b₁ n₁ = .ok P₁) (hP₂ : Pddl.make t₂ b₂ n₂ = .ok P₂)
    (h : SameDomain t₁ t₂) {op : Op} (hr : Regular t₁ op) {args : List Obj} (hlen : op.params.length = args.length)
    (k₁ k₂ : Nat) (s : State) : op.apply P₁.omap P₁.axioms k₁ args s = op.apply P₂.omap P₂.axioms k₂ args s := by
  have B₁ := Pddl.built hP₁
  have B₂ := Pddl.built hP₂
  rw [Op.apply_untriggered (B₁.untriggered hr.untriggered),
    Op.apply_untriggered (B₂.untriggered fun ax hm ha => hr.untriggered ax ((h.ops ax).2 hm) ha), B₁.omap, B₂.omap]
  exact Eff.apply_objects h.objects (fun _ _ _ _ _ _ => rfl) (fun _ _ _ _ _ _ => rfl) op.eff op.params args s hlen hr.eff
    hr.uniform

/-- **C79, next states, partial.** A regular action in a domain whose rules are not recursive leads to the same state.

Missing for the full claim: universal effects that interfere with themselves (`C79_effect_refuted`), recursive rules
(`C79_rules_refuted`), triggered axioms (compare `C78_order_refuted`). -/
theorem C79_next_partial (hP₁ : Pddl.make t₁ b₁ n₁ = .ok P₁) (hP₂ : Pddl.make t₂ b₂ n₂ = .ok P₂)
    (h : SameDomain t₁ t₂) (hnd : ((t₁.constants ++ t₁.objects).map Obj.name).Nodup)
    (hwf : ∀ d ∈ t₁.drvs, d.WF (t₁.constants ++ t₁.objects)) (rank : Name → Nat) (ha : Acyclic rank t₁.drvs) (call : Name)
    (h1 : OneNamed t₁.ops (parseHead call)) (hr : ∀ op ∈ t₁.ops, op.name = parseHead call → Regular t₁ op) (k₁ k₂ : Nat)
    (s s₁ s₂ : State) (h₁ : P₁.nextState k₁ s call = .ok s₁) (h₂ : P₂.nextState k₂ s call = .ok s₂) : s₁ = s₂ := by
  have B₁ := Pddl.built hP₁
  have B₂ := Pddl.built hP₂
  rw [Pddl.nextState, ← parseAction_same h B₁ B₂ hnd call h1] at h₂
  simp only [Pddl.nextState, Pddl.applyOp, Res.bind_eq_ok] at h₁ h₂
  obtain ⟨⟨op, args⟩, e₁, r₁, a₁, d₁⟩ := h₁
  obtain ⟨oa, e₂, r₂, a₂, d₂⟩ := h₂
  rw [e₁, Res.ok.injEq] at e₂
  subst e₂
  obtain ⟨hm, hw⟩ := parseAction_ok e₁
  rw [B₁.tree] at hm
  have hname := parseAction_name e₁
  simp only at a₁ a₂
  rw [apply_same hP₁ hP₂ h (hr op hm hname) hw.length k₁ k₂, a₂, Res.ok.injEq] at a₁
  subst a₁
  exact C79_derived_partial hP₁ hP₂ h hwf rank ha k₁ k₂ r₂.2 s₁ s₂ (by simpa [Pddl.derivedState, Res.bind_eq_ok] using d₁)
    (by simpa [Pddl.derivedState, Res.bind_eq_ok] using d₂)

theorem validPlanFrom_same (hP₁ : Pddl.make t₁ b₁ n₁ = .ok P₁) (hP₂ : Pddl.make t₂ b₂ n₂ = .ok P₂)
    (h : SameDomain t₁ t₂) (hg : t₁.goal = t₂.goal) (hnd₁ : ((t₁.constants ++ t₁.objects).map Obj.name).Nodup)
    (hnd₂ : ((t₂.constants ++ t₂.objects).map Obj.name).Nodup) (hgoal : t₁.goal.WF (t₁.constants ++ t₁.objects) [])
    (hwf : ∀ d ∈ t₁.drvs, d.WF (t₁.constants ++ t₁.objects)) (hh₁ : (t₁.drvs.map Drv.head).Nodup)
    (hh₂ : (t₂.drvs.map Drv.head).Nodup) (rank : Name → Nat) (ha : Acyclic rank t₁.drvs) (N : Nat)
    (hN : ∀ d ∈ t₁.drvs, rank d.head < N) (k₁ k₂ : Nat) (hk₁ : N + 2 ≤ k₁) (hk₂ : N + 2 ≤ k₂) (plan : List Name)
    (hcalls : ∀ call ∈ plan, OneNamed t₁.ops (parseHead call) ∧
      ∀ op ∈ t₁.ops, op.name = parseHead call → Regular t₁ op)
    (s : State) : P₁.validPlanFrom k₁ s plan = P₂.validPlanFrom k₂ s plan := by
  have B₁ := Pddl.built hP₁
  have B₂ := Pddl.built hP₂
  have hwf₂ : ∀ d ∈ t₂.drvs, d.WF (t₂.constants ++ t₂.objects) := fun d hd =>
    (drvWF_objects h.objects d).1 (hwf d ((h.drvs d).2 hd))
  have derive : ∀ s : State, ∃ s', P₁.derivedState k₁ s = .ok s' ∧ P₂.derivedState k₂ s = .ok s' := by
    intro s
    obtain ⟨s₁, e₁⟩ := C29_acyclic_terminates_partial t₁ b₁ n₁ P₁ hP₁ hwf hnd₁ hh₁ rank ha N hN s k₁ hk₁
    obtain ⟨s₂, e₂⟩ := C29_acyclic_terminates_partial t₂ b₂ n₂ P₂ hP₂ hwf₂ hnd₂ hh₂ rank ((acyclic_congr h.drvs rank).1 ha) N
      (fun d hd => hN d ((h.drvs d).2 hd)) s k₂ hk₂
    exact ⟨s₁, e₁, by rw [C79_derived_partial hP₁ hP₂ h hwf rank ha k₁ k₂ s s₁ s₂ e₁ e₂]; exact e₂⟩
  have key : ∀ (plan : List Name) (s : State), (∀ call ∈ plan, OneNamed t₁.ops (parseHead call) ∧
      ∀ op ∈ t₁.ops, op.name = parseHead call → Regular t₁ op) → P₁.validPlanFrom k₁ s plan = P₂.validPlanFrom k₂ s plan := by
    intro plan
    induction plan with
    | nil => intro s _; exact C79_goal hP₁ hP₂ h hg hgoal s
    | cons call plan ih =>
      intro s hc
      obtain ⟨h1, hr⟩ := hc call (by simp)
      rw [Pddl.validPlanFrom, Pddl.validPlanFrom, ← parseAction_same h B₁ B₂ hnd₁ call h1]
      cases e : P₁.parseAction call with
      | ok oa =>
        obtain ⟨op, args⟩ := oa
        obtain ⟨hm, hw⟩ := parseAction_ok e
        rw [B₁.tree] at hm
        have hreg := hr op hm (parseAction_name e)
        simp only [Res.bind_ok]
        have hv : op.isValid P₁.omap s args = op.isValid P₂.omap s args := by
          rw [Op.isValid, Op.isValid, B₁.omap, B₂.omap]
          exact eval_objects h.objects s _ _ _ hw.length hreg.pre
        have happ : P₁.applyOp k₁ op args s = P₂.applyOp k₂ op args s := by
          have := apply_same hP₁ hP₂ h hreg hw.length k₁ k₂ s
          unfold Pddl.applyOp
          rw [← this]
          cases op.apply P₁.omap P₁.axioms k₁ args s with
          | ok r =>
            obtain ⟨s', d₁, d₂⟩ := derive r.2
            simp only [Res.bind_ok]
            exact d₁.trans d₂.symm
          | exc _ => rfl
          | ub => rfl
          | fuel => rfl
        rw [← hv, ← happ]
        cases op.isValid P₁.omap s args with
        | ok v =>
          cases v with
          | false => rfl
          | true =>
            simp only [Res.bind_ok, if_true]
            cases P₁.applyOp k₁ op args s with
            | ok s' => exact ih s' (fun c hm => hc c (by simp [hm]))
            | exc _ => rfl
            | ub => rfl
            | fuel => rfl
        | exc _ => rfl
        | ub => rfl
        | fuel => rfl
      | exc _ => rfl
      | ub => rfl
      | fuel => rfl
  exact key plan s hcalls

/-- **C79, plans, partial.** For calls of regular actions, `IsValidPlan` answers the same and fails the same, when both start
in the same state (see C78 and `C79_initial`) and the rules are not recursive and have distinct heads. -/
theorem C79_plan_partial (hP₁ : Pddl.make t₁ b₁ n₁ = .ok P₁) (hP₂ : Pddl.make t₂ b₂ n₂ = .ok P₂)
    (h : SameDeclarations t₁ t₂) (hnd₁ : ((t₁.constants ++ t₁.objects).map Obj.name).Nodup)
    (hnd₂ : ((t₂.constants ++ t₂.objects).map Obj.name).Nodup) (hgoal : t₁.goal.WF (t₁.constants ++ t₁.objects) [])
    (hwf : ∀ d ∈ t₁.drvs, d.WF (t₁.constants ++ t₁.objects)) (hh₁ : (t₁.drvs.map Drv.head).Nodup)
    (hh₂ : (t₂.drvs.map Drv.head).Nodup) (rank : Name → Nat) (ha : Acyclic rank t₁.drvs) (N : Nat)
    (hN : ∀ d ∈ t₁.drvs, rank d.head < N) (k₁ k₂ : Nat) (hk₁ : N + 2 ≤ k₁) (hk₂ : N + 2 ≤ k₂) (plan : List Name)
    (hcalls : ∀ call ∈ plan, OneNamed t₁.ops (parseHead call) ∧
      ∀ op ∈ t₁.ops, op.name = parseHead call → Regular t₁ op)
    (hi : P₁.initial = P₂.initial) : P₁.isValidPlan k₁ plan = P₂.isValidPlan k₂ plan := by
  rw [Pddl.isValidPlan, Pddl.isValidPlan, ← hi]
  exact validPlanFrom_same hP₁ hP₂ h.toSameDomain h.goal hnd₁ hnd₂ hgoal hwf hh₁ hh₂ rank ha N hN k₁ k₂ hk₁ hk₂ plan hcalls _

/-- **C79, initial states.** Without `apply_axioms` both start in the same state. -/
theorem C79_initial (hP₁ : Pddl.make t₁ false n₁ = .ok P₁) (hP₂ : Pddl.make t₂ false n₂ = .ok P₂)
    (h : SameDeclarations t₁ t₂) : P₁.initial = P₂.initial := by
  have key : ∀ {t : Ptree} {n : Nat} {P : Pddl}, Pddl.make t false n = .ok P → ∀ x, x ∈ P.initial ↔ x ∈ t.init := by
    intro t n P hP x
    simp only [Pddl.make, Res.bind_eq_ok] at hP
    obtain ⟨axs0, h0, ⟨⟩, h1, ⟨⟩, h2, h⟩ := hP
    split at h
    · simp at h
    · simp only [Res.bind_eq_ok, Res.pure_eq, Res.ok.injEq, Bool.false_eq_true, if_false] at h
      obtain ⟨⟨⟩, h3, axs, h4, ⟨⟩, h5, init, rfl, rfl⟩ := h
      exact State.mem_ofList
  ext x
  rw [key hP₁, key hP₂, h.init]

end

section
open Demo
attribute [local instance] lenHash

/-! ## Examples -/

/-- `sweep(?y)`: take everything off `?y`, unless nothing is on it. -/
def sweep : Op where
  name := n!"sweep"
  params := [y]
  pre := .ex [u] (.atom n!"on" [.var u, .var y])
  eff := .mk (.cons [u] (.mk .nil [] [(n!"on", [.var u, .var y])] .nil) .nil) [] []
    (.cons (.atom n!"=" [.var y, .const table]) (.mk .nil [(n!"inhand", [.const a])] [] .nil) .nil)
def sweepTree : Ptree := { tree with ops := [place, sweep] }
/-- Everything in another order. -/
def sweepTree' : Ptree := { tree with constants := [], objects := [b, table, a], ops := [sweep, place], init := [on b table, on a table] }

theorem sweepMade : (Pddl.make sweepTree false 5).isOk = true := by decide +kernel
def sweepP : Pddl := get _ sweepMade
theorem sweepP_made : Pddl.make sweepTree false 5 = .ok sweepP := get_eq _ _
theorem sweepMade' : (Pddl.make sweepTree' false 5).isOk = true := by decide +kernel
def sweepP' : Pddl := get _ sweepMade'
theorem sweepP'_made : Pddl.make sweepTree' false 5 = .ok sweepP' := get_eq _ _

theorem sweep_same : SameDeclarations sweepTree sweepTree' := by
  refine ⟨⟨fun o => ?_, fun o => ?_, fun _ => Iff.rfl⟩, fun x => ?_, rfl⟩
  · simp only [sweepTree, sweepTree', tree, List.cons_append, List.nil_append, List.mem_cons, List.not_mem_nil, or_false]
    tauto
  · simp only [sweepTree, sweepTree', List.mem_cons, List.not_mem_nil, or_false]
    tauto
  · simp only [sweepTree, sweepTree', tree, List.mem_cons, List.not_mem_nil, or_false]
    tauto

theorem sweep_regular : ∀ op ∈ sweepTree.ops, Regular sweepTree op := by
  intro op hm
  have hax : ∀ op : Op, Untriggered sweepTree.ops op.eff := by
    intro op ax hm ha
    simp only [sweepTree, List.mem_cons, List.not_mem_nil, or_false] at hm
    rcases hm with rfl | rfl <;> simp [place, sweep] at ha
  have ho : sweepTree.constants ++ sweepTree.objects = [table, a, b] := rfl
  simp only [sweepTree, List.mem_cons, List.not_mem_nil, or_false] at hm
  rcases hm with rfl | rfl
  · refine ⟨?_, ?_, ?_, hax _⟩ <;>
      simp [ho, place, Goal.WF, Goal.WFs, Eff.WF, FList.WF, CList.WF, WFLits, Eff.Uniform, FList.Uniform, CList.Uniform,
        Term.Scoped, IsType, HasType, a, b, table, x, y, tBox, tObj]
  · refine ⟨?_, ?_, ?_, hax _⟩
    · simp [ho, sweep, Goal.WF, Term.Scoped, IsType, HasType, a, b, table, y, u, tBox, tObj]
    · simp [ho, sweep, Goal.WF, Eff.WF, FList.WF, CList.WF, WFLits, Term.Scoped, IsType, HasType, a, b, table, y, u, tBox,
        tObj]
    · simp [sweep, Eff.Uniform, FList.Uniform, CList.Uniform, Eff.NoClash, Eff.Touches, FList.Touches, CList.Touches,
        ListsPred, Eff.Reads, FList.Reads, CList.Reads]

/-- The universal effect of `sweep` is not sensitive to the order of objects. -/
example : ∀ s s', sweepP.nextState 5 (State.ofList [on a table, on b table]) n!"sweep(table)" = .ok s →
    sweepP'.nextState 5 (State.ofList [on a table, on b table]) n!"sweep(table)" = .ok s' → s = s' := by
  intro s s' h h'
  refine C79_next_partial sweepP_made sweepP'_made sweep_same.toSameDomain (by decide) ?_ (fun _ => 0) ?_ n!"sweep(table)" ?_
    (fun op hm _ => sweep_regular op hm) 5 5 _ s s' h h'
  · intro d hd
    simp only [sweepTree, tree, List.mem_singleton] at hd
    subst hd
    exact ⟨by simp [busy], by
      simp [sweepTree, tree, busy, Goal.WF, Goal.WFs, Term.Scoped, IsType, HasType, a, b, table, x, u, tBox, tObj]⟩
  · intro d hd p n hm hh
    simp only [sweepTree, tree, List.mem_singleton] at hd
    subst hd
    obtain ⟨d', hd', rfl⟩ := hh
    simp only [sweepTree, tree, List.mem_singleton] at hd'
    subst hd'
    simp [busy, Goal.Mentions, Goal.MentionsL] at hm
  · intro op hm op' hm' e e'
    simp only [sweepTree, List.mem_cons, List.not_mem_nil, or_false] at hm hm'
    have : parseHead n!"sweep(table)" = n!"sweep" := by decide
    rw [this] at e e'
    rcases hm with rfl | rfl <;> rcases hm' with rfl | rfl <;> first | rfl | (simp [place, sweep] at e e')

example : sweepP.nextState 5 (State.ofList [on a table, on b table]) n!"sweep(table)" =
    .ok (State.ofList [inhand a, busyA a]) ∧
    sweepP.listValidActions (State.ofList [on a table, inhand a]) = .ok [n!"place(a, table)", n!"place(a, b)", n!"sweep(table)"] ∧
    sweepP'.listValidActions (State.ofList [on a table, inhand a]) =
      .ok [n!"sweep(table)", n!"place(a, b)", n!"place(a, table)"] := by
  decide +kernel

/-! ## Refutations -/

/-- `orient(?x)`: `(forall (?u ?v) (and (on ?u ?v) (not (on ?v ?u))))`. -/
def orient : Op where
  name := n!"orient"
  params := [x]
  pre := .conj []
  eff := .mk (.cons [u, ⟨n!"v", tBox⟩] (.mk .nil [(n!"on", [.var u, .var ⟨n!"v", tBox⟩])]
    [(n!"on", [.var ⟨n!"v", tBox⟩, .var u])] .nil) .nil) [] [] .nil
/-- `choose(?x)`: `(forall (?u) (when (not (exists (?v) (inhand ?v))) (inhand ?u)))`. -/
def choose : Op where
  name := n!"choose"
  params := [x]
  pre := .conj []
  eff := .mk (.cons [u] (.mk .nil [] [] (.cons (.neg (.ex [⟨n!"v", tBox⟩] (.atom n!"inhand" [.var ⟨n!"v", tBox⟩])))
    (.mk .nil [(n!"inhand", [.var u])] [] .nil) .nil)) .nil) [] [] .nil
def orientTree (objects : List Obj) : Ptree := { tree with objects := objects, ops := [orient, choose], drvs := [], init := [] }

theorem orientMade : (Pddl.make (orientTree [a, b]) false 5).isOk = true := by decide +kernel
def orientP : Pddl := get _ orientMade
theorem orientMade' : (Pddl.make (orientTree [b, a]) false 5).isOk = true := by decide +kernel
def orientP' : Pddl := get _ orientMade'

/-- **C79, refuted** for universal effects that interfere with themselves: the order of two objects decides which atom is
left, for one that adds and deletes and for one that reads what it changes. -/
theorem C79_effect_refuted : SameDeclarations (orientTree [a, b]) (orientTree [b, a]) ∧
    Pddl.make (orientTree [a, b]) false 5 = .ok orientP ∧ Pddl.make (orientTree [b, a]) false 5 = .ok orientP' ∧
    orientP.nextState 5 State.empty n!"orient(a)" = .ok (State.ofList [on b a]) ∧
    orientP'.nextState 5 State.empty n!"orient(a)" = .ok (State.ofList [on a b]) ∧
    orientP.nextState 5 State.empty n!"choose(a)" = .ok (State.ofList [inhand a]) ∧
    orientP'.nextState 5 State.empty n!"choose(a)" = .ok (State.ofList [inhand b]) := by
  refine ⟨⟨⟨fun o => ?_, fun _ => Iff.rfl, fun _ => Iff.rfl⟩, fun _ => Iff.rfl, rfl⟩, get_eq _ _, get_eq _ _, by decide +kernel,
    by decide +kernel, by decide +kernel, by decide +kernel⟩
  simp only [orientTree, tree, List.cons_append, List.nil_append, List.mem_cons, List.not_mem_nil, or_false]
  tauto

/-- `(:derived (left ?x) (not (right ?x)))` and `(:derived (right ?x) (not (left ?x)))`. -/
def leftRule : Drv := ⟨n!"left", [x], .neg (.atom n!"right" [.var x])⟩
def rightRule : Drv := ⟨n!"right", [x], .neg (.atom n!"left" [.var x])⟩
def sideTree (rules : List Drv) : Ptree := { tree with objects := [a], ops := [], drvs := rules, init := [] }

theorem sideMade : (Pddl.make (sideTree [leftRule, rightRule]) false 5).isOk = true := by decide +kernel
def sideP : Pddl := get _ sideMade
theorem sideMade' : (Pddl.make (sideTree [rightRule, leftRule]) false 5).isOk = true := by decide +kernel
def sideP' : Pddl := get _ sideMade'

/-- **C79, refuted** for rules that depend on each other: the order of two rules decides what is derived. -/
theorem C79_rules_refuted : SameDeclarations (sideTree [leftRule, rightRule]) (sideTree [rightRule, leftRule]) ∧
    Pddl.make (sideTree [leftRule, rightRule]) false 5 = .ok sideP ∧
    Pddl.make (sideTree [rightRule, leftRule]) false 5 = .ok sideP' ∧
    sideP.derivedState 5 State.empty = .ok (State.ofList [⟨n!"left", [n!"a"]⟩]) ∧
    sideP'.derivedState 5 State.empty = .ok (State.ofList [⟨n!"right", [n!"a"]⟩]) := by
  refine ⟨⟨⟨fun _ => Iff.rfl, fun _ => Iff.rfl, fun d => ?_⟩, fun _ => Iff.rfl, rfl⟩, get_eq _ _, get_eq _ _, by decide +kernel,
    by decide +kernel⟩
  simp only [sideTree, List.mem_cons, List.not_mem_nil, or_false]
  tauto

end

end Symbolic
