import Verif.Lemmas.MoreObjects
import Verif.Props.Cascade
import Verif.Props.Monotone

/-!
# C107: more objects
-/

namespace Symbolic

section
variable [StrHash] {t t' : Ptree} {b b' : Bool} {n n' : Nat} {P P' : Pddl}

omit [StrHash] in
theorem named_more {objects objects' : List Obj} (ho : ∀ o ∈ objects, o ∈ objects') (hn : (objects'.map Obj.name).Nodup) {m : Name}
    {o : Obj} (h : Named objects m o) : Named objects' m o := by
  obtain ⟨l₁, l₂, rfl, rfl, -⟩ := h
  obtain ⟨k₁, k₂, rfl⟩ := List.append_of_mem (ho o (by simp))
  refine ⟨k₁, k₂, rfl, rfl, fun o' ho' e => ?_⟩
  simp only [List.map_append, List.map_cons] at hn
  exact (List.nodup_append.1 hn).2.2 o.name (List.mem_map.2 ⟨o', ho', e⟩) o.name (by simp) rfl

/-- A call that is read in the small problem is read in the same way in the larger one. -/
theorem parseAction_more (h : MoreObjects t t') (B : P.Built t) (B' : P'.Built t')
    (hn : ((t'.constants ++ t'.objects).map Obj.name).Nodup) {call : Name} {op : Op} {args : List Obj}
    (hp : P.parseAction call = .ok (op, args)) : P'.parseAction call = .ok (op, args) := by
  have hm := (parseAction_ok hp).1
  rw [B.tree] at hm
  have hop : P'.getOp (parseHead call) = P.getOp (parseHead call) := by
    rw [Pddl.getOp, Pddl.getOp, B.tree, B'.tree, h.ops]
  unfold Pddl.parseAction at hp ⊢
  rw [hop]
  rw [Res.bind_eq_ok] at hp
  obtain ⟨op', h1, h2⟩ := hp
  rw [h1]
  rw [Res.bind_eq_ok] at h2
  obtain ⟨⟨⟩, -, h3⟩ := h2
  rw [Res.bind_eq_ok] at h3
  obtain ⟨as, h4, h5⟩ := h3
  have hop' : op' = op := by
    split at h5
    · simp at h5
    · simp only [Res.bind_eq_ok, Res.pure_eq, Res.ok.injEq, Prod.mk.injEq] at h5
      exact h5.choose_spec.2.1
  have h6 : parseArguments P'.symbols call = .ok as := by
    rw [parseArguments, lookupAll_ok] at h4 ⊢
    rw [Pddl.symbols, B.tree] at h4
    rw [Pddl.symbols, B'.tree]
    exact h4.imp fun _ _ hN => named_more h.objects hn hN
  simp only [Res.bind_ok]
  rw [B'.ops op' (by rw [h.ops, hop']; exact hm), Res.bind_ok, h6, Res.bind_ok]
  exact h5

theorem isValid_more (h : MoreObjects t t') (B : P.Built t) (B' : P'.Built t') {op : Op} {args : List Obj}
    (hpre : op.pre.WF (t.constants ++ t.objects) (op.params.map Obj.name))
    (hpre' : op.pre.WF (t'.constants ++ t'.objects) (op.params.map Obj.name)) (hcl : op.pre.Closed (t.constants ++ t.objects))
    (hw : WellTyped (t.constants ++ t.objects) op.params args) {s s' : State}
    (hs : AgreeAbout (t.constants ++ t.objects) (· ∈ s) (· ∈ s')) :
    (op.pre.Quants true → op.isValid P.omap s args = .ok true → op.isValid P'.omap s' args = .ok true) ∧
      (op.pre.Quants true → op.pre.Quants false → op.isValid P'.omap s' args = op.isValid P.omap s args) := by
  simp only [Op.isValid, B.omap, B'.omap]
  obtain ⟨v, hv, h1⟩ := eval_sat _ s op.pre op.params args hw.length hpre
  obtain ⟨v', hv', h1'⟩ := eval_sat _ s' op.pre op.params args hw.length hpre'
  have he := (Env.over_none (t.constants ++ t.objects)).bind op.params args (WellTyped.over hw)
  rw [hv, hv']
  refine ⟨fun hq h2 => ?_, fun hq hq' => ?_⟩
  · rw [Res.ok.injEq] at h2
    rw [h1'.2 ((sat_more h.objects h.types hs op.pre true _ he hq hcl).1 rfl (h1.1 h2))]
  · rw [Res.ok.injEq, Bool.eq_iff_iff, h1, h1']
    exact Goal.Ground.sat h.objects h.types hs ⟨hq, hq', hcl⟩ he

/-- **C107, validity.** A call that is valid in a State is valid in the problem with more objects, in every State with the same
atoms about the old objects, if the quantifiers of preconditions are existential. Without quantifiers, the answers are the same. -/
theorem C107_valid_action (hP : Pddl.make t b n = .ok P) (hP' : Pddl.make t' b' n' = .ok P') (h : MoreObjects t t')
    (hn : ((t'.constants ++ t'.objects).map Obj.name).Nodup)
    (hpre : ∀ op ∈ t.ops, op.pre.WF (t.constants ++ t.objects) (op.params.map Obj.name))
    (hpre' : ∀ op ∈ t.ops, op.pre.WF (t'.constants ++ t'.objects) (op.params.map Obj.name))
    (hcl : ∀ op ∈ t.ops, op.pre.Closed (t.constants ++ t.objects)) (hq : ∀ op ∈ t.ops, op.pre.Quants true) {s s' : State}
    (hs : AgreeAbout (t.constants ++ t.objects) (· ∈ s) (· ∈ s')) (call : Name) :
    (P.isValidAction s call = .ok true → P'.isValidAction s' call = .ok true) ∧
      ((∀ op ∈ t.ops, op.pre.Quants false) → ∀ v, P.isValidAction s call = .ok v → P'.isValidAction s' call = .ok v) := by
  have B := Pddl.built hP
  have B' := Pddl.built hP'
  have key : ∀ v, P.isValidAction s call = .ok v → ∃ op args, op ∈ t.ops ∧ WellTyped (t.constants ++ t.objects) op.params args ∧
      op.isValid P.omap s args = .ok v ∧ P'.isValidAction s' call = op.isValid P'.omap s' args := by
    intro v hv
    simp only [Pddl.isValidAction, Res.bind_eq_ok] at hv
    obtain ⟨⟨op, args⟩, h1, h2⟩ := hv
    obtain ⟨hm, hw⟩ := parseAction_ok h1
    rw [B.tree] at hm
    rw [Pddl.symbols, B.tree] at hw
    exact ⟨op, args, hm, hw, h2, by rw [Pddl.isValidAction, parseAction_more h B B' hn h1, Res.bind_ok]⟩
  constructor
  · intro hv
    obtain ⟨op, args, hm, hw, h1, h2⟩ := key _ hv
    rw [h2]
    exact (isValid_more h B B' (hpre op hm) (hpre' op hm) (hcl op hm) hw hs).1 (hq op hm) h1
  · intro hq' v hv
    obtain ⟨op, args, hm, hw, h1, h2⟩ := key _ hv
    rw [h2, (isValid_more h B B' (hpre op hm) (hpre' op hm) (hcl op hm) hw hs).2 (hq op hm) (hq' op hm), h1]

/-- **C107, goals.** Likewise for the goal. -/
theorem C107_goal (hP : Pddl.make t b n = .ok P) (hP' : Pddl.make t' b' n' = .ok P') (h : MoreObjects t t')
    (hg : t'.goal = t.goal) (hwf : t.goal.WF (t.constants ++ t.objects) []) (hwf' : t.goal.WF (t'.constants ++ t'.objects) [])
    (hcl : t.goal.Closed (t.constants ++ t.objects)) (hq : t.goal.Quants true) {s s' : State}
    (hs : AgreeAbout (t.constants ++ t.objects) (· ∈ s) (· ∈ s')) :
    (P.isGoalSatisfied s = .ok true → P'.isGoalSatisfied s' = .ok true) ∧
      (t.goal.Quants false → P'.isGoalSatisfied s' = P.isGoalSatisfied s) := by
  have B := Pddl.built hP
  have B' := Pddl.built hP'
  simp only [Pddl.isGoalSatisfied, B.tree, B.omap, B'.tree, B'.omap, hg]
  obtain ⟨v, hv, h1⟩ := eval_sat _ s t.goal [] [] rfl hwf
  obtain ⟨v', hv', h1'⟩ := eval_sat _ s' t.goal [] [] rfl hwf'
  have he : (Env.none.bind [] []).Over (t.constants ++ t.objects) := Env.over_none _
  rw [hv, hv']
  refine ⟨fun h2 => ?_, fun hq' => ?_⟩
  · rw [Res.ok.injEq] at h2
    rw [h1'.2 ((sat_more h.objects h.types hs t.goal true _ he hq hcl).1 rfl (h1.1 h2))]
  · rw [Res.ok.injEq, Bool.eq_iff_iff, h1, h1']
    exact Goal.Ground.sat h.objects h.types hs ⟨hq, hq', hcl⟩ he

/-- **C107, listing.** Every call that `ListValidActions` returns is still returned. -/
theorem C107_list (hP : Pddl.make t b n = .ok P) (hP' : Pddl.make t' b' n' = .ok P') (h : MoreObjects t t')
    (hn : ((t.constants ++ t.objects).map Obj.name).Nodup) (hn' : ((t'.constants ++ t'.objects).map Obj.name).Nodup)
    (hl : Listable t) (hc : ∀ o ∈ t'.constants ++ t'.objects, CleanArg o.name)
    (hpre : ∀ op ∈ t.ops, op.pre.WF (t.constants ++ t.objects) (op.params.map Obj.name))
    (hpre' : ∀ op ∈ t.ops, op.pre.WF (t'.constants ++ t'.objects) (op.params.map Obj.name))
    (hcl : ∀ op ∈ t.ops, op.pre.Closed (t.constants ++ t.objects)) (hq : ∀ op ∈ t.ops, op.pre.Quants true) {s s' : State}
    (hs : AgreeAbout (t.constants ++ t.objects) (· ∈ s) (· ∈ s')) {l l' : List Name} (e : P.listValidActions s = .ok l)
    (e' : P'.listValidActions s' = .ok l') : ∀ c ∈ l, c ∈ l' := by
  intro c hm
  have hl' : Listable t' := by
    unfold Listable
    rw [h.ops]
    exact hl
  rw [C37_list_exact t b n P hP hn hl (fun o ho => hc o (h.objects o ho)) s l e] at hm
  rw [C37_list_exact t' b' n' P' hP' hn' hl' hc s' l' e', h.ops]
  obtain ⟨op, ho, ha, as, hw, rfl, hv⟩ := hm
  exact ⟨op, ho, ha, as, hw.more h.objects, rfl, (C107_valid_action hP hP' h hn' hpre hpre' hcl hq hs _).1 hv⟩

/-- Both applications return, and the results have the same atoms about the old objects. -/
theorem apply_more (hP : Pddl.make t b n = .ok P) (hP' : Pddl.make t' b' n' = .ok P') (h : MoreObjects t t')
    {up up' : Name → List Name} (ht : t.TypeChecked up) (ht' : t'.TypeChecked up') (hp : t.PlainEffects) (hp' : t'.PlainEffects)
    (hL : t.Local) {op : Op} (hm : op ∈ t.ops) {args : List Obj} (hw : WellTyped (t.constants ++ t.objects) op.params args)
    {s s' : State} (hs : AgreeAbout (t.constants ++ t.objects) (· ∈ s) (· ∈ s'))
    (hf : NoConflict (t'.CausesIn (· ∈ s') op args)) (hr : t'.NotRead op (t'.CausesIn (· ∈ s') op args)) {k k' : Nat}
    (hk : (declaredLits (t.constants ++ t.objects) t.preds).length ≤ k)
    (hk' : (declaredLits (t'.constants ++ t'.objects) t'.preds).length ≤ k') :
    ∃ i i' q q', op.apply P.omap P.axioms k args s = .ok (i, q) ∧ op.apply P'.omap P'.axioms k' args s' = .ok (i', q') ∧
      AgreeAbout (t.constants ++ t.objects) (· ∈ q) (· ∈ q') := by
  have hc := fun sg x => causes_more h ht ht' hL hs hm (WellTyped.over hw) sg x
  obtain ⟨i, q, f, m, -⟩ := (Pddl.built hP).cascade_state ht hp hm hw (s := s)
    (fun x hx hx' => hf x ((hc _ _).1 hx) ((hc _ _).1 hx'))
    (fun sg x hx => ⟨(hr sg x ((hc _ _).1 hx)).1, fun ax hax => (hr sg x ((hc _ _).1 hx)).2 ax (h.ops ▸ hax)⟩) hk
  obtain ⟨i', q', f', m', -⟩ := (Pddl.built hP').cascade_state ht' hp' (h.ops ▸ hm) (hw.more h.objects) hf hr hk'
  refine ⟨i, i', q, q', f, f', fun x hx => ?_⟩
  have h1 := fun sg => (⟨(hc sg x).1, (hc sg x).2 hx⟩ :
    t.CausesIn (· ∈ s) op args sg x ↔ t'.CausesIn (· ∈ s') op args sg x)
  have h2 : x ∈ s ↔ x ∈ s' := hs x hx
  show x ∈ q ↔ x ∈ q'
  rw [m, m', h1, h1, h2]

/-- **C107, derived predicates, partial.** `DerivedState` gives the same atoms about the old objects, for rules that are not
recursive and have no quantifiers. -/
theorem C107_derived_partial (hP : Pddl.make t b n = .ok P) (hP' : Pddl.make t' b' n' = .ok P') (h : MoreObjects t t')
    (hn' : ((t'.constants ++ t'.objects).map Obj.name).Nodup)
    (hwf : ∀ d ∈ t.drvs, d.WF (t.constants ++ t.objects)) (hwf' : ∀ d ∈ t.drvs, d.WF (t'.constants ++ t'.objects))
    (hL : t.Local) (rank : Name → Nat) (ha : Acyclic rank t.drvs) {k k' : Nat} {s s' r r' : State}
    (hs : AgreeAbout (t.constants ++ t.objects) (· ∈ s) (· ∈ s')) (e : P.derivedState k s = .ok r)
    (e' : P'.derivedState k' s' = .ok r') : AgreeAbout (t.constants ++ t.objects) (· ∈ r) (· ∈ r') := by
  obtain ⟨f, e, -⟩ := C28_derived_state_is_fixpoint t b n P hP hwf s r k e
  obtain ⟨f', e', -⟩ := C28_derived_state_is_fixpoint t' b' n' P' hP' (by rw [h.drvs]; exact hwf') s' r' k' e'
  refine fixpoint_more h hL ha f f' fun x hx hd => ?_
  refine (e x hd).trans (Iff.trans ?_ (e' x (fun hd' => hd ((isDerived_more h hn' hx).1 hd'))).symm)
  exact hs x hx

/-- **C107, next states, partial.** `NextState` gives the same atoms about the old objects, if in the larger problem nothing is
caused to be true as well as false and conditions are not about what is caused.

Missing for the full claim: conditions and rules with quantifiers, universal effects whose literals lack a quantified variable or
that trigger axioms, recursive rules, and the conditions of C89. -/
theorem C107_next_partial (hP : Pddl.make t b n = .ok P) (hP' : Pddl.make t' b' n' = .ok P') (h : MoreObjects t t')
    (up up' : Name → List Name) (ht : t.TypeChecked up) (ht' : t'.TypeChecked up') (hw : t.WellFormed) (hw' : t'.WellFormed)
    (hL : t.Local) (rank : Name → Nat) (ha : Acyclic rank t.drvs) :
    ∃ N, ∀ (call : Name) (op : Op) (args : List Obj) (s s' : State), P.parseAction call = .ok (op, args) →
      AgreeAbout (t.constants ++ t.objects) (· ∈ s) (· ∈ s') → NoConflict (t'.CausesIn (· ∈ s') op args) →
      t'.NotRead op (t'.CausesIn (· ∈ s') op args) → ∀ k k', N ≤ k → N ≤ k' → ∃ r r', P.nextState k s call = .ok r ∧
        P'.nextState k' s' call = .ok r' ∧ AgreeAbout (t.constants ++ t.objects) (· ∈ r) (· ∈ r') := by
  have B := Pddl.built hP
  have B' := Pddl.built hP'
  obtain ⟨M, hM⟩ : ∃ M, ∀ d ∈ t.drvs, rank d.head < M := by
    generalize t.drvs = l
    induction l with
    | nil => exact ⟨0, by simp⟩
    | cons d l ih =>
      obtain ⟨M, hM⟩ := ih
      refine ⟨max M (rank d.head + 1), fun e he => ?_⟩
      rcases List.mem_cons.1 he with rfl | he
      · omega
      · have := hM e he
        omega
  refine ⟨M + 2 + (declaredLits (t.constants ++ t.objects) t.preds).length +
    (declaredLits (t'.constants ++ t'.objects) t'.preds).length, fun call op args s s' hpa hs hf hr k k' hk hk' => ?_⟩
  obtain ⟨hm, hwt⟩ := parseAction_ok hpa
  rw [B.tree] at hm
  rw [Pddl.symbols, B.tree] at hwt
  obtain ⟨i, i', q, q', f, f', hq⟩ := apply_more hP hP' h ht ht' hw.eff hw'.eff hL hm hwt hs hf hr (k := k) (k' := k') (by omega)
    (by omega)
  obtain ⟨r, e⟩ := C29_acyclic_terminates_partial t b n P hP hw.drvs hw.names hw.heads rank ha M hM q k (by omega)
  obtain ⟨r', e'⟩ := C29_acyclic_terminates_partial t' b' n' P' hP' hw'.drvs hw'.names hw'.heads rank (h.drvs ▸ ha) M
    (h.drvs ▸ hM) q' k' (by omega)
  refine ⟨r, r', ?_, ?_, C107_derived_partial hP hP' h hw'.names hw.drvs (h.drvs ▸ hw'.drvs) hL rank ha hq e e'⟩
  · simp only [Pddl.nextState, hpa, Res.bind_ok, Pddl.applyOp, f]
    exact e
  · simp only [Pddl.nextState, parseAction_more h B B' hw'.names hpa, Res.bind_ok, Pddl.applyOp, f']
    exact e'

/-- Plans from States with the same atoms about the old objects. -/
theorem validPlanFrom_more (hP : Pddl.make t b n = .ok P) (hP' : Pddl.make t' b' n' = .ok P') (h : MoreObjects t t')
    (hg : t'.goal = t.goal) (up up' : Name → List Name) (ht : t.TypeChecked up) (ht' : t'.TypeChecked up') (hw : t.WellFormed)
    (hw' : t'.WellFormed) (hL : t.Local) (hcl : t.goal.Closed (t.constants ++ t.objects)) (rank : Name → Nat)
    (ha : Acyclic rank t.drvs) (hq : ∀ op ∈ t.ops, op.pre.Quants true) (hgq : t.goal.Quants true) :
    ∃ N, ∀ (plan : List Name), (∀ call ∈ plan, ∃ op args, P.parseAction call = .ok (op, args) ∧ ∀ s : State,
        NoConflict (t'.CausesIn (· ∈ s) op args) ∧ t'.NotRead op (t'.CausesIn (· ∈ s) op args)) →
      ∀ s s' : State, AgreeAbout (t.constants ++ t.objects) (· ∈ s) (· ∈ s') → ∀ k k', N ≤ k → N ≤ k' →
      (P.validPlanFrom k s plan = .ok true → P'.validPlanFrom k' s' plan = .ok true) ∧
        ((∀ op ∈ t.ops, op.pre.Quants false) → t.goal.Quants false →
          P'.validPlanFrom k' s' plan = P.validPlanFrom k s plan) := by
  have B := Pddl.built hP
  have B' := Pddl.built hP'
  obtain ⟨N, hN⟩ := C107_next_partial hP hP' h up up' ht ht' hw hw' hL rank ha
  have hG := fun (s s' : State) hs => C107_goal hP hP' h hg hw.goal (hg ▸ hw'.goal) hcl hgq (s := s) (s' := s') hs
  refine ⟨N, fun plan => ?_⟩
  induction plan with
  | nil =>
    intro _ s s' hs k k' _ _
    simp only [Pddl.validPlanFrom]
    exact ⟨(hG s s' hs).1, fun _ => (hG s s' hs).2⟩
  | cons call plan ih =>
    intro hc s s' hs k k' hk hk'
    obtain ⟨op, args, hpa, hfr⟩ := hc call (by simp)
    obtain ⟨hm, hwt⟩ := parseAction_ok hpa
    rw [B.tree] at hm
    rw [Pddl.symbols, B.tree] at hwt
    obtain ⟨r, r', e, e', hr⟩ := hN call op args s s' hpa hs (hfr s').1 (hfr s').2 k k' hk hk'
    have ih := ih (fun c hm => hc c (by simp [hm])) r r' hr k k' hk hk'
    obtain ⟨v1, v2⟩ := isValid_more h B B' (hw.pre op hm) (hw'.pre op (h.ops ▸ hm)) (hL.pre op hm) hwt hs
    have hpa' := parseAction_more h B B' hw'.names hpa
    simp only [Pddl.nextState, hpa, hpa', Res.bind_ok] at e e'
    simp only [Pddl.validPlanFrom, hpa, hpa', Res.bind_ok, e, e']
    constructor
    · intro hv
      rw [Res.bind_eq_ok] at hv
      obtain ⟨v, h1, h2⟩ := hv
      cases v with
      | false => simp at h2
      | true =>
        rw [v1 (hq op hm) h1]
        simp only [Res.bind_ok, if_true] at h2 ⊢
        exact ih.1 h2
    · intro hq' hgq'
      rw [v2 (hq op hm) (hq' op hm), ih.2 hq' hgq']

/-- **C107, plans, partial.** A valid plan is still valid when the problem has more objects and the same initial atoms about the
old objects, if the quantifiers of preconditions and of the goal are existential. Without quantifiers, `IsValidPlan` answers the
same.

Missing for the full claim: see `C107_next_partial`; for universal quantifiers `C107_forall_refuted`, for new types
`C107_type_refuted`. -/
theorem C107_plan_partial (hP : Pddl.make t b n = .ok P) (hP' : Pddl.make t' b' n' = .ok P') (h : MoreObjects t t')
    (hg : t'.goal = t.goal) (up up' : Name → List Name) (ht : t.TypeChecked up) (ht' : t'.TypeChecked up') (hw : t.WellFormed)
    (hw' : t'.WellFormed) (hL : t.Local) (hcl : t.goal.Closed (t.constants ++ t.objects)) (rank : Name → Nat)
    (ha : Acyclic rank t.drvs) (hq : ∀ op ∈ t.ops, op.pre.Quants true) (hgq : t.goal.Quants true)
    (hi : AgreeAbout (t.constants ++ t.objects) (· ∈ P.initial) (· ∈ P'.initial)) :
    ∃ N, ∀ (plan : List Name), (∀ call ∈ plan, ∃ op args, P.parseAction call = .ok (op, args) ∧ ∀ s : State,
        NoConflict (t'.CausesIn (· ∈ s) op args) ∧ t'.NotRead op (t'.CausesIn (· ∈ s) op args)) →
      ∀ k k', N ≤ k → N ≤ k' → (P.isValidPlan k plan = .ok true → P'.isValidPlan k' plan = .ok true) ∧
        ((∀ op ∈ t.ops, op.pre.Quants false) → t.goal.Quants false → P'.isValidPlan k' plan = P.isValidPlan k plan) := by
  obtain ⟨N, hN⟩ := validPlanFrom_more hP hP' h hg up up' ht ht' hw hw' hL hcl rank ha hq hgq
  exact ⟨N, fun plan hc => hN plan hc _ _ hi⟩

end

section
open Demo
attribute [local instance] lenHash

/-- `pick` without the condition on what is on the box. -/
def take : Op := { pick with pre := .neg (.atom n!"inhand" [.var x]) }
/-- `(:derived (busy ?x - box) (or (inhand ?x) (on ?x table)))`. -/
def inUse : Drv := ⟨n!"busy", [x], .disj [.atom n!"inhand" [.var x], .atom n!"on" [.var x, .const table]]⟩
/-- Another box. -/
def crate : Obj := ⟨n!"crate", tBox⟩

/-- Two boxes; the goal is that something is on `b`. -/
def fewTree : Ptree := { tree with ops := [take, place, held], drvs := [inUse], goal := .ex [u] (.atom n!"on" [.var u, .const b]) }
/-- Three boxes. -/
def manyTree : Ptree := { fewTree with objects := [a, crate, b], init := [on crate table, on a table, on b table, inhand crate] }

theorem fewMade : (Pddl.make fewTree true 5).isOk = true := by decide +kernel
def fewP : Pddl := get _ fewMade
theorem fewP_made : Pddl.make fewTree true 5 = .ok fewP := get_eq _ _
theorem manyMade : (Pddl.make manyTree true 5).isOk = true := by decide +kernel
def manyP : Pddl := get _ manyMade
theorem manyP_made : Pddl.make manyTree true 5 = .ok manyP := get_eq _ _

theorem few_many : MoreObjects fewTree manyTree where
  objects := by decide
  types := by
    intro p
    simp only [IsType, HasType, fewTree, manyTree, tree, crate, a, b, table]
    simp
  ops := rfl
  drvs := rfl

theorem few_wellFormed : fewTree.WellFormed := by
  refine ⟨by decide, ?_, ?_, ?_, ?_, by decide⟩
  · intro op ho
    simp only [fewTree, List.mem_cons, List.not_mem_nil, or_false] at ho
    rcases ho with rfl | rfl | rfl <;>
      simp [fewTree, tree, take, place, held, Goal.WF, Goal.WFs, Term.Scoped, IsType, HasType, pick, a, b, table, x, y, tBox, tObj]
  · intro op ho
    simp only [fewTree, List.mem_cons, List.not_mem_nil, or_false] at ho
    rcases ho with rfl | rfl | rfl <;>
      simp [fewTree, tree, take, pick, place, held, Eff.WF, FList.WF, CList.WF, WFLits, Term.Scoped, IsType, HasType, a, b, table, x,
        y, z, tBox, tObj]
  · simp [fewTree, tree, Goal.WF, Term.Scoped, IsType, HasType, a, b, table, u, tBox, tObj]
  · intro d hd
    simp only [fewTree, List.mem_singleton] at hd
    subst hd
    exact ⟨by simp [inUse], by
      simp [fewTree, tree, inUse, Goal.WF, Goal.WFs, Term.Scoped, IsType, HasType, a, b, table, x, tBox, tObj]⟩

theorem many_wellFormed : manyTree.WellFormed := by
  refine ⟨by decide, ?_, ?_, ?_, ?_, by decide⟩
  · intro op ho
    simp only [manyTree, fewTree, List.mem_cons, List.not_mem_nil, or_false] at ho
    rcases ho with rfl | rfl | rfl <;>
      simp [manyTree, fewTree, tree, take, place, held, Goal.WF, Goal.WFs, Term.Scoped, IsType, HasType, pick, a, b, crate, table, x,
        y, tBox, tObj]
  · intro op ho
    simp only [manyTree, fewTree, List.mem_cons, List.not_mem_nil, or_false] at ho
    rcases ho with rfl | rfl | rfl <;>
      simp [manyTree, fewTree, tree, take, pick, place, held, Eff.WF, FList.WF, CList.WF, WFLits, Term.Scoped, IsType, HasType, a, b,
        crate, table, x, y, z, tBox, tObj]
  · simp [manyTree, fewTree, tree, Goal.WF, Term.Scoped, IsType, HasType, a, b, crate, table, u, tBox, tObj]
  · intro d hd
    simp only [manyTree, fewTree, List.mem_singleton] at hd
    subst hd
    exact ⟨by simp [inUse], by
      simp [manyTree, fewTree, tree, inUse, Goal.WF, Goal.WFs, Term.Scoped, IsType, HasType, a, b, crate, table, x, tBox, tObj]⟩

theorem few_local : fewTree.Local where
  pre := by
    intro op ho c hc
    simp only [fewTree, List.mem_cons, List.not_mem_nil, or_false] at ho
    rcases ho with rfl | rfl | rfl <;> simp [take, place, held, Goal.HasConst, Goal.HasConstL] at hc
  eff := by
    intro op ho
    simp only [fewTree, List.mem_cons, List.not_mem_nil, or_false] at ho
    rcases ho with rfl | rfl | rfl <;> simp [take, pick, place, held, Eff.Local, FList.Local, CList.Local, LitsLocal, x, y, z]
  universal := by
    intro op ho ax hax hax'
    simp only [fewTree, List.mem_cons, List.not_mem_nil, or_false] at ho hax
    rcases hax with rfl | rfl | rfl
    · simp [take, pick] at hax'
    · simp [place] at hax'
    · rcases ho with rfl | rfl | rfl <;>
        simp [take, pick, place, held, Eff.Universal, CList.Universal, FList.Touches, Eff.Touches, CList.Touches, ListsPred, Op.ctxPred,
          Op.ctxSign]
  rules := by
    intro d hd
    simp only [fewTree, List.mem_singleton] at hd
    subst hd
    refine ⟨by simp [inUse, Goal.Quants, Goal.QuantsL], by simp [inUse, Goal.Quants, Goal.QuantsL], fun c hc => ?_⟩
    simp only [inUse, Goal.HasConst, Goal.HasConstL] at hc
    simp at hc
    subst hc
    decide

theorem few_checked : fewTree.TypeChecked demoUp where
  hier := demo_checked.hier
  names := by decide
  objects o ho := by revert ho o; simp only [Obj.Fits]; decide
  predNames := by decide
  preds := demo_checked.preds
  ops := by
    intro op hop
    simp only [manyTree, fewTree, List.mem_cons, List.not_mem_nil, or_false] at hop
    rcases hop with rfl | rfl | rfl
    · refine ⟨by decide, ?_, ?_, ?_, ?_, by simp [take, pick]⟩
      · simp [take, pick, Obj.Fits, x, demoUp, Obj.typeName, tBox]
      · simp [take, pick, Eff.Formed, FList.Formed, CList.Formed, AtomLits, Goal.WF, Term.Scoped, IsType, HasType, manyTree, fewTree,
          tree, a, b, crate, table, tBox, tObj]
      · simp [take, pick, Eff.Fresh, FList.Fresh, CList.Fresh]
      · simp [take, pick, Eff.Checked, FList.Checked, CList.Checked, LitsChecked, Term.IsA, manyTree, fewTree, tree, HasType, x,
          Obj.typeName, tBox]
    · refine ⟨by decide, ?_, ?_, ?_, ?_, by simp [place]⟩
      · simp [place, Obj.Fits, x, y, demoUp, Obj.typeName, tBox, tObj]
      · simp [place, Eff.Formed, FList.Formed, CList.Formed, AtomLits, Goal.WF, Term.Scoped, IsType, HasType, manyTree, fewTree, tree,
          a, b, crate, table, tBox, tObj]
      · simp [place, Eff.Fresh, FList.Fresh, CList.Fresh]
      · simp [place, Eff.Checked, FList.Checked, CList.Checked, LitsChecked, Term.IsA, manyTree, fewTree, tree, HasType, x, y,
          Obj.typeName, tBox, tObj]
    · refine ⟨by decide, ?_, ?_, ?_, ?_, fun _ => ⟨by simp [held], ?_, ?_, ?_⟩⟩
      · simp [held, Obj.Fits, x, demoUp, Obj.typeName, tBox]
      · simp [held, Eff.Formed, FList.Formed, CList.Formed, AtomLits, Goal.WF, Term.Scoped, IsType, HasType, manyTree, fewTree, tree,
          a, b, crate, table, tBox, tObj]
      · simp [held, Eff.Fresh, FList.Fresh, CList.Fresh, x, z]
      · simp [held, Eff.Checked, FList.Checked, CList.Checked, LitsChecked, Term.IsA, manyTree, fewTree, tree, HasType, x, y, z,
          Obj.typeName, tBox, tObj, Obj.Fits, demoUp]
      · simp [held, Goal.WF, Term.Scoped, IsType, HasType, manyTree, fewTree, tree, a, b, crate, table, tBox, tObj]
      · constructor <;> simp [held, Op.ctx, Term.Scoped, varNames]
      · refine ⟨⟨n!"inhand", [x]⟩, by simp [manyTree, fewTree, tree], rfl, .cons ?_ .nil⟩
        simp [held, HasType, x, Obj.typeName, tBox]
  drvs := by
    intro r hr
    simp only [manyTree, fewTree, List.mem_cons, List.not_mem_nil, or_false] at hr
    subst hr
    refine ⟨?_, ⟨n!"busy", [x]⟩, by simp [manyTree, fewTree, tree], rfl, .cons ?_ .nil⟩
    · simp [inUse, Obj.Fits, x, demoUp, Obj.typeName, tBox]
    · simp [inUse, HasType, x, Obj.typeName, tBox]
  init := by
    have hon : ∀ p ∈ fewTree.objects, Declared (fewTree.constants ++ fewTree.objects) fewTree.preds (on p table) := fun p hp =>
      ⟨⟨n!"on", [Demo.x, y]⟩, by simp [manyTree, fewTree, tree], [p, table],
        .cons ⟨List.mem_append_right _ hp, by revert hp; revert p; unfold HasType; decide⟩
          (.cons ⟨by decide, by unfold HasType; decide⟩ .nil), rfl⟩
    intro x hx
    simp only [manyTree, fewTree, tree, List.mem_cons, List.not_mem_nil, or_false] at hx
    rcases hx with rfl | rfl
    · exact hon a (by decide)
    · exact hon b (by decide)

theorem many_checked : manyTree.TypeChecked demoUp where
  hier := demo_checked.hier
  names := by decide
  objects o ho := by revert ho o; simp only [Obj.Fits]; decide
  predNames := by decide
  preds := demo_checked.preds
  ops := by
    intro op hop
    simp only [manyTree, fewTree, List.mem_cons, List.not_mem_nil, or_false] at hop
    rcases hop with rfl | rfl | rfl
    · refine ⟨by decide, ?_, ?_, ?_, ?_, by simp [take, pick]⟩
      · simp [take, pick, Obj.Fits, x, demoUp, Obj.typeName, tBox]
      · simp [take, pick, Eff.Formed, FList.Formed, CList.Formed, AtomLits, Goal.WF, Term.Scoped, IsType, HasType, manyTree, fewTree,
          tree, a, b, crate, table, tBox, tObj]
      · simp [take, pick, Eff.Fresh, FList.Fresh, CList.Fresh]
      · simp [take, pick, Eff.Checked, FList.Checked, CList.Checked, LitsChecked, Term.IsA, manyTree, fewTree, tree, HasType, x,
          Obj.typeName, tBox]
    · refine ⟨by decide, ?_, ?_, ?_, ?_, by simp [place]⟩
      · simp [place, Obj.Fits, x, y, demoUp, Obj.typeName, tBox, tObj]
      · simp [place, Eff.Formed, FList.Formed, CList.Formed, AtomLits, Goal.WF, Term.Scoped, IsType, HasType, manyTree, fewTree, tree,
          a, b, crate, table, tBox, tObj]
      · simp [place, Eff.Fresh, FList.Fresh, CList.Fresh]
      · simp [place, Eff.Checked, FList.Checked, CList.Checked, LitsChecked, Term.IsA, manyTree, fewTree, tree, HasType, x, y,
          Obj.typeName, tBox, tObj]
    · refine ⟨by decide, ?_, ?_, ?_, ?_, fun _ => ⟨by simp [held], ?_, ?_, ?_⟩⟩
      · simp [held, Obj.Fits, x, demoUp, Obj.typeName, tBox]
      · simp [held, Eff.Formed, FList.Formed, CList.Formed, AtomLits, Goal.WF, Term.Scoped, IsType, HasType, manyTree, fewTree, tree,
          a, b, crate, table, tBox, tObj]
      · simp [held, Eff.Fresh, FList.Fresh, CList.Fresh, x, z]
      · simp [held, Eff.Checked, FList.Checked, CList.Checked, LitsChecked, Term.IsA, manyTree, fewTree, tree, HasType, x, y, z,
          Obj.typeName, tBox, tObj, Obj.Fits, demoUp]
      · simp [held, Goal.WF, Term.Scoped, IsType, HasType, manyTree, fewTree, tree, a, b, crate, table, tBox, tObj]
      · constructor <;> simp [held, Op.ctx, Term.Scoped, varNames]
      · refine ⟨⟨n!"inhand", [x]⟩, by simp [manyTree, fewTree, tree], rfl, .cons ?_ .nil⟩
        simp [held, HasType, x, Obj.typeName, tBox]
  drvs := by
    intro r hr
    simp only [manyTree, fewTree, List.mem_cons, List.not_mem_nil, or_false] at hr
    subst hr
    refine ⟨?_, ⟨n!"busy", [x]⟩, by simp [manyTree, fewTree, tree], rfl, .cons ?_ .nil⟩
    · simp [inUse, Obj.Fits, x, demoUp, Obj.typeName, tBox]
    · simp [inUse, HasType, x, Obj.typeName, tBox]
  init := by
    have hon : ∀ p ∈ manyTree.objects, Declared (manyTree.constants ++ manyTree.objects) manyTree.preds (on p table) := fun p hp =>
      ⟨⟨n!"on", [Demo.x, y]⟩, by simp [manyTree, fewTree, tree], [p, table],
        .cons ⟨List.mem_append_right _ hp, by revert hp; revert p; unfold HasType; decide⟩
          (.cons ⟨by decide, by unfold HasType; decide⟩ .nil), rfl⟩
    intro x hx
    simp only [manyTree, fewTree, tree, List.mem_cons, List.not_mem_nil, or_false] at hx
    rcases hx with rfl | rfl | rfl | rfl
    · exact hon crate (by decide)
    · exact hon a (by decide)
    · exact hon b (by decide)
    · exact ⟨⟨n!"inhand", [Demo.x]⟩, by simp [manyTree, fewTree, tree], [crate],
        .cons ⟨by decide, by unfold HasType; decide⟩ .nil, rfl⟩

/-- What `take(a)` causes with three boxes. -/
theorem many_take {S : Atom → Prop} {so : Bool → Atom → Prop} {sign : Bool} {p : Atom}
    (h : manyTree.Causes S so take [a] sign p) : (sign = true ∧ p = inhand a) ∨ (sign = false ∧ p.pred = n!"on") := by
  induction h with
  | own h =>
    left
    simp only [take, pick, Makes, MakesF, MakesC, Lists, List.mem_cons, List.not_mem_nil, or_false, false_or, Prod.mk.injEq] at h
    simp only [false_and, exists_false, and_false, or_false] at h
    obtain ⟨h, pred, ts, os, ⟨rfl, rfl⟩, hd, rfl⟩ := h
    refine ⟨h, ?_⟩
    obtain _ | ⟨h1, h2⟩ := hd
    cases h2
    have h1 : some a = some _ := h1
    cases h1
    rfl
  | @triggered ax as q sign p h1 h2 _ _ _ h6 _ =>
    simp only [manyTree, fewTree, List.mem_cons, List.not_mem_nil, or_false] at h1
    rcases h1 with rfl | rfl | rfl
    · simp [take, pick] at h2
    · simp [place] at h2
    · right
      simp only [held, Makes, MakesF, MakesC, Lists, List.mem_cons, List.not_mem_nil, or_false, false_or, Prod.mk.injEq] at h6
      simp only [false_and, exists_false, and_false, or_false, false_or] at h6
      obtain ⟨_, _, h, pred, ts, os, ⟨rfl, rfl⟩, -, rfl⟩ := h6
      exact ⟨h, rfl⟩

/-- What `place` causes with three boxes. -/
theorem many_place {S : Atom → Prop} {so : Bool → Atom → Prop} {args : List Obj} {sign : Bool} {p : Atom}
    (h : manyTree.Causes S so place args sign p) : (sign = true ∧ p.pred = n!"on") ∨ (sign = false ∧ p.pred = n!"inhand") := by
  induction h with
  | own h =>
    simp only [place, Makes, MakesF, MakesC, Lists, List.mem_cons, List.not_mem_nil, or_false, false_or, Prod.mk.injEq] at h
    rcases h with ⟨h, pred, ts, os, ⟨rfl, rfl⟩, -, rfl⟩ | ⟨h, pred, ts, os, ⟨rfl, rfl⟩, -, rfl⟩
    · exact .inl ⟨h, rfl⟩
    · exact .inr ⟨h, rfl⟩
  | @triggered ax as q sign p h1 h2 h3 _ h5 _ ih =>
    simp only [manyTree, fewTree, List.mem_cons, List.not_mem_nil, or_false] at h1
    rcases h1 with rfl | rfl | rfl
    · simp [take, pick] at h2
    · simp [place] at h2
    · obtain ⟨-, os, -, rfl⟩ := h5
      rcases ih with ⟨-, h⟩ | ⟨h, -⟩
      · exact absurd (show held.ctxPred = n!"on" from h) (by decide)
      · exact absurd h (by decide)

theorem many_unread {op : Op} (ho : op ∈ manyTree.ops) (W : Bool → Atom → Prop) : manyTree.NotRead op W := by
  have key : ∀ op ∈ manyTree.ops, ∀ p, ¬ op.eff.Reads p := by
    intro op hop p
    simp only [manyTree, fewTree, List.mem_cons, List.not_mem_nil, or_false] at hop
    rcases hop with rfl | rfl | rfl <;> simp [take, pick, place, held, Eff.Reads, FList.Reads, CList.Reads]
  exact fun _ p _ => ⟨key op ho _, fun ax hax _ => key ax hax _⟩

theorem few_goal : fewTree.goal.Closed (fewTree.constants ++ fewTree.objects) := by
  intro c hc
  simp [fewTree, Goal.HasConst] at hc
  subst hc
  decide

theorem few_acyclic : Acyclic (fun _ => 0) fewTree.drvs := by
  intro d hd p m hm hh
  simp only [fewTree, List.mem_singleton] at hd
  subst hd
  obtain ⟨d, hd, rfl⟩ := hh
  simp only [fewTree, List.mem_singleton] at hd
  subst hd
  simp [inUse, Goal.Mentions, Goal.MentionsL] at hm

theorem few_quants : ∀ op ∈ fewTree.ops, op.pre.Quants true := by
  intro op ho
  simp only [fewTree, List.mem_cons, List.not_mem_nil, or_false] at ho
  rcases ho with rfl | rfl | rfl <;> simp [take, place, held, Goal.Quants, Goal.QuantsL]

theorem few_initial : AgreeAbout (fewTree.constants ++ fewTree.objects) (· ∈ fewP.initial) (· ∈ manyP.initial) := by
  have e : fewP.initial = State.ofList [on a table, on b table] := by decide +kernel
  have e' : manyP.initial = State.ofList [on a table, on b table, inhand crate] := by decide +kernel
  intro p hp
  simp only [e, e', State.mem_ofList, List.mem_cons, List.not_mem_nil, or_false]
  have h1 : p ≠ inhand crate := by
    rintro rfl
    obtain ⟨o, ho, h⟩ := hp n!"crate" (by decide)
    revert h ho o
    decide
  simp [h1]

/-- The third box does not disturb: whatever the fuel, the plan is still valid. The initial states agree about `a`, `b` and
`table`; in the second one, the third box is in the hand. -/
example : ∃ N, ∀ k ≥ N, fewP.isValidPlan k [n!"pick(a)", n!"place(a, b)"] = .ok true →
    manyP.isValidPlan k [n!"pick(a)", n!"place(a, b)"] = .ok true := by
  obtain ⟨N, h⟩ := C107_plan_partial fewP_made manyP_made few_many rfl demoUp demoUp few_checked many_checked few_wellFormed
    many_wellFormed few_local
    few_goal (fun _ => 0) few_acyclic few_quants (by simp [fewTree, Goal.Quants]) few_initial
  refine ⟨N, fun k hk => (h _ (fun call hc => ?_) k k hk hk).1⟩
  simp only [List.mem_cons, List.not_mem_nil, or_false] at hc
  rcases hc with rfl | rfl
  · refine ⟨take, [a], ?_, fun s => ⟨fun p h h' => ?_, many_unread (by simp [manyTree, fewTree]) _⟩⟩
    · rfl
    · rcases many_take h with ⟨-, rfl⟩ | ⟨h, -⟩
      · rcases many_take h' with ⟨h, -⟩ | ⟨-, h⟩
        · simp at h
        · exact absurd h (by decide)
      · simp at h
  · refine ⟨place, [a, b], ?_, fun s => ⟨fun p h h' => ?_, many_unread (by simp [manyTree, fewTree]) _⟩⟩
    · rfl
    · rcases many_place h with ⟨-, h⟩ | ⟨h, -⟩
      · rcases many_place h' with ⟨h', -⟩ | ⟨-, h'⟩
        · simp at h'
        · rw [h] at h'
          exact absurd h' (by decide)
      · simp at h

/-- The plan of the example is valid. -/
example : fewP.isValidPlan 5 [n!"pick(a)", n!"place(a, b)"] = .ok true := by decide +kernel

/-! ## Refutations -/

def allTree : Ptree := { fewTree with goal := .all [u] (.atom n!"on" [.var u, .const table]) }
theorem allMade : (Pddl.make allTree true 5).isOk = true := by decide +kernel
def allP : Pddl := get _ allMade
theorem allMade' : (Pddl.make { allTree with objects := [a, b, crate] } true 5).isOk = true := by decide +kernel
def allP' : Pddl := get _ allMade'

/-- **C107, refuted** for universal quantifiers: the goal asks for all boxes. -/
theorem C107_forall_refuted : Pddl.make allTree true 5 = .ok allP ∧
    Pddl.make { allTree with objects := [a, b, crate] } true 5 = .ok allP' ∧
    allP.isValidPlan 5 [] = .ok true ∧ allP'.isValidPlan 5 [] = .ok false :=
  ⟨get_eq _ _, get_eq _ _, by decide +kernel, by decide +kernel⟩

/-- An object whose type has the name of a predicate. -/
def odd : Obj := ⟨n!"odd", [n!"inhand", n!"object"]⟩
def oddTree : Ptree := { fewTree with init := [inhand a], goal := .atom n!"inhand" [.const a] }
theorem oddMade : (Pddl.make oddTree true 5).isOk = true := by decide +kernel
def oddP : Pddl := get _ oddMade
theorem oddMade' : (Pddl.make { oddTree with objects := [a, b, odd] } true 5).isOk = true := by decide +kernel
def oddP' : Pddl := get _ oddMade'

/-- **C107, refuted** for an object of a new type that has the name of a predicate: with the object, `(inhand a)` asks for the type
of `a`. -/
theorem C107_type_refuted : Pddl.make oddTree true 5 = .ok oddP ∧
    Pddl.make { oddTree with objects := [a, b, odd] } true 5 = .ok oddP' ∧
    oddP.isValidPlan 5 [] = .ok true ∧ oddP'.isValidPlan 5 [] = .ok false :=
  ⟨get_eq _ _, get_eq _ _, by decide +kernel, by decide +kernel⟩

end

end Symbolic
