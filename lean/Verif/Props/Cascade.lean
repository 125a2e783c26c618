import Verif.Lemmas.CascadeCompare
import Verif.Props.PartialApply
import Verif.Props.Reorder

/-!
# C89: an action with the axioms it triggers does the closure of its effects
-/

namespace Symbolic

section
variable [StrHash] {t : Ptree} {P : Pddl}

/-- **C89.** In a domain that passes the type checker, applying an action to a State returns, whatever axioms it triggers and
however they trigger each other, if nothing is caused to be true as well as false and conditions of effects are not about what
is caused. The result has an atom exactly if it is caused to be true, or was there and is not caused to be false. The code is 0
exactly if nothing changes. How deep the calls of axioms nest depends on the domain only.

Missing for the full claim: conflicts, see `C89_conflict_refuted`, and conditions that read what is caused, see
`C89_condition_refuted`. -/
theorem C89_state_partial (b : Bool) (n : Nat) (hP : Pddl.make t b n = .ok P) (up : Name → List Name) (ht : t.TypeChecked up)
    (hp : t.PlainEffects) : ∃ N, ∀ op ∈ t.ops, ∀ args, WellTyped (t.constants ++ t.objects) op.params args → ∀ s : State,
      NoConflict (t.CausesIn (· ∈ s) op args) → t.NotRead op (t.CausesIn (· ∈ s) op args) → ∀ fuel, N ≤ fuel →
      ∃ k s', op.apply P.omap P.axioms fuel args s = .ok (k, s') ∧
        (∀ x, x ∈ s' ↔ t.CausesIn (· ∈ s) op args true x ∨ (x ∈ s ∧ ¬ t.CausesIn (· ∈ s) op args false x)) ∧
        (k = 0 ↔ s' = s) :=
  ⟨_, fun _ ho _ hw _ h1 h2 _ hn => (Pddl.built hP).cascade_state ht hp ho hw h1 h2 hn⟩

/-- **C89, PartialStates.** The same for a PartialState that does not contradict itself, if all atoms that conditions of
effects mention are known; only a literal that is not known before triggers. A code above 1 (a known fact was replaced by its
opposite) is returned only if the opposite of something caused was known. -/
theorem C89_partial_state_partial (b : Bool) (n : Nat) (hP : Pddl.make t b n = .ok P) (up : Name → List Name)
    (ht : t.TypeChecked up) (hp : t.PlainEffects) : ∃ N, ∀ op ∈ t.ops, t.AllCondsClosed op → ∀ args,
      WellTyped (t.constants ++ t.objects) op.params args → ∀ K : PartialState, (∀ x ∈ K.pos, x ∉ K.neg) →
      Knows (t.constants ++ t.objects) (· ∈ K.pos) (· ∈ K.neg) (t.MayAsk op) →
      ∀ W, W = t.Causes (· ∈ K.pos) (Known (· ∈ K.pos) (· ∈ K.neg)) op args → NoConflict W → t.NotRead op W → ∀ fuel, N ≤ fuel →
      ∃ k K', op.apply P.omap P.axioms fuel args K = .ok (k, K') ∧ (∀ x ∈ K'.pos, x ∉ K'.neg) ∧
        (∀ x, x ∈ K'.pos ↔ W true x ∨ (x ∈ K.pos ∧ ¬ W false x)) ∧
        (∀ x, x ∈ K'.neg ↔ W false x ∨ (x ∈ K.neg ∧ ¬ W true x)) ∧ (k = 0 ↔ K' = K) ∧
        (1 < k → ∃ sign x, W sign x ∧ Known (· ∈ K.pos) (· ∈ K.neg) (!sign) x) :=
  ⟨_, fun _ ho hcl _ hw _ hcons hk _ hW h1 h2 _ hn => by
    subst hW; exact (Pddl.built hP).cascade_partial ht hp ho hw hcons hk hcl h1 h2 hn⟩

/-- **C86, with axioms.** In a domain that passes the type checker, for a PartialState that does not contradict itself and
knows all atoms that conditions of effects mention: if nothing is caused to be true as well as false and conditions are not
about what is caused, then both calls return, for every State that agrees with the PartialState and in which the axioms hold,
and the results agree. If moreover what the PartialState knows is exactly what all such States have in common, then what the
result knows is exactly what all the results have in common: nothing is lost. -/
theorem C86_cascade_partial (b : Bool) (n : Nat) (hP : Pddl.make t b n = .ok P) (up : Name → List Name) (ht : t.TypeChecked up)
    (hp : t.PlainEffects) : ∃ N, ∀ op ∈ t.ops, t.AllCondsClosed op → ∀ args,
      WellTyped (t.constants ++ t.objects) op.params args → ∀ K : PartialState, (∀ x ∈ K.pos, x ∉ K.neg) →
      Knows (t.constants ++ t.objects) (· ∈ K.pos) (· ∈ K.neg) (t.MayAsk op) →
      ∀ W, W = t.Causes (· ∈ K.pos) (Known (· ∈ K.pos) (· ∈ K.neg)) op args → NoConflict W → t.NotRead op W → ∀ fuel, N ≤ fuel →
      ∀ C : State → Prop, (∀ S, C S ↔ Compatible (· ∈ K.pos) (· ∈ K.neg) (· ∈ S) ∧
        AxiomsHold (t.constants ++ t.objects) t.ops (· ∈ S)) →
      ∃ (i : Nat) (K' : PartialState) (R : State → State), op.apply P.omap P.axioms fuel args K = .ok (i, K') ∧
        (∀ S, C S → ∃ j, op.apply P.omap P.axioms fuel args S = .ok (j, R S) ∧
          Compatible (· ∈ K'.pos) (· ∈ K'.neg) (· ∈ R S) ∧ (i = 0 → j = 0)) ∧
        ((∃ S, C S) → (∀ x, x ∈ K.pos ↔ ∀ S, C S → x ∈ S) → (∀ x, x ∈ K.neg ↔ ∀ S, C S → x ∉ S) →
          (∀ x, x ∈ K'.pos ↔ ∀ S, C S → x ∈ R S) ∧ ∀ x, x ∈ K'.neg ↔ ∀ S, C S → x ∉ R S) := by
  have B := Pddl.built hP
  refine ⟨(declaredLits (t.constants ++ t.objects) t.preds).length, fun op ho hcl args hw K hcons hk W hW h1 h2 fuel hn C hC => ?_⟩
  subst hW
  obtain ⟨i, K', e, hcons', hpos, hneg, hi, -⟩ := B.cascade_partial ht hp ho hw hcons hk hcl h1 h2 hn
  have key : ∀ S : State, ∃ S', C S → ∃ j, op.apply P.omap P.axioms fuel args S = .ok (j, S') ∧
      (∀ x, x ∈ S' ↔ t.CausesIn (· ∈ S) op args true x ∨ (x ∈ S ∧ ¬ t.CausesIn (· ∈ S) op args false x)) ∧ (j = 0 ↔ S' = S) := by
    intro S
    by_cases hS : C S
    · have hsub := (causes_compare B ht hp ho hw hcons hk hcl ((hC S).1 hS).1).1
      obtain ⟨j, S', h⟩ := B.cascade_state ht hp ho hw (s := S) (fun x hx hx' => h1 x (hsub _ _ hx) (hsub _ _ hx'))
        (fun sg x hx => h2 sg x (hsub _ _ hx)) hn
      exact ⟨S', fun _ => ⟨j, h⟩⟩
    · exact ⟨S, fun h => absurd h hS⟩
  choose R hR using key
  have compat : ∀ S, C S → Compatible (· ∈ K'.pos) (· ∈ K'.neg) (· ∈ R S) := by
    intro S hS
    obtain ⟨hc, hA⟩ := (hC S).1 hS
    obtain ⟨hsub, hsup⟩ := causes_compare B ht hp ho hw hcons hk hcl hc
    replace hsup := hsup hA
    obtain ⟨j, -, hmem, -⟩ := hR S hS
    constructor
    · intro x hx
      show x ∈ R S
      rw [hmem]
      rcases (hpos x).1 hx with h | ⟨h, hn⟩
      · rcases hsup true x h with h' | h'
        · exact .inl h'
        · exact .inr ⟨h'.2 rfl, fun h'' => h1 x h (hsub _ _ h'')⟩
      · exact .inr ⟨hc.1 x h, fun h'' => hn (hsub _ _ h'')⟩
    · intro x hx hx'
      have hx' : x ∈ R S := hx'
      rw [hmem] at hx'
      rcases (hneg x).1 hx with h | ⟨h, hn⟩
      · rcases hx' with h' | ⟨h', hn'⟩
        · exact h1 x (hsub _ _ h') h
        · rcases hsup false x h with h'' | h''
          · exact hn' h''
          · simpa using h''.1 h'
      · rcases hx' with h' | ⟨h', -⟩
        · exact hn (hsub _ _ h')
        · exact hc.2 x h h'
  refine ⟨i, K', R, e, fun S hS => ?_, ?_⟩
  · obtain ⟨hc, hA⟩ := (hC S).1 hS
    obtain ⟨hsub, -⟩ := causes_compare B ht hp ho hw hcons hk hcl hc
    obtain ⟨j, e', hmem, hj⟩ := hR S hS
    refine ⟨j, e', compat S hS, fun h => hj.2 ?_⟩
    have hK := hi.1 h
    ext x
    rw [hmem]
    constructor
    · rintro (h' | ⟨h', -⟩)
      · exact hc.1 x (by rw [← hK]; exact (hpos x).2 (.inl (hsub _ _ h')))
      · exact h'
    · intro h'
      refine .inr ⟨h', fun h'' => hc.2 x ?_ h'⟩
      rw [← hK]
      exact (hneg x).2 (.inl (hsub _ _ h''))
  · rintro ⟨S₀, hS₀⟩ hkp hkn
    constructor
    · refine fun x => ⟨fun hx S hS => (compat S hS).1 x hx, fun hall => ?_⟩
      by_contra hx
      rw [hpos, not_or, not_and_or, not_not] at hx
      obtain ⟨hx1, hx2⟩ := hx
      rcases hx2 with hx2 | hx2
      · rw [hkp] at hx2
        push Not at hx2
        obtain ⟨S, hS, hxS⟩ := hx2
        obtain ⟨j, -, hmem, -⟩ := hR S hS
        rcases (hmem x).1 (hall S hS) with h | h
        · exact hx1 ((causes_compare B ht hp ho hw hcons hk hcl ((hC S).1 hS).1).1 _ _ h)
        · exact hxS h.1
      · exact (compat S₀ hS₀).2 x ((hneg x).2 (.inl hx2)) (hall S₀ hS₀)
    · refine fun x => ⟨fun hx S hS => (compat S hS).2 x hx, fun hall => ?_⟩
      by_contra hx
      rw [hneg, not_or, not_and_or, not_not] at hx
      obtain ⟨hx1, hx2⟩ := hx
      rcases hx2 with hx2 | hx2
      · rw [hkn] at hx2
        push Not at hx2
        obtain ⟨S, hS, hxS⟩ := hx2
        obtain ⟨j, -, hmem, -⟩ := hR S hS
        exact hall S hS ((hmem x).2 (.inr ⟨hxS, fun h =>
          hx1 ((causes_compare B ht hp ho hw hcons hk hcl ((hC S).1 hS).1).1 _ _ h)⟩))
      · exact hall S₀ hS₀ ((compat S₀ hS₀).1 x ((hpos x).2 (.inl hx2)))

end

section
variable [StrHash] {t₁ t₂ : Ptree} {P₁ P₂ : Pddl} {b₁ b₂ : Bool} {n₁ n₂ : Nat}

/-- Both applications return, with the same State. -/
theorem cascade_same (hP₁ : Pddl.make t₁ b₁ n₁ = .ok P₁) (hP₂ : Pddl.make t₂ b₂ n₂ = .ok P₂) (h : SameDomain t₁ t₂)
    {up₁ up₂ : Name → List Name} (ht₁ : t₁.TypeChecked up₁) (ht₂ : t₂.TypeChecked up₂) (hp : t₁.PlainEffects) {op : Op}
    (hm : op ∈ t₁.ops) {args : List Obj} (hw : WellTyped (t₁.constants ++ t₁.objects) op.params args) {s : State}
    (hf : NoConflict (t₁.CausesIn (· ∈ s) op args)) (hr : t₁.NotRead op (t₁.CausesIn (· ∈ s) op args)) {k₁ k₂ : Nat}
    (hk₁ : (declaredLits (t₁.constants ++ t₁.objects) t₁.preds).length ≤ k₁)
    (hk₂ : (declaredLits (t₂.constants ++ t₂.objects) t₂.preds).length ≤ k₂) :
    ∃ i₁ i₂ s', op.apply P₁.omap P₁.axioms k₁ args s = .ok (i₁, s') ∧ op.apply P₂.omap P₂.axioms k₂ args s = .ok (i₂, s') := by
  have hp₂ : t₂.PlainEffects := fun op ho => (effWF_objects h.objects _ _).1 (hp op ((h.ops op).2 ho))
  have hiff : ∀ sign x, t₂.CausesIn (· ∈ s) op args sign x ↔ t₁.CausesIn (· ∈ s) op args sign x := fun sign x =>
    ⟨causes_objects (fun o => (h.objects o).symm) (fun o => (h.ops o).symm), causes_objects h.objects h.ops⟩
  obtain ⟨i₁, q₁, f₁, m₁, -⟩ := (Pddl.built hP₁).cascade_state ht₁ hp hm hw hf hr hk₁
  obtain ⟨i₂, q₂, f₂, m₂, -⟩ := (Pddl.built hP₂).cascade_state ht₂ hp₂ ((h.ops op).1 hm) ((wellTyped_congr h.objects).1 hw) (s := s)
    (fun x hx hx' => hf x ((hiff _ _).1 hx) ((hiff _ _).1 hx'))
    (fun sg x hx => ⟨(hr sg x ((hiff _ _).1 hx)).1, fun ax hax => (hr sg x ((hiff _ _).1 hx)).2 ax ((h.ops ax).2 hax)⟩) hk₂
  have hq : q₁ = q₂ := by
    ext x
    rw [m₁, m₂, hiff, hiff]
  subst hq
  exact ⟨i₁, i₂, q₁, f₁, f₂⟩

/-- **C79, next states with axioms, partial.** For a call of an action that may trigger axioms, which may trigger each other,
`NextState` returns the same, whatever the order of objects and axioms, if nothing is caused to be true as well as false and
conditions are not about what is caused. -/
theorem C79_next_axioms_partial (hP₁ : Pddl.make t₁ b₁ n₁ = .ok P₁) (hP₂ : Pddl.make t₂ b₂ n₂ = .ok P₂)
    (h : SameDomain t₁ t₂) (up₁ up₂ : Name → List Name) (ht₁ : t₁.TypeChecked up₁) (ht₂ : t₂.TypeChecked up₂)
    (hp : t₁.PlainEffects) (hwf : ∀ d ∈ t₁.drvs, d.WF (t₁.constants ++ t₁.objects)) (rank : Name → Nat)
    (ha : Acyclic rank t₁.drvs) : ∃ N, ∀ call, OneNamed t₁.ops (parseHead call) → ∀ s : State,
      (∀ op args, P₁.parseAction call = .ok (op, args) →
        NoConflict (t₁.CausesIn (· ∈ s) op args) ∧ t₁.NotRead op (t₁.CausesIn (· ∈ s) op args)) →
      ∀ k₁ k₂, N ≤ k₁ → N ≤ k₂ → ∀ s₁ s₂, P₁.nextState k₁ s call = .ok s₁ → P₂.nextState k₂ s call = .ok s₂ → s₁ = s₂ := by
  have B₁ := Pddl.built hP₁
  have B₂ := Pddl.built hP₂
  refine ⟨max (declaredLits (t₁.constants ++ t₁.objects) t₁.preds).length
    (declaredLits (t₂.constants ++ t₂.objects) t₂.preds).length, fun call h1 s hs k₁ k₂ hk₁ hk₂ s₁ s₂ h₁ h₂ => ?_⟩
  rw [Pddl.nextState, ← parseAction_same h B₁ B₂ ht₁.names call h1] at h₂
  simp only [Pddl.nextState, Pddl.applyOp, Res.bind_eq_ok] at h₁ h₂
  obtain ⟨⟨op, args⟩, e₁, r₁, a₁, d₁⟩ := h₁
  obtain ⟨oa, e₂, r₂, a₂, d₂⟩ := h₂
  rw [e₁, Res.ok.injEq] at e₂
  subst e₂
  obtain ⟨hm, hw⟩ := parseAction_ok e₁
  rw [B₁.tree] at hm
  rw [Pddl.symbols, B₁.tree] at hw
  obtain ⟨hf, hr⟩ := hs op args e₁
  simp only at a₁ a₂
  obtain ⟨i₁, i₂, q, f₁, f₂⟩ := cascade_same hP₁ hP₂ h ht₁ ht₂ hp hm hw hf hr (le_trans (le_max_left _ _) hk₁)
    (le_trans (le_max_right _ _) hk₂)
  rw [f₁, Res.ok.injEq] at a₁
  rw [f₂, Res.ok.injEq] at a₂
  subst a₁ a₂
  exact C79_derived_partial hP₁ hP₂ h hwf rank ha k₁ k₂ q s₁ s₂ (by simpa [Pddl.derivedState, Res.bind_eq_ok] using d₁)
    (by simpa [Pddl.derivedState, Res.bind_eq_ok] using d₂)

theorem validPlanFrom_same_axioms (hP₁ : Pddl.make t₁ b₁ n₁ = .ok P₁) (hP₂ : Pddl.make t₂ b₂ n₂ = .ok P₂)
    (h : SameDomain t₁ t₂) (hg : t₁.goal = t₂.goal) (up₁ up₂ : Name → List Name) (ht₁ : t₁.TypeChecked up₁) (ht₂ : t₂.TypeChecked up₂)
    (hp : t₁.PlainEffects) (hpre : ∀ op ∈ t₁.ops, op.pre.WF (t₁.constants ++ t₁.objects) (op.params.map Obj.name))
    (hgoal : t₁.goal.WF (t₁.constants ++ t₁.objects) [])
    (hwf : ∀ d ∈ t₁.drvs, d.WF (t₁.constants ++ t₁.objects)) (hh₁ : (t₁.drvs.map Drv.head).Nodup)
    (hh₂ : (t₂.drvs.map Drv.head).Nodup) (rank : Name → Nat) (ha : Acyclic rank t₁.drvs) : ∃ N, ∀ plan : List Name,
      (∀ call ∈ plan, OneNamed t₁.ops (parseHead call) ∧ ∀ op args, P₁.parseAction call = .ok (op, args) → ∀ s : State,
        NoConflict (t₁.CausesIn (· ∈ s) op args) ∧ t₁.NotRead op (t₁.CausesIn (· ∈ s) op args)) →
      ∀ s k₁ k₂, N ≤ k₁ → N ≤ k₂ → P₁.validPlanFrom k₁ s plan = P₂.validPlanFrom k₂ s plan := by
  have B₁ := Pddl.built hP₁
  have B₂ := Pddl.built hP₂
  obtain ⟨M, hM⟩ : ∃ M, ∀ d ∈ t₁.drvs, rank d.head < M := by
    generalize t₁.drvs = l
    induction l with
    | nil => exact ⟨0, by simp⟩
    | cons d l ih =>
      obtain ⟨M, hM⟩ := ih
      refine ⟨max M (rank d.head + 1), fun e he => ?_⟩
      rcases List.mem_cons.1 he with rfl | he
      · omega
      · have := hM e he
        omega
  set N₁ := (declaredLits (t₁.constants ++ t₁.objects) t₁.preds).length with hN₁
  set N₂ := (declaredLits (t₂.constants ++ t₂.objects) t₂.preds).length with hN₂
  refine ⟨M + 2 + N₁ + N₂, fun plan hcalls s k₁ k₂ hk₁ hk₂ => ?_⟩
  have hwf₂ : ∀ d ∈ t₂.drvs, d.WF (t₂.constants ++ t₂.objects) := fun d hd =>
    (drvWF_objects h.objects d).1 (hwf d ((h.drvs d).2 hd))
  have derive : ∀ s : State, ∃ s', P₁.derivedState k₁ s = .ok s' ∧ P₂.derivedState k₂ s = .ok s' := by
    intro s
    obtain ⟨s₁, e₁⟩ := C29_acyclic_terminates_partial t₁ b₁ n₁ P₁ hP₁ hwf ht₁.names hh₁ rank ha M hM s k₁ (by omega)
    obtain ⟨s₂, e₂⟩ := C29_acyclic_terminates_partial t₂ b₂ n₂ P₂ hP₂ hwf₂ ht₂.names hh₂ rank ((acyclic_congr h.drvs rank).1 ha) M
      (fun d hd => hM d ((h.drvs d).2 hd)) s k₂ (by omega)
    exact ⟨s₁, e₁, by rw [C79_derived_partial hP₁ hP₂ h hwf rank ha k₁ k₂ s s₁ s₂ e₁ e₂]; exact e₂⟩
  have key : ∀ (plan : List Name) (s : State), (∀ call ∈ plan, OneNamed t₁.ops (parseHead call) ∧
      ∀ op args, P₁.parseAction call = .ok (op, args) → ∀ s : State,
        NoConflict (t₁.CausesIn (· ∈ s) op args) ∧ t₁.NotRead op (t₁.CausesIn (· ∈ s) op args)) →
      P₁.validPlanFrom k₁ s plan = P₂.validPlanFrom k₂ s plan := by
    intro plan
    induction plan with
    | nil => intro s _; exact C79_goal hP₁ hP₂ h hg hgoal s
    | cons call plan ih =>
      intro s hc
      obtain ⟨h1, hr⟩ := hc call (by simp)
      rw [Pddl.validPlanFrom, Pddl.validPlanFrom, ← parseAction_same h B₁ B₂ ht₁.names call h1]
      cases e : P₁.parseAction call with
      | ok oa =>
        obtain ⟨op, args⟩ := oa
        obtain ⟨hm, hw⟩ := parseAction_ok e
        rw [B₁.tree] at hm
        rw [Pddl.symbols, B₁.tree] at hw
        obtain ⟨hf, hnr⟩ := hr op args e s
        obtain ⟨i₁, i₂, q, f₁, f₂⟩ := cascade_same hP₁ hP₂ h ht₁ ht₂ hp hm hw hf hnr (k₁ := k₁) (k₂ := k₂) (by omega) (by omega)
        simp only [Res.bind_ok]
        have hv : op.isValid P₁.omap s args = op.isValid P₂.omap s args := by
          rw [Op.isValid, Op.isValid, B₁.omap, B₂.omap]
          exact eval_objects h.objects s _ _ _ hw.length (hpre op hm)
        obtain ⟨s', d₁, d₂⟩ := derive q
        have a₁ : P₁.applyOp k₁ op args s = .ok s' := by
          unfold Pddl.applyOp
          rw [f₁]
          exact d₁
        have a₂ : P₂.applyOp k₂ op args s = .ok s' := by
          unfold Pddl.applyOp
          rw [f₂]
          exact d₂
        rw [← hv, a₁, a₂]
        cases op.isValid P₁.omap s args with
        | ok v =>
          cases v with
          | false => rfl
          | true =>
            simp only [Res.bind_ok, if_true]
            exact ih s' (fun c hm => hc c (by simp [hm]))
        | exc _ => rfl
        | ub => rfl
        | fuel => rfl
      | exc _ => rfl
      | ub => rfl
      | fuel => rfl
  exact key plan s hcalls

/-- **C79, plans with axioms, partial.** For calls of such actions, `IsValidPlan` answers the same and fails the same, when both
start in the same state and the rules are not recursive and have distinct heads. -/
theorem C79_plan_axioms_partial (hP₁ : Pddl.make t₁ b₁ n₁ = .ok P₁) (hP₂ : Pddl.make t₂ b₂ n₂ = .ok P₂)
    (h : SameDeclarations t₁ t₂) (up₁ up₂ : Name → List Name) (ht₁ : t₁.TypeChecked up₁) (ht₂ : t₂.TypeChecked up₂)
    (hp : t₁.PlainEffects) (hpre : ∀ op ∈ t₁.ops, op.pre.WF (t₁.constants ++ t₁.objects) (op.params.map Obj.name))
    (hgoal : t₁.goal.WF (t₁.constants ++ t₁.objects) [])
    (hwf : ∀ d ∈ t₁.drvs, d.WF (t₁.constants ++ t₁.objects)) (hh₁ : (t₁.drvs.map Drv.head).Nodup)
    (hh₂ : (t₂.drvs.map Drv.head).Nodup) (rank : Name → Nat) (ha : Acyclic rank t₁.drvs) : ∃ N, ∀ plan : List Name,
      (∀ call ∈ plan, OneNamed t₁.ops (parseHead call) ∧ ∀ op args, P₁.parseAction call = .ok (op, args) → ∀ s : State,
        NoConflict (t₁.CausesIn (· ∈ s) op args) ∧ t₁.NotRead op (t₁.CausesIn (· ∈ s) op args)) →
      P₁.initial = P₂.initial → ∀ k₁ k₂, N ≤ k₁ → N ≤ k₂ → P₁.isValidPlan k₁ plan = P₂.isValidPlan k₂ plan := by
  obtain ⟨N, hN⟩ := validPlanFrom_same_axioms hP₁ hP₂ h.toSameDomain h.goal up₁ up₂ ht₁ ht₂ hp hpre hgoal hwf hh₁ hh₂ rank ha
  refine ⟨N, fun plan hcalls hi k₁ k₂ hk₁ hk₂ => ?_⟩
  rw [Pddl.isValidPlan, Pddl.isValidPlan, ← hi]
  exact hN plan hcalls _ k₁ k₂ hk₁ hk₂

end

section
open Demo
attribute [local instance] lenHash

/-! ## Examples -/

theorem demo_plain : tree.PlainEffects := by
  intro op hop
  simp only [tree, List.mem_cons, List.not_mem_nil, or_false] at hop
  rcases hop with rfl | rfl | rfl
  · simp [pick, Eff.WF, FList.WF, CList.WF, WFLits, Term.Scoped, IsType, HasType, tree, a, b, table, tBox, tObj]
  · simp [place, Eff.WF, FList.WF, CList.WF, WFLits, Term.Scoped, IsType, HasType, tree, a, b, table, tBox, tObj]
  · simp [held, Eff.WF, FList.WF, CList.WF, WFLits, Term.Scoped, IsType, HasType, tree, a, b, table, tBox, tObj]

theorem makes_add {objects : List Obj} {S : Atom → Prop} {env : Env} {fs : FList} {adds dels : List (Name × List Term)} {cs : CList}
    {pred : Name} {ts : List Term} {os : List Obj} (hm : (pred, ts) ∈ adds) (hd : List.Forall₂ (Denotes env) ts os) :
    Makes objects S true env (.mk fs adds dels cs) ⟨pred, os.map Obj.name⟩ := by
  simp only [Makes]
  exact .inr (.inl ⟨trivial, pred, ts, os, hm, hd, rfl⟩)

theorem pick_makes (S : Atom → Prop) {os : List Obj} : Makes os S true (Env.none.bind pick.params [a]) pick.eff (inhand a) :=
  makes_add (ts := [.var x]) (os := [a]) (by simp) (.cons rfl .nil)

/-- What `pick(a)` causes in the demo domain. -/
theorem pick_causes {S : Atom → Prop} {so : Bool → Atom → Prop} {sign : Bool} {p : Atom} (h : tree.Causes S so pick [a] sign p) :
    (sign = true ∧ p = inhand a) ∨ (sign = false ∧ p.pred = n!"on") := by
  induction h with
  | own h =>
    left
    simp only [pick, Makes, MakesF, MakesC, Lists, List.mem_cons, List.not_mem_nil, or_false, false_or, Prod.mk.injEq] at h
    simp only [false_and, exists_false, and_false, or_false] at h
    obtain ⟨h, pred, ts, os, ⟨rfl, rfl⟩, hd, rfl⟩ := h
    refine ⟨h, ?_⟩
    obtain _ | ⟨h1, h2⟩ := hd
    cases h2
    have h1 : some a = some _ := h1
    cases h1
    rfl
  | @triggered ax as q sign p h1 h2 _ _ _ h6 _ =>
    simp only [tree, List.mem_cons, List.not_mem_nil, or_false] at h1
    rcases h1 with rfl | rfl | rfl
    · simp [pick] at h2
    · simp [place] at h2
    · right
      simp only [held, Makes, MakesF, MakesC, Lists, List.mem_cons, List.not_mem_nil, or_false, false_or, Prod.mk.injEq] at h6
      simp only [false_and, exists_false, and_false, or_false, false_or] at h6
      obtain ⟨_, _, h, pred, ts, os, ⟨rfl, rfl⟩, -, rfl⟩ := h6
      exact ⟨h, rfl⟩

theorem pick_free (S : Atom → Prop) (so : Bool → Atom → Prop) : NoConflict (tree.Causes S so pick [a]) := by
  intro p h h'
  rcases pick_causes h with ⟨-, rfl⟩ | ⟨h, -⟩
  · rcases pick_causes h' with ⟨h, -⟩ | ⟨-, h⟩
    · simp at h
    · exact absurd h (by decide)
  · simp at h

theorem pick_unread (W : Bool → Atom → Prop) : tree.NotRead pick W := by
  intro sign p _
  refine ⟨by simp [pick, Eff.Reads, FList.Reads, CList.Reads], fun ax hop ha => ?_⟩
  simp only [tree, List.mem_cons, List.not_mem_nil, or_false] at hop
  rcases hop with rfl | rfl | rfl
  · simp [pick] at ha
  · simp [place] at ha
  · simp [held, Eff.Reads, FList.Reads, CList.Reads]

theorem pick_typed : WellTyped (tree.constants ++ tree.objects) pick.params [a] := .cons ⟨by decide, .inr (by decide)⟩ .nil

/-- The axiom is triggered if `a` is not in the hand. -/
theorem pick_triggers {S : Atom → Prop} {so : Bool → Atom → Prop} (h : ¬ so true (inhand a)) {o : Obj}
    (ho : o ∈ tree.constants ++ tree.objects) : tree.Causes S so pick [a] false (on a o) := by
  refine .triggered (ax := held) (as := [a]) (x := inhand a) (by simp [tree]) rfl (.own ?_) h ?_ ?_
  · exact pick_makes _
  · exact ⟨.cons ⟨by decide, .inr (by decide)⟩ .nil, [a], .cons rfl .nil, rfl⟩
  · simp only [held, Makes, MakesF]
    refine .inl (.inl ⟨[o], .cons ⟨ho, ?_⟩ .nil, ?_⟩)
    · revert ho; revert o; simp only [HasType]; decide
    · exact .inr (.inr (.inl ⟨trivial, n!"on", [.var x, .var z], [a, o], by simp, .cons rfl (.cons rfl .nil), rfl⟩))

/-- Whatever the State is: if `a` is not in the hand, `pick(a)` puts it there and removes it from everything, and changes
nothing else. -/
example : ∃ N, ∀ s : State, inhand a ∉ s → ∀ fuel, N ≤ fuel → ∃ k s', pick.apply P.omap P.axioms fuel [a] s = .ok (k, s') ∧
    inhand a ∈ s' ∧ on a table ∉ s' ∧ on a b ∉ s' ∧ (on b a ∈ s → on b a ∈ s' ∨ tree.CausesIn (· ∈ s) pick [a] false (on b a)) ∧
    k ≠ 0 := by
  obtain ⟨N, h⟩ := C89_state_partial true 5 P_made demoUp demo_checked demo_plain
  refine ⟨N, fun s hs fuel hn => ?_⟩
  obtain ⟨k, s', e, hm, hk⟩ := h pick (by simp [tree]) [a] pick_typed s (pick_free _ _) (pick_unread _) fuel hn
  have hin : inhand a ∈ s' := (hm _).2 (.inl (.own (pick_makes _)))
  have hno : ∀ o ∈ tree.constants ++ tree.objects, on a o ∉ s' := by
    intro o ho hx
    have hc := pick_triggers (S := (· ∈ s)) (so := Is (· ∈ s)) (fun h => hs (h.2 rfl)) ho
    rcases (hm _).1 hx with h | ⟨-, h⟩
    · exact pick_free _ _ _ h hc
    · exact h hc
  refine ⟨k, s', e, hin, hno table (by simp [tree]), hno b (by simp [tree]), fun h => ?_, fun h => ?_⟩
  · by_cases hc : tree.CausesIn (· ∈ s) pick [a] false (on b a)
    · exact .inr hc
    · exact .inl ((hm _).2 (.inr ⟨h, hc⟩))
  · rw [hk.1 h] at hin
    exact hs hin

theorem pick_closed : tree.AllCondsClosed pick := by
  intro ax hop ha
  simp only [tree, List.mem_cons, List.not_mem_nil, or_false] at hop
  rcases hop with rfl | rfl | rfl <;> simp [pick, place, held, Eff.CondsClosed, FList.CondsClosed, CList.CondsClosed]

theorem pick_knows (A B : Atom → Prop) : Knows (tree.constants ++ tree.objects) A B (tree.MayAsk pick) := by
  rintro pred os ⟨ax, hop, -, h⟩ -
  simp only [tree, List.mem_cons, List.not_mem_nil, or_false] at hop
  rcases hop with rfl | rfl | rfl <;> simp [pick, place, held, Eff.Asks, FList.Asks, CList.Asks] at h

/-- Nothing is known; both kinds of results exist. -/
example : ∃ N, ∀ fuel, N ≤ fuel → ∃ k K', pick.apply P.omap P.axioms fuel [a] (⟨State.ofList [], State.ofList []⟩ : PartialState) =
    .ok (k, K') ∧ inhand a ∈ K'.pos ∧ on a table ∈ K'.neg ∧ inhand b ∉ K'.pos ∧ inhand b ∉ K'.neg := by
  obtain ⟨N, h⟩ := C89_partial_state_partial true 5 P_made demoUp demo_checked demo_plain
  refine ⟨N, fun fuel hn => ?_⟩
  obtain ⟨k, K', e, -, hp, hn, -⟩ := h pick (by simp [tree]) pick_closed [a] pick_typed ⟨State.ofList [], State.ofList []⟩
    (by simp [State.mem_ofList]) (pick_knows _ _) _ rfl (pick_free _ _) (pick_unread _) fuel hn
  · refine ⟨k, K', e, (hp _).2 (.inl (.own ?_)), (hn _).2 (.inl (pick_triggers ?_ (by simp [tree]))), fun h => ?_, fun h => ?_⟩
    · exact pick_makes _
    · simp [Known, State.mem_ofList]
    · rcases (hp _).1 h with h | h
      · rcases pick_causes h with ⟨-, h⟩ | ⟨h, -⟩
        · exact absurd h (by decide)
        · simp at h
      · simp [State.mem_ofList] at h
    · rcases (hn _).1 h with h | h
      · rcases pick_causes h with ⟨h, -⟩ | ⟨-, h⟩
        · simp at h
        · exact absurd h (by decide)
      · simp [State.mem_ofList] at h

/-- The axiom holds in every State with at most one atom. -/
theorem demo_single {s : State} (h : ∀ p ∈ s, ∀ q ∈ s, p = q) : AxiomsHold (tree.constants ++ tree.objects) tree.ops (· ∈ s) := by
  intro op hop ha os hw hs
  simp only [tree, List.mem_cons, List.not_mem_nil, or_false] at hop
  rcases hop with rfl | rfl | rfl
  · simp [pick] at ha
  · simp [place] at ha
  · simp only [held, Sat] at hs
    simp only [held, Eff.Says, FList.Says, CList.Says, List.not_mem_nil, false_implies, implies_true, and_true, true_and,
      List.mem_singleton, Prod.mk.injEq]
    rintro us - pred ts ⟨rfl, rfl⟩ hon
    rcases hs with ⟨hs, -⟩ | ⟨-, hs, -⟩ | ⟨-, -, vs, -, hs⟩
    · exact absurd hs (by decide)
    · simp [IsType, HasType, tree, a, b, table, tBox, tObj] at hs
    · rcases hon with ⟨hs, -⟩ | ⟨-, hs, -⟩ | ⟨-, -, ws, -, hon⟩
      · exact absurd hs (by decide)
      · exact noType_on hs
      · have := congrArg Atom.pred (h _ hs _ hon)
        simp at this

/-- If nothing is known, the result of `pick(a)` knows exactly what is the case after `pick(a)` in every State in which the axiom
holds. -/
example : ∃ N, ∀ fuel, N ≤ fuel → ∃ k K', pick.apply P.omap P.axioms fuel [a] (⟨State.ofList [], State.ofList []⟩ : PartialState) =
    .ok (k, K') ∧ ∃ R : State → State,
      (∀ S, AxiomsHold (tree.constants ++ tree.objects) tree.ops (· ∈ S) → ∃ j, pick.apply P.omap P.axioms fuel [a] S = .ok (j, R S)) ∧
      ∀ q, q ∈ K'.neg ↔ ∀ S, AxiomsHold (tree.constants ++ tree.objects) tree.ops (· ∈ S) → q ∉ R S := by
  obtain ⟨N, h⟩ := C86_cascade_partial true 5 P_made demoUp demo_checked demo_plain
  refine ⟨N, fun fuel hn => ?_⟩
  have hC : ∀ S : State, AxiomsHold (tree.constants ++ tree.objects) tree.ops (· ∈ S) ↔
      Compatible (· ∈ State.ofList []) (· ∈ State.ofList []) (· ∈ S) ∧
        AxiomsHold (tree.constants ++ tree.objects) tree.ops (· ∈ S) := by
    intro S
    simp [Compatible, State.mem_ofList]
  obtain ⟨k, K', R, e, hR, hx⟩ := h pick (by simp [tree]) pick_closed [a] pick_typed ⟨State.ofList [], State.ofList []⟩
    (by simp [State.mem_ofList]) (pick_knows _ _) _ rfl (pick_free _ _) (pick_unread _) fuel hn _ hC
  refine ⟨k, K', e, R, fun S hS => ?_, (hx ⟨State.empty, ?_⟩ ?_ ?_).2⟩
  · obtain ⟨j, e, -⟩ := hR S hS
    exact ⟨j, e⟩
  · exact demo_single (fun p hp => absurd hp (State.not_mem_empty _))
  · refine fun q => ⟨fun h => by simp [State.mem_ofList] at h, fun h => ?_⟩
    exact absurd (h State.empty (demo_single (fun p hp => absurd hp (State.not_mem_empty _)))) (State.not_mem_empty _)
  · refine fun q => ⟨fun h => by simp [State.mem_ofList] at h, fun h => ?_⟩
    refine absurd (State.mem_ofList.2 (by simp)) (h (State.ofList [q]) (demo_single fun p hp p' hp' => ?_))
    simp only [State.mem_ofList, List.mem_singleton] at hp hp'
    rw [hp, hp']

/-- The demo domain with the axiom before the actions. -/
def axFirst : Ptree := { tree with ops := [held, place, pick] }

theorem axFirstMade : (Pddl.make axFirst true 5).isOk = true := by decide +kernel
def axFirstP : Pddl := get _ axFirstMade

theorem axFirst_ops (op : Op) : op ∈ tree.ops ↔ op ∈ axFirst.ops := by
  simp only [tree, axFirst, List.mem_cons, List.not_mem_nil, or_false]
  tauto

theorem axFirst_checked : axFirst.TypeChecked demoUp :=
  { demo_checked with ops := fun op h => demo_checked.ops op ((axFirst_ops op).2 h) }

/-- `pick(a)` gives the same in every State. -/
example : ∃ N, ∀ (s s₁ s₂ : State) k₁ k₂, N ≤ k₁ → N ≤ k₂ → P.nextState k₁ s n!"pick(a)" = .ok s₁ →
    axFirstP.nextState k₂ s n!"pick(a)" = .ok s₂ → s₁ = s₂ := by
  obtain ⟨N, h⟩ := C79_next_axioms_partial P_made (get_eq _ axFirstMade)
    ⟨fun _ => Iff.rfl, axFirst_ops, fun _ => Iff.rfl⟩ demoUp demoUp demo_checked axFirst_checked demo_plain
    (by
      intro d hd
      simp only [tree, List.mem_singleton] at hd
      subst hd
      exact ⟨by simp [busy], by simp [busy, Goal.WF, Goal.WFs, Term.Scoped, IsType, HasType, tree, a, b, table, tBox, tObj]⟩)
    (fun _ => 0) (by
      intro d hd p n hm hh
      simp only [tree, List.mem_singleton] at hd
      subst hd
      obtain ⟨d', hd', rfl⟩ := hh
      simp only [tree, List.mem_singleton] at hd'
      subst hd'
      simp [busy, Goal.Mentions, Goal.MentionsL] at hm)
  have hh : parseHead n!"pick(a)" = n!"pick" := by decide
  refine ⟨N, fun s s₁ s₂ k₁ k₂ hk₁ hk₂ => h n!"pick(a)" ?_ s ?_ k₁ k₂ hk₁ hk₂ s₁ s₂⟩
  · intro op hm op' hm' e e'
    simp only [tree, List.mem_cons, List.not_mem_nil, or_false] at hm hm'
    rw [hh] at e e'
    rcases hm with rfl | rfl | rfl <;> rcases hm' with rfl | rfl | rfl <;> first | rfl | (simp [place, pick, held] at e e')
  · intro op args e
    have e1 := parseAction_name e
    obtain ⟨hm, -⟩ := parseAction_ok e
    have e2 : (P.parseAction n!"pick(a)" >>= fun oa => pure oa.2) = .ok [a] := by decide +kernel
    rw [e] at e2
    simp only [Res.bind_ok, Res.pure_eq, Res.ok.injEq] at e2
    subst e2
    rw [(Pddl.built P_made).tree] at hm
    simp only [tree, List.mem_cons, List.not_mem_nil, or_false] at hm
    rw [hh] at e1
    rcases hm with rfl | rfl | rfl
    · exact ⟨pick_free _ _, pick_unread _⟩
    · simp [place] at e1
    · simp [held] at e1

/-! ## Refutations -/

/-- Axiom `(inhand ?x) => (busy ?x)`. -/
def loads : Op where
  name := n!"axiom"
  params := [x]
  pre := .atom n!"inhand" [.var x]
  eff := .mk .nil [(n!"busy", [.var x])] [] .nil
  isAxiom := true

/-- Axiom `(inhand ?x) => (not (busy ?x))`. -/
def frees : Op where
  name := n!"axiom"
  params := [x]
  pre := .atom n!"inhand" [.var x]
  eff := .mk .nil [] [(n!"busy", [.var x])] .nil
  isAxiom := true

def loadTree (axs : List Op) : Ptree := { tree with ops := pick :: axs, drvs := [] }

theorem loadMade : (Pddl.make (loadTree [loads, frees]) false 5).isOk = true := by decide +kernel
def loadP : Pddl := get _ loadMade
theorem loadMade' : (Pddl.make (loadTree [frees, loads]) false 5).isOk = true := by decide +kernel
def loadP' : Pddl := get _ loadMade'

/-- **C79, refuted** for actions that trigger axioms that contradict each other: the axiom that is declared last decides. -/
theorem C79_axioms_refuted : SameDeclarations (loadTree [loads, frees]) (loadTree [frees, loads]) ∧
    Pddl.make (loadTree [loads, frees]) false 5 = .ok loadP ∧ Pddl.make (loadTree [frees, loads]) false 5 = .ok loadP' ∧
    loadP.nextState 5 State.empty n!"pick(a)" = .ok (State.ofList [inhand a]) ∧
    loadP'.nextState 5 State.empty n!"pick(a)" = .ok (State.ofList [inhand a, busyA a]) := by
  refine ⟨⟨⟨fun _ => Iff.rfl, fun o => ?_, fun _ => Iff.rfl⟩, fun _ => Iff.rfl, rfl⟩, get_eq _ _, get_eq _ _, by decide +kernel,
    by decide +kernel⟩
  simp only [loadTree, List.mem_cons, List.not_mem_nil, or_false]
  tauto

/-- **C89, refuted** when the axioms contradict each other: `busy(a)` is caused to be true, and is not in the result. -/
theorem C89_conflict_refuted : Pddl.make (loadTree [loads, frees]) false 5 = .ok loadP ∧
    ∃ k s', pick.apply loadP.omap loadP.axioms 5 [a] State.empty = .ok (k, s') ∧
      (loadTree [loads, frees]).CausesIn (· ∈ State.empty) pick [a] true (busyA a) ∧ busyA a ∉ s' := by
  refine ⟨get_eq _ _, 1, State.ofList [inhand a], by decide +kernel, ?_, by decide⟩
  refine .triggered (ax := loads) (as := [a]) (x := inhand a) (by simp [loadTree]) rfl (.own ?_) ?_ ?_ ?_
  · exact pick_makes _
  · exact fun h => absurd (h.2 rfl) (by decide)
  · exact ⟨.cons ⟨by decide, .inr (by decide)⟩ .nil, [a], .cons rfl .nil, rfl⟩
  · exact makes_add (ts := [.var x]) (os := [a]) (by simp) (.cons rfl .nil)

/-- `mark(?x)`: eff `(inhand ?x)`, `(when (inhand ?x) (busy ?x))`. -/
def markOp : Op where
  name := n!"mark"
  params := [x]
  pre := .conj []
  eff := .mk .nil [(n!"inhand", [.var x])] [] (.cons (.atom n!"inhand" [.var x]) (.mk .nil [(n!"busy", [.var x])] [] .nil) .nil)

def markTree : Ptree := { tree with ops := [markOp], drvs := [] }
theorem markMade : (Pddl.make markTree false 5).isOk = true := by decide +kernel
def markP : Pddl := get _ markMade

/-- **C89, refuted** when a condition reads what is caused: `a` is not in the hand before, so `busy(a)` is not an effect; but the
condition is evaluated after `a` was put in the hand. -/
theorem C89_condition_refuted : Pddl.make markTree false 5 = .ok markP ∧
    ∃ k s', markOp.apply markP.omap markP.axioms 5 [a] State.empty = .ok (k, s') ∧
      ¬ markTree.CausesIn (· ∈ State.empty) markOp [a] true (busyA a) ∧ busyA a ∉ State.empty ∧ busyA a ∈ s' := by
  refine ⟨get_eq _ _, 1, State.ofList [inhand a, busyA a], by decide +kernel, fun h => ?_, by decide, by decide⟩
  cases h with
  | own h =>
    simp only [markOp, Makes, MakesF, MakesC, Lists, List.mem_cons, List.not_mem_nil, or_false, false_or, Prod.mk.injEq] at h
    rcases h with ⟨-, pred, ts, os, ⟨rfl, rfl⟩, -, h⟩ | ⟨h, -⟩ | ⟨h, -⟩
    · exact absurd h (by simp [busyA])
    · simp at h
    · simp only [Sat, SatAtom] at h
      rcases h with ⟨h, -⟩ | ⟨-, h, -⟩ | ⟨-, -, os, -, h⟩
      · exact absurd h (by decide)
      · simp [IsType, HasType, markTree, tree, a, b, table, tBox, tObj] at h
      · exact absurd h (State.not_mem_empty _)
  | triggered h1 h2 =>
    simp only [markTree, List.mem_cons, List.not_mem_nil, or_false] at h1
    subst h1
    simp [markOp] at h2

end

end Symbolic
