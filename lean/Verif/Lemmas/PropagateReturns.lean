import Verif.Lemmas.Propagate

/-!
# `ConsistentState(PartialState)` needs two passes
-/

namespace Symbolic

variable [StrHash] {objects : List Obj} {t : Ptree} {P : Pddl} {up : Name → List Name}

/-- The context is true, false or unknown. -/
theorem context_total {op : Op} {pos : Bool} {pred : Name} {cargs as : List Obj}
    (hc : contextOf op.pre = .ok (pos, pred, cargs)) (h1 : op.ctxPred ≠ n!"=") (h2 : ¬ IsType objects op.ctxPred)
    (hw : WellTyped objects op.params as) (K : PartialState) :
    ∃ v, optionalOf (op.isValid (ObjMap.create objects) K as) = .ok v := by
  obtain ⟨e1, -, hpre⟩ := contextOf_ok hc
  rw [e1] at h1 h2
  have hk := (atomKind_create objects pred).2.2.2 ⟨h1, h2⟩
  rw [Op.isValid, hpre]
  generalize hx : Atom.ofObjs pred (op.ctx.map (Term.value op.params as)) = x
  cases pos
  · simp only [Bool.false_eq_true, if_false, Goal.eval, evalNeg, hk,
      applyFn_terms op.params as op.ctx (Nat.le_of_eq hw.length), Res.bind_ok, hx]
    show ∃ v, optionalOf (if K.pos.contains x then Res.ok false else if K.neg.contains x then Res.ok true
      else Res.exc .unknownEvaluation) = Res.ok v
    by_cases h1 : K.pos.contains x <;> by_cases h2 : K.neg.contains x <;> simp [h1, h2, optionalOf]
  · simp only [if_true, Goal.eval, evalAtom, hk, applyFn_terms op.params as op.ctx (Nat.le_of_eq hw.length), Res.bind_ok, hx]
    show ∃ v, optionalOf (if K.pos.contains x then Res.ok true else if K.neg.contains x then Res.ok false
      else Res.exc .unknownEvaluation) = Res.ok v
    by_cases h1 : K.pos.contains x <;> by_cases h2 : K.neg.contains x <;> simp [h1, h2, optionalOf]

def Has (K : PartialState) (sign : Bool) (x : Atom) : Prop := if sign = true then x ∈ K.pos else x ∈ K.neg

theorem Has.grows {K K' : PartialState} (h : GrowsP K K') {sign : Bool} {x : Atom} (hx : Has K sign x) : Has K' sign x := by
  cases sign
  · exact h.2 x hx
  · exact h.1 x hx

theorem has_known {K : PartialState} (hcons : ∀ x ∈ K.pos, x ∉ K.neg) {sign : Bool} {x : Atom} :
    Has K sign x ↔ Known (· ∈ K.pos) (· ∈ K.neg) sign x := by
  cases sign
  · exact ⟨fun h => ⟨h, fun h' => hcons x h' h⟩, fun h => h.1⟩
  · exact ⟨fun h => ⟨h, hcons x h⟩, fun h => h.1⟩

/-- The consequences of all instances with a known context are known, except for those `Todo`. -/
def OpenOnly (t : Ptree) (K : PartialState) (Todo : Op → List Obj → Prop) : Prop :=
  ∀ op ∈ t.ops, op.isAxiom = true → ∀ as x, op.ContextIs (t.constants ++ t.objects) as x → Has K op.ctxSign x →
    (∀ sign y, Makes (t.constants ++ t.objects) (fun _ => False) sign (Env.none.bind op.params as) op.eff y → Has K sign y) ∨
      Todo op as

theorem OpenOnly.mono {K : PartialState} {T T' : Op → List Obj → Prop} (h : OpenOnly t K T) (hT : ∀ o a, T o a → T' o a) :
    OpenOnly t K T' := fun op ho ha as x hx hk => (h op ho ha as x hx hk).imp id (hT op as)

/-- Applying one instance. -/
theorem Between.step (B : P.Built t) (ht : t.TypeChecked up) (hp : t.PlainEffects) (hr : t.RulesOnly) {p K : PartialState}
    (hb : Between t p K) (hc : t.Coherent (· ∈ p.pos) (· ∈ p.neg)) {op : Op} (ho : op ∈ t.ops) (ha : op.isAxiom = true)
    {as : List Obj} (hw : WellTyped (t.constants ++ t.objects) op.params as) (hv : op.isValid P.omap K as = .ok true) {fuel : Nat}
    (hn : (declaredLits (t.constants ++ t.objects) t.preds).length ≤ fuel) {Todo : Op → List Obj → Prop}
    (hS : OpenOnly t K Todo) :
    ∃ k K', op.apply P.omap P.axioms fuel as K = .ok (k, K') ∧ k ≤ 1 ∧ Between t p K' ∧
      OpenOnly t K' (fun o a => Todo o a ∧ ¬ (o = op ∧ a = as)) ∧ ((∀ o a, ¬ Todo o a) → k = 0 ∧ K' = K) := by
  obtain ⟨h1, h2, h3, h4⟩ := hr op ho ha
  obtain ⟨pred, cargs, hctx⟩ := B.contexts op ho ha
  obtain ⟨-, hwf, -, -⟩ := (ht.ops op ho).axiom_ ha
  have hcons := hb.consistent hc
  have hv' := hv
  rw [B.omap, context_known hctx h1 h2 hwf hw hcons] at hv
  obtain ⟨x, hx, hk⟩ := hv
  have hf : t.Follows (· ∈ p.pos) (· ∈ p.neg) op.ctxSign x := by
    cases hs : op.ctxSign
    · rw [hs] at hk; exact hb.neg x (by simpa using hk)
    · rw [hs] at hk; exact hb.pos x (by simpa using hk)
  have hW : ∀ sign y, t.Causes (· ∈ K.pos) (Known (· ∈ K.pos) (· ∈ K.neg)) op as sign y →
      t.Follows (· ∈ p.pos) (· ∈ p.neg) sign y := fun sign y h => causes_follow hr ho ha hx hf h
  have hK : ∀ sign y, Has K sign y → t.Follows (· ∈ p.pos) (· ∈ p.neg) sign y := by
    intro sign y h
    cases sign
    · exact hb.neg y h
    · exact hb.pos y h
  have hno : ∀ ax ∈ t.ops, ax = op ∨ ax.isAxiom = true → ax.eff.NoCond := by
    rintro ax hm (rfl | hax)
    · exact h4
    · exact (hr ax hm hax).2.2.2
  obtain ⟨k, K', e, hcons', e1, e2, hz, h2⟩ := B.cascade_partial ht hp ho hw hcons
    (by rintro q os ⟨ax, hm, hax, hq⟩; exact absurd hq ((hno ax hm hax).asks (objects := []).2 _ _))
    (fun ax hm hax => (hno ax hm hax).asks.1)
    (fun y hy hy' => hc y (hW _ _ hy) (hW _ _ hy'))
    (fun sign y _ => ⟨Eff.NoCond.reads _ h4 _, fun ax hm hax => Eff.NoCond.reads _ (hr ax hm hax).2.2.2 _⟩) hn
  have hb' := hb.apply B ht hp hr hc ho ha hw hv' hn e
  have opp : ∀ sign y, t.Follows (· ∈ p.pos) (· ∈ p.neg) sign y → ¬ t.Follows (· ∈ p.pos) (· ∈ p.neg) (!sign) y := by
    intro sign y h h'
    cases sign
    · exact hc y h' h
    · exact hc y h h'
  have hres : ∀ sign y, Has K' sign y ↔
      t.Causes (· ∈ K.pos) (Known (· ∈ K.pos) (· ∈ K.neg)) op as sign y ∨ Has K sign y := by
    intro sign y
    have : Has K' sign y ↔ t.Causes (· ∈ K.pos) (Known (· ∈ K.pos) (· ∈ K.neg)) op as sign y ∨
        (Has K sign y ∧ ¬ t.Causes (· ∈ K.pos) (Known (· ∈ K.pos) (· ∈ K.neg)) op as (!sign) y) := by
      cases sign
      · exact e2 y
      · exact e1 y
    rw [this]
    exact or_congr_right ⟨fun h => h.1, fun h => ⟨h, fun h' => opp _ _ (hK _ _ h) (hW _ _ h')⟩⟩
  have hgrow : GrowsP K K' := ⟨fun y h => (hres true y).2 (.inr h), fun y h => (hres false y).2 (.inr h)⟩
  refine ⟨k, K', e, ?_, hb', ?_, fun hT => ?_⟩
  · by_contra hk
    obtain ⟨sign, y, a1, a2⟩ := h2 (by omega)
    exact opp _ _ (hW _ _ a1) (hK _ _ ((has_known hcons).2 a2))
  · intro o ho' ha' as' x' hx' hk'
    by_cases hold : Has K o.ctxSign x'
    · rcases hS o ho' ha' as' x' hx' hold with h | h
      · exact .inl fun sign y hy => (h sign y hy).grows hgrow
      · by_cases heq : o = op ∧ as' = as
        · obtain ⟨rfl, rfl⟩ := heq
          exact .inl fun sign y hy => (hres sign y).2 (.inl (.own ((makes_noCond _ _ _ _ _ _ _ h4).1 hy)))
        · exact .inr ⟨h, heq⟩
    · have hcau := ((hres _ _).1 hk').resolve_right hold
      refine .inl fun sign y hy => (hres sign y).2 (.inl (.triggered ho' ha' hcau ?_ hx'
        ((makes_noCond _ _ _ _ _ _ _ (hr o ho' ha').2.2.2).1 hy)))
      rwa [← has_known hcons]
  · have hown : ∀ sign y, t.Causes (· ∈ K.pos) (Known (· ∈ K.pos) (· ∈ K.neg)) op as sign y → Has K sign y := by
      intro sign y h
      induction h with
      | own h =>
        exact ((hS op ho ha as x hx hk).resolve_right (hT _ _)) _ _ ((makes_noCond _ _ _ _ _ _ _ h4).1 h)
      | triggered _ _ _ hnk _ _ ih => exact absurd ((has_known hcons).1 ih) hnk
    have he : K' = K := by
      have a1 : K'.pos = K.pos := State.ext fun y =>
        (hres true y).trans ⟨fun h => h.elim (hown true y) id, .inr⟩
      have a2 : K'.neg = K.neg := State.ext fun y =>
        (hres false y).trans ⟨fun h => h.elim (hown false y) id, .inr⟩
      cases K; cases K'
      simp only at a1 a2
      rw [a1, a2]
    exact ⟨hz.2 he, he⟩

/-- All instances of one axiom. -/
theorem Between.loop_returns (B : P.Built t) (ht : t.TypeChecked up) (hp : t.PlainEffects) (hr : t.RulesOnly) {p : PartialState}
    (hc : t.Coherent (· ∈ p.pos) (· ∈ p.neg)) {fuel : Nat}
    (hn : (declaredLits (t.constants ++ t.objects) t.preds).length ≤ fuel) {ax : Ax} (ho : ax.op ∈ t.ops)
    (ha : ax.op.isAxiom = true) : ∀ (l : List (List Obj)) (K : PartialState) (Todo : Op → List Obj → Prop),
    (∀ as ∈ l, WellTyped (t.constants ++ t.objects) ax.op.params as) → Between t p K → OpenOnly t K Todo →
    ∃ k K', axApplyPLoop P.omap P.axioms fuel ax l K = .ok (k, K') ∧
      (∀ c, consistentPLoop P.omap P.axioms fuel ax l K c = .ok (true, c || decide (k > 0), K')) ∧ k ≤ 1 ∧ Between t p K' ∧
      OpenOnly t K' (fun o a => Todo o a ∧ ¬ (o = ax.op ∧ a ∈ l)) ∧ ((∀ o a, ¬ Todo o a) → k = 0 ∧ K' = K)
  | [], K, Todo, _, hb, hS =>
    ⟨0, K, rfl, fun c => by simp [consistentPLoop], by omega, hb, hS.mono fun _ _ h => ⟨h, by simp⟩, fun _ => ⟨rfl, rfl⟩⟩
  | as :: l, K, Todo, hw, hb, hS => by
    obtain ⟨h1, h2, h3, h4⟩ := hr _ ho ha
    obtain ⟨pred, cargs, hctx⟩ := B.contexts _ ho ha
    obtain ⟨-, hwf, -, -⟩ := (ht.ops _ ho).axiom_ ha
    have hwa := hw as (by simp)
    obtain ⟨v, hv⟩ := context_total hctx h1 h2 hwa K
    rw [← B.omap] at hv
    by_cases e : v = some true
    · have hvt := optionalOf_true hv e
      subst e
      obtain ⟨k₁, K₁, e1, a1, a2, a3, a4⟩ := hb.step B ht hp hr hc ho ha hwa hvt hn hS
      obtain ⟨k₂, K₂, e2, b0, b1, b2, b3, b4⟩ := Between.loop_returns B ht hp hr hc hn ho ha l K₁ _
        (fun a h => hw a (by simp [h])) a2 a3
      refine ⟨max k₁ k₂, K₂, by simp [axApplyPLoop, hv, e1, e2], fun c => ?_, by omega, b2, b3.mono ?_, fun hT => ?_⟩
      · simp only [consistentPLoop, hv, e1, Res.bind_ok, catchExc]
        rw [if_neg (by omega), b0]
        have : decide (max k₁ k₂ > 0) = (decide (k₁ > 0) || decide (k₂ > 0)) := by
          rw [Bool.eq_iff_iff]
          simp only [Bool.or_eq_true, decide_eq_true_eq]
          omega
        rw [this, Bool.or_assoc]
      · rintro o a ⟨⟨h5, h6⟩, h7⟩
        refine ⟨h5, ?_⟩
        rintro ⟨rfl, h⟩
        rcases List.mem_cons.1 h with rfl | h
        · exact h6 ⟨rfl, rfl⟩
        · exact h7 ⟨rfl, h⟩
      · obtain ⟨rfl, rfl⟩ := a4 hT
        obtain ⟨rfl, rfl⟩ := b4 fun o a h => hT o a h.1
        exact ⟨rfl, rfl⟩
    · have hnc : ∀ x, ax.op.ContextIs (t.constants ++ t.objects) as x → ¬ Has K ax.op.ctxSign x := by
        intro x hx hk
        have := (context_known hctx h1 h2 hwf hwa (hb.consistent hc)).2 ⟨x, hx, hk⟩
        rw [← B.omap] at this
        rw [this] at hv
        simp only [optionalOf, Res.ok.injEq] at hv
        exact e hv.symm
      obtain ⟨k₂, K₂, e2, b0, b1, b2, b3, b4⟩ := Between.loop_returns B ht hp hr hc hn ho ha l K
        (fun o a => Todo o a ∧ ¬ (o = ax.op ∧ a = as))
        (fun a h => hw a (by simp [h])) hb (by
          intro o ho' ha' as' x' hx' hk'
          rcases hS o ho' ha' as' x' hx' hk' with h | h
          · exact .inl h
          · refine .inr ⟨h, ?_⟩
            rintro ⟨rfl, rfl⟩
            exact hnc x' hx' hk')
      refine ⟨k₂, K₂, by simp [axApplyPLoop, hv, e, e2], fun c => ?_, b1, b2, b3.mono ?_, fun hT => b4 fun o a h => hT o a h.1⟩
      · simp only [consistentPLoop, hv, Res.bind_ok]
        rcases v with _ | _ | _
        · exact b0 c
        · exact b0 c
        · exact absurd rfl e
      · rintro o a ⟨⟨h5, h6⟩, h7⟩
        refine ⟨h5, ?_⟩
        rintro ⟨rfl, h⟩
        rcases List.mem_cons.1 h with rfl | h
        · exact h6 ⟨rfl, rfl⟩
        · exact h7 ⟨rfl, h⟩

/-- All axioms. -/
theorem Between.pass_returns (B : P.Built t) (ht : t.TypeChecked up) (hp : t.PlainEffects) (hr : t.RulesOnly) {p : PartialState}
    (hc : t.Coherent (· ∈ p.pos) (· ∈ p.neg)) {fuel : Nat}
    (hn : (declaredLits (t.constants ++ t.objects) t.preds).length ≤ fuel) :
    ∀ (l : List Ax) (K : PartialState) (Todo : Op → List Obj → Prop), (∀ ax ∈ l, ax ∈ P.axioms) → Between t p K →
    OpenOnly t K Todo →
    ∃ b K', Pddl.consistentPassP P.omap P.axioms fuel l K = .ok (b, K') ∧
      (∀ c, consistentPPass P.omap P.axioms fuel l K c = .ok (true, c || b, K')) ∧ Between t p K' ∧
      OpenOnly t K' (fun o a => Todo o a ∧ ¬ ∃ ax ∈ l, o = ax.op ∧ a ∈ ax.arguments) ∧
      ((∀ o a, ¬ Todo o a) → b = false ∧ K' = K)
  | [], K, Todo, _, hb, hS =>
    ⟨false, K, rfl, fun c => by simp [consistentPPass], hb, hS.mono fun _ _ h => ⟨h, by simp⟩, fun _ => ⟨rfl, rfl⟩⟩
  | ax :: l, K, Todo, hl, hb, hS => by
    obtain ⟨ho, ha, -⟩ := B.ax (hl ax (by simp))
    obtain ⟨hne, hwf, -, -⟩ := (ht.ops _ ho).axiom_ ha
    obtain ⟨k₁, K₁, e1, a0, a1, a2, a3, a4⟩ := Between.loop_returns B ht hp hr hc hn ho ha ax.arguments K Todo
      (B.arguments ht.names (hl ax (by simp)) hne hwf (hr _ ho ha).2.2.1).1 hb hS
    obtain ⟨b, K₂, e2, b0, b2, b3, b4⟩ := Between.pass_returns B ht hp hr hc hn l K₁ _ (fun a h => hl a (by simp [h])) a2 a3
    refine ⟨decide (k₁ > 0) || b, K₂, ?_, fun c => ?_, b2, b3.mono ?_, fun hT => ?_⟩
    · simp only [Pddl.consistentPassP, Ax.applyP, e1, Res.bind_ok]
      rw [if_neg (by omega)]
      simp [e2]
    · simp only [consistentPPass, a0, Res.bind_ok, if_true]
      rw [b0, Bool.or_assoc]
    · rintro o a ⟨⟨h5, h6⟩, h7⟩
      refine ⟨h5, ?_⟩
      rintro ⟨ax', hm, h⟩
      rcases List.mem_cons.1 hm with rfl | hm
      · exact h6 h
      · exact h7 ⟨ax', hm, h⟩
    · obtain ⟨rfl, rfl⟩ := a4 hT
      obtain ⟨rfl, rfl⟩ := b4 fun o a h => hT o a h.1
      exact ⟨rfl, rfl⟩

/-- The first pass reaches every instance with a known context; the second changes nothing. -/
theorem Between.two_passes (B : P.Built t) (ht : t.TypeChecked up) (hp : t.PlainEffects) (hr : t.RulesOnly) {p : PartialState}
    (hc : t.Coherent (· ∈ p.pos) (· ∈ p.neg)) {fuel : Nat}
    (hn : (declaredLits (t.constants ++ t.objects) t.preds).length ≤ fuel) :
    (∃ p', P.consistentStateP fuel p = .ok p') ∧ (2 ≤ fuel → P.isValidStateP fuel p = .ok true) := by
  obtain ⟨b, K, e1, a0, a1, a2, -⟩ := Between.pass_returns B ht hp hr hc hn P.axioms p (fun _ _ => True) (fun _ h => h) (.refl t p)
    (fun _ _ _ _ _ _ _ => .inr trivial)
  have hfull : OpenOnly t K (fun _ _ => False) := by
    intro op ho ha as x hx hk
    refine (a2 op ho ha as x hx hk).imp id ?_
    rintro ⟨-, h⟩
    obtain ⟨ax, hm, rfl⟩ := B.axiom_mem ho ha
    obtain ⟨h1, h2, h3, -⟩ := hr _ ho ha
    obtain ⟨pred, cargs, hctx⟩ := B.contexts _ ho ha
    obtain ⟨hne, hwf, -, -⟩ := (ht.ops _ ho).axiom_ ha
    by_contra _
    have hpred : x.pred = ax.op.ctxPred := by obtain ⟨-, os, -, rfl⟩ := hx; rfl
    exact (B.arguments ht.names hm hne hwf h3).2 as hx.1 (fun hh => h ⟨ax, hm, rfl, hh⟩) (fun _ => ax.op.ctxSign = true)
      (context_sat hctx (by rw [hpred]; exact ⟨h1, h2⟩) hx Iff.rfl)
  obtain ⟨b', K', e2, b0, -, -, b4⟩ := Between.pass_returns B ht hp hr hc hn P.axioms K _ (fun _ h => h) a1 hfull
  obtain ⟨rfl, rfl⟩ := b4 fun _ _ h => h
  constructor
  · rw [Pddl.consistentStateP, Pddl.consistentFixP, e1]
    simp only [Res.bind_ok]
    rw [dif_neg (by simp [Pddl.kMaxIterations])]
    cases b
    · exact ⟨_, rfl⟩
    · simp only [if_true]
      rw [Pddl.consistentFixP, e2]
      simp only [Res.bind_ok]
      rw [dif_neg (by simp [Pddl.kMaxIterations])]
      exact ⟨_, rfl⟩
  · intro hf
    obtain ⟨k, rfl⟩ : ∃ k, fuel = k + 2 := ⟨fuel - 2, by omega⟩
    rw [Pddl.isValidStateP]
    simp only [consistentPFix, a0, Res.bind_ok, if_true, Bool.false_or]
    cases b
    · rfl
    · simp [b0]

end Symbolic
