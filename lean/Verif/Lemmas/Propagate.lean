import Verif.Lemmas.CascadeCompare
import Verif.Lemmas.Achieve
import Verif.Spec.Propagate

/-!
# `ConsistentState(PartialState)` adds what follows
-/

namespace Symbolic

mutual
theorem Eff.NoCond.reads : ∀ (e : Eff), e.NoCond → ∀ p, ¬ e.Reads p
  | .mk fs adds dels cs, h, p => by
    simp only [Eff.NoCond] at h
    obtain ⟨h1, rfl⟩ := h
    simp [Eff.Reads, CList.Reads, FList.NoCond.reads fs h1 p]
theorem FList.NoCond.reads : ∀ (e : FList), e.NoCond → ∀ p, ¬ e.Reads p
  | .nil, _, p => by simp [FList.Reads]
  | .cons vars e rest, h, p => by
    simp only [FList.NoCond] at h
    simp [FList.Reads, Eff.NoCond.reads e h.1 p, FList.NoCond.reads rest h.2 p]
end

variable [StrHash] {objects : List Obj} {t : Ptree} {P : Pddl} {up : Name → List Name}

/-- The context evaluates to true iff its literal is known. -/
theorem context_known {op : Op} {pos : Bool} {pred : Name} {cargs as : List Obj}
    (hc : contextOf op.pre = .ok (pos, pred, cargs)) (h1 : op.ctxPred ≠ n!"=") (h2 : ¬ IsType objects op.ctxPred)
    (hwf : op.pre.WF objects (op.params.map Obj.name)) (hw : WellTyped objects op.params as) {K : PartialState}
    (hcons : ∀ x ∈ K.pos, x ∉ K.neg) :
    op.isValid (ObjMap.create objects) K as = .ok true ↔
      ∃ x, op.ContextIs objects as x ∧ (if pos then x ∈ K.pos else x ∈ K.neg) := by
  obtain ⟨e1, -, hpre⟩ := contextOf_ok hc
  rw [e1] at h1 h2
  have hk := (atomKind_create objects pred).2.2.2 ⟨h1, h2⟩
  have hsc : ∀ t ∈ op.ctx, t.Scoped (op.params.map Obj.name) := by
    rw [hpre] at hwf
    cases pos
    · simp only [Bool.false_eq_true, if_false, Goal.WF] at hwf
      exact hwf.1
    · simp only [if_true, Goal.WF] at hwf
      exact hwf.1
  have hctx : (∃ x, op.ContextIs objects as x ∧ (if pos then x ∈ K.pos else x ∈ K.neg)) ↔
      (if pos then (Atom.ofObjs pred (op.ctx.map (Term.value op.params as))) ∈ K.pos
        else (Atom.ofObjs pred (op.ctx.map (Term.value op.params as))) ∈ K.neg) := by
    constructor
    · rintro ⟨x, ⟨-, os, hd, rfl⟩, h⟩
      rw [forall₂_denotes hw.length hsc] at hd
      subst hd
      rw [e1] at h
      exact h
    · intro h
      exact ⟨_, ⟨hw, _, (forall₂_denotes hw.length hsc _).2 rfl, rfl⟩, by rw [e1]; exact h⟩
  rw [hctx, Op.isValid, hpre]
  generalize hx : Atom.ofObjs pred (op.ctx.map (Term.value op.params as)) = x
  have hb := hcons x
  cases pos
  · simp only [Bool.false_eq_true, if_false, Goal.eval, evalNeg, hk,
      applyFn_terms op.params as op.ctx (Nat.le_of_eq hw.length), Res.bind_ok, hx]
    show (if K.pos.contains x then Res.ok false else if K.neg.contains x then Res.ok true
      else Res.exc .unknownEvaluation) = Res.ok true ↔ _
    rw [State.contains_eq, State.contains_eq]
    by_cases h1 : x ∈ K.pos
    · simp [h1, hb h1]
    · by_cases h2 : x ∈ K.neg <;> simp [h1, h2]
  · simp only [if_true, Goal.eval, evalAtom, hk, applyFn_terms op.params as op.ctx (Nat.le_of_eq hw.length), Res.bind_ok, hx]
    show (if K.pos.contains x then Res.ok true else if K.neg.contains x then Res.ok false
      else Res.exc .unknownEvaluation) = Res.ok true ↔ _
    rw [State.contains_eq, State.contains_eq]
    by_cases h1 : x ∈ K.pos
    · simp [h1]
    · by_cases h2 : x ∈ K.neg <;> simp [h1, h2]

/-- Everything in `K` follows from `p`, and `p` is contained in `K`. -/
structure Between (t : Ptree) (p K : PartialState) : Prop where
  grows : GrowsP p K
  pos : ∀ x ∈ K.pos, t.Follows (· ∈ p.pos) (· ∈ p.neg) true x
  neg : ∀ x ∈ K.neg, t.Follows (· ∈ p.pos) (· ∈ p.neg) false x

theorem Between.refl (t : Ptree) (p : PartialState) : Between t p p :=
  ⟨GrowsP.refl p, fun _ h => .isTrue h, fun _ h => .isFalse h⟩

/-- What an axiom whose context follows causes, follows. -/
theorem causes_follow (hr : t.RulesOnly) {K p : PartialState} {op : Op} (ho : op ∈ t.ops) (ha : op.isAxiom = true)
    {as : List Obj} {x : Atom} (hx : op.ContextIs (t.constants ++ t.objects) as x)
    (hf : t.Follows (· ∈ p.pos) (· ∈ p.neg) op.ctxSign x) {so : Bool → Atom → Prop} {sign : Bool} {y : Atom}
    (h : t.Causes (· ∈ K.pos) so op as sign y) : t.Follows (· ∈ p.pos) (· ∈ p.neg) sign y := by
  induction h with
  | own h => exact .rule ho ha hf hx ((makes_noCond _ _ _ _ _ _ _ (hr op ho ha).2.2.2).1 h)
  | triggered h1 h2 _ _ h5 h6 ih => exact .rule h1 h2 ih h5 ((makes_noCond _ _ _ _ _ _ _ (hr _ h1 h2).2.2.2).1 h6)

theorem Between.consistent {p K : PartialState} (h : Between t p K) (hc : t.Coherent (· ∈ p.pos) (· ∈ p.neg)) : ∀ x ∈ K.pos, x ∉ K.neg :=
  fun x h1 h2 => hc x (h.pos x h1) (h.neg x h2)

theorem Between.apply (B : P.Built t) (ht : t.TypeChecked up) (hp : t.PlainEffects) (hr : t.RulesOnly) {p K : PartialState}
    (hb : Between t p K) (hc : t.Coherent (· ∈ p.pos) (· ∈ p.neg)) {op : Op} (ho : op ∈ t.ops) (ha : op.isAxiom = true) {as : List Obj}
    (hw : WellTyped (t.constants ++ t.objects) op.params as) (hv : op.isValid P.omap K as = .ok true) {fuel : Nat}
    (hn : (declaredLits (t.constants ++ t.objects) t.preds).length ≤ fuel) {r : Nat × PartialState}
    (h : op.apply P.omap P.axioms fuel as K = .ok r) : Between t p r.2 := by
  obtain ⟨h1, h2, h3, h4⟩ := hr op ho ha
  obtain ⟨pred, cargs, hctx⟩ := B.contexts op ho ha
  obtain ⟨-, hwf, -, -⟩ := (ht.ops op ho).axiom_ ha
  have hcons := hb.consistent hc
  rw [B.omap, context_known hctx h1 h2 hwf hw hcons] at hv
  obtain ⟨x, hx, hk⟩ := hv
  have hf : t.Follows (· ∈ p.pos) (· ∈ p.neg) op.ctxSign x := by
    cases hs : op.ctxSign
    · rw [hs] at hk; exact hb.neg x (by simpa using hk)
    · rw [hs] at hk; exact hb.pos x (by simpa using hk)
  have hW : ∀ sign y, t.Causes (· ∈ K.pos) (Known (· ∈ K.pos) (· ∈ K.neg)) op as sign y →
      t.Follows (· ∈ p.pos) (· ∈ p.neg) sign y := fun sign y h => causes_follow hr ho ha hx hf h
  have hno : ∀ ax ∈ t.ops, ax = op ∨ ax.isAxiom = true → ax.eff.NoCond := by
    rintro ax hm (rfl | hax)
    · exact h4
    · exact (hr ax hm hax).2.2.2
  obtain ⟨k, K', e, -, e1, e2, -⟩ := B.cascade_partial ht hp ho hw hcons
    (by rintro q os ⟨ax, hm, hax, hq⟩; exact absurd hq ((hno ax hm hax).asks (objects := []).2 _ _))
    (fun ax hm hax => (hno ax hm hax).asks.1)
    (fun y hy hy' => hc y (hW _ _ hy) (hW _ _ hy'))
    (fun sign y _ => ⟨Eff.NoCond.reads _ h4 _, fun ax hm hax => Eff.NoCond.reads _ (hr ax hm hax).2.2.2 _⟩) hn
  rw [e, Res.ok.injEq] at h
  subst h
  refine ⟨⟨fun y hy => ?_, fun y hy => ?_⟩, fun y hy => ?_, fun y hy => ?_⟩
  · exact (e1 y).2 (.inr ⟨hb.grows.1 y hy, fun h => hc y (.isTrue hy) (hW _ _ h)⟩)
  · exact (e2 y).2 (.inr ⟨hb.grows.2 y hy, fun h => hc y (hW _ _ h) (.isFalse hy)⟩)
  · rcases (e1 y).1 hy with h | h
    · exact hW _ _ h
    · exact hb.pos y h.1
  · rcases (e2 y).1 hy with h | h
    · exact hW _ _ h
    · exact hb.neg y h.1

omit [StrHash] in
theorem optionalOf_true {r : Res Bool} {v : Option Bool} (h : optionalOf r = .ok v) (hv : v = some true) : r = .ok true := by
  subst hv
  unfold optionalOf at h
  split at h <;> simp_all

theorem Between.loop (B : P.Built t) (ht : t.TypeChecked up) (hp : t.PlainEffects) (hr : t.RulesOnly) {p : PartialState}
    (hc : t.Coherent (· ∈ p.pos) (· ∈ p.neg)) {fuel : Nat} (hn : (declaredLits (t.constants ++ t.objects) t.preds).length ≤ fuel) {ax : Ax}
    (ho : ax.op ∈ t.ops) (ha : ax.op.isAxiom = true) : ∀ {l : List (List Obj)} {K : PartialState} {r : Nat × PartialState},
    (∀ as ∈ l, WellTyped (t.constants ++ t.objects) ax.op.params as) → Between t p K →
    axApplyPLoop P.omap P.axioms fuel ax l K = .ok r → Between t p r.2
  | [], K, r, _, hb, h => by
    simp only [axApplyPLoop, Res.ok.injEq] at h
    subst h; exact hb
  | as :: l, K, r, hw, hb, h => by
    simp only [axApplyPLoop, Res.bind_eq_ok, Res.pure_eq, Res.ok.injEq] at h
    obtain ⟨v, hv, r1, h1, r2, h2, rfl⟩ := h
    refine Between.loop B ht hp hr hc hn ho ha (l := l) (r := r2) (fun a h => hw a (by simp [h])) ?_ h2
    split at h1
    · rename_i e
      exact hb.apply B ht hp hr hc ho ha (hw as (by simp)) (optionalOf_true hv e) hn h1
    · simp only [Res.ok.injEq] at h1
      subst h1; exact hb

theorem Between.pass (B : P.Built t) (ht : t.TypeChecked up) (hp : t.PlainEffects) (hr : t.RulesOnly) {p : PartialState}
    (hc : t.Coherent (· ∈ p.pos) (· ∈ p.neg)) {fuel : Nat} (hn : (declaredLits (t.constants ++ t.objects) t.preds).length ≤ fuel) :
    ∀ {l : List Ax} {K : PartialState} {r : Bool × PartialState}, (∀ ax ∈ l, ax ∈ P.axioms) → Between t p K →
    Pddl.consistentPassP P.omap P.axioms fuel l K = .ok r → Between t p r.2
  | [], K, r, _, hb, h => by
    simp only [Pddl.consistentPassP, Res.ok.injEq] at h
    subst h; exact hb
  | ax :: l, K, r, hl, hb, h => by
    simp only [Pddl.consistentPassP, Res.bind_eq_ok, Res.pure_eq] at h
    obtain ⟨r1, h1, h2⟩ := h
    obtain ⟨ho, ha, -⟩ := B.ax (hl ax (by simp))
    obtain ⟨hne, hwf, -, -⟩ := (ht.ops _ ho).axiom_ ha
    have hb1 := Between.loop B ht hp hr hc hn ho ha
      (B.arguments ht.names (hl ax (by simp)) hne hwf (hr _ ho ha).2.2.1).1 hb h1
    split at h2
    · simp at h2
    · simp only [Res.bind_eq_ok, Res.ok.injEq] at h2
      obtain ⟨r2, h2, rfl⟩ := h2
      exact Between.pass B ht hp hr hc hn (r := r2) (fun a h => hl a (by simp [h])) hb1 h2

theorem Between.fix (B : P.Built t) (ht : t.TypeChecked up) (hp : t.PlainEffects) (hr : t.RulesOnly) {p : PartialState}
    (hc : t.Coherent (· ∈ p.pos) (· ∈ p.neg)) {fuel : Nat} (hn : (declaredLits (t.constants ++ t.objects) t.preds).length ≤ fuel) (i : Nat)
    (K q : PartialState) (hb : Between t p K) (h : Pddl.consistentFixP P.omap P.axioms fuel i K = .ok q) :
    Between t p q := by
  rw [Pddl.consistentFixP, Res.bind_eq_ok] at h
  obtain ⟨⟨b, r⟩, h1, h⟩ := h
  have hb1 := Between.pass B ht hp hr hc hn (fun _ h => h) hb h1
  split at h
  · simp at h
  · split at h
    · exact Between.fix B ht hp hr hc hn (i + 1) r q hb1 h
    · simp only [Res.pure_eq, Res.ok.injEq] at h
      subst h; exact hb1
termination_by Pddl.kMaxIterations + 1 - i
decreasing_by
  rename_i hi _
  simp only [Pddl.kMaxIterations, gt_iff_lt, Nat.not_lt] at hi ⊢
  omega

end Symbolic
