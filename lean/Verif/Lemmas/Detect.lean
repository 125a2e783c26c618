import Verif.Lemmas.PropagateReturns
import Verif.Lemmas.ValidPartial
import Verif.Model.AxiomOne
import Verif.Spec.Detect

/-!
# Axioms that do not trigger axioms are applied once
-/

namespace Symbolic

variable [StrHash] {A : Bool → Name → Prop}

/-- `K'` knows what `K` knows and otherwise only literals allowed by `A`, and no contradiction. -/
structure Ext (A : Bool → Name → Prop) (K K' : PartialState) : Prop where
  grows : GrowsP K K'
  within : ∀ sign x, Has K' sign x → Has K sign x ∨ A sign x.pred
  cons : ∀ x ∈ K'.pos, x ∉ K'.neg

theorem Ext.refl {K : PartialState} (h : ∀ x ∈ K.pos, x ∉ K.neg) : Ext A K K := ⟨GrowsP.refl K, fun _ _ h => .inl h, h⟩

theorem Ext.trans {K L M : PartialState} (h : Ext A K L) (h' : Ext A L M) : Ext A K M :=
  ⟨h.grows.trans h'.grows, fun sign x hx => (h'.within sign x hx).elim (h.within sign x) .inr, h'.cons⟩

/-- If no contradiction is reported, facts are added, and doing it again on a state that knows more does nothing. -/
def Once (A : Bool → Name → Prop) (f : PartialState → Res (Nat × PartialState)) : Prop :=
  ∀ K r, (∀ x ∈ K.pos, x ∉ K.neg) → f K = .ok r → r.1 ≤ 1 → Ext A K r.2 ∧ ∀ K', Ext A r.2 K' → f K' = .ok (0, K')

theorem Once.idle : Once A (fun K => .ok (0, K)) := by
  rintro K r hK h -
  simp only [Res.ok.injEq] at h
  subst h
  exact ⟨.refl hK, fun _ _ => rfl⟩

theorem Once.seq {f g : PartialState → Res (Nat × PartialState)} (hf : Once A f) (hg : Once A g) :
    Once A (fun K => do
      let r ← f K
      let r' ← g r.2
      pure (max r.1 r'.1, r'.2)) := by
  intro K r hK h hc
  simp only [Res.bind_eq_ok, Res.pure_eq, Res.ok.injEq] at h
  obtain ⟨r1, h1, r2, h2, rfl⟩ := h
  simp only at hc ⊢
  obtain ⟨e1, k1⟩ := hf K r1 hK h1 (by omega)
  obtain ⟨e2, k2⟩ := hg r1.2 r2 e1.cons h2 (by omega)
  refine ⟨e1.trans e2, fun K' hK' => ?_⟩
  simp [k1 K' (e2.trans hK'), k2 K' hK']

theorem Once.loopEff {f : List Obj → PartialState → Res (Nat × PartialState)} (hf : ∀ os, Once A (f os)) :
    ∀ l, Once A (loopEff f l)
  | [] => .idle
  | os :: l => (hf os).seq (Once.loopEff hf l)

/-- A step that is not a contradiction. -/
theorem stepP_ext {sign : Bool} {x : Atom} {K : PartialState} (hA : A sign x.pred) (hK : ∀ x ∈ K.pos, x ∉ K.neg)
    (h : (stepP sign x K).1 ≤ 1) : Ext A K (stepP sign x K).2 ∧ Has (stepP sign x K).2 sign x := by
  have hm := fun y => stepP_mem sign x y K
  have hno : ¬ Has K (!sign) x := by
    intro hx
    cases sign
    · have h' : (K.pos.erase x).1.toNat + (K.neg.insert x).1.toNat ≤ 1 := h
      rw [State.erase_flag, State.insert_flag] at h'
      have hx : x ∈ K.pos := hx
      simp [hx, hK x hx] at h'
    · have h' : (K.neg.erase x).1.toNat + (K.pos.insert x).1.toNat ≤ 1 := h
      rw [State.erase_flag, State.insert_flag] at h'
      have hx : x ∈ K.neg := hx
      have h2 : x ∉ K.pos := fun h => hK x h hx
      simp [hx, h2] at h'
  refine ⟨⟨⟨fun y hy => ?_, fun y hy => ?_⟩, fun sg y hy => ?_, fun y hy => ?_⟩, ?_⟩
  · rw [(hm y).1]
    split
    · rename_i e
      subst e
      cases sign
      · exact absurd hy hno
      · rfl
    · exact hy
  · rw [(hm y).2]
    split
    · rename_i e
      subst e
      cases sign
      · rfl
      · exact absurd hy hno
    · exact hy
  · cases sg
    · have hy' : y ∈ (stepP sign x K).2.neg := hy
      rw [(hm y).2] at hy'
      split at hy'
      · rename_i e
        rw [e]
        exact .inr (hy' ▸ hA)
      · exact .inl hy'
    · have hy' : y ∈ (stepP sign x K).2.pos := hy
      rw [(hm y).1] at hy'
      split at hy'
      · rename_i e
        rw [e]
        exact .inr (hy' ▸ hA)
      · exact .inl hy'
  · rw [(hm y).1] at hy
    rw [(hm y).2]
    by_cases e : y = x
    · simp only [e, if_true] at hy ⊢
      simp [hy]
    · simp only [e, if_false] at hy ⊢
      exact hK y hy
  · cases sign
    · exact (hm x).2.2 (by simp)
    · exact (hm x).1.2 (by simp)

/-- A step to a known fact does nothing. -/
theorem stepP_known {sign : Bool} {x : Atom} {K : PartialState} (hK : ∀ x ∈ K.pos, x ∉ K.neg) (h : Has K sign x) :
    stepP sign x K = (0, K) := by
  have h0 : (stepP sign x K).1 = 0 := by
    cases sign
    · show (K.pos.erase x).1.toNat + (K.neg.insert x).1.toNat = 0
      have h : x ∈ K.neg := h
      have h2 : x ∉ K.pos := fun h' => hK x h' h
      rw [State.erase_flag, State.insert_flag]
      simp [h, h2]
    · show (K.neg.erase x).1.toNat + (K.pos.insert x).1.toNat = 0
      have h : x ∈ K.pos := h
      rw [State.erase_flag, State.insert_flag]
      simp [h, hK x h]
  exact Prod.ext h0 (stepP_zero h0).1

/-- Nothing is triggered by literals allowed by `A`. -/
def Silent (A : Bool → Name → Prop) (fire : Fire PartialState) : Prop :=
  ∀ sign pred, A sign pred → ∀ params effParams args K, fire sign pred params effParams args K = .ok K

variable {m : ObjMap} {fire : Fire PartialState}

theorem applySimple_once (hs : Silent A fire) {sign : Bool} {pred : Name} (hA : A sign pred) (ts : List Term)
    (params args : List Obj) : Once A (applySimple m fire sign pred ts params args) := by
  intro K r hK h hc
  simp only [applySimple, Res.bind_eq_ok] at h
  obtain ⟨os, h0, h⟩ := h
  simp only [applySimple, h0, Res.bind_ok]
  cases hk : atomKind m pred <;> simp only [hk] at h ⊢
  · simp only [Res.bind_eq_ok] at h
    obtain ⟨o1, h1, o2, h2, h⟩ := h
    simp only [h1, h2, Res.bind_ok]
    split at h
    · rename_i e
      simp only [Res.pure_eq, Res.ok.injEq] at h
      subst h
      exact ⟨.refl hK, fun K' _ => by simp [e]⟩
    · simp at h
  · simp only [Res.bind_eq_ok] at h
    obtain ⟨o1, h1, h⟩ := h
    simp only [h1, Res.bind_ok]
    split at h
    · rename_i e
      simp only [Res.pure_eq, Res.ok.injEq] at h
      subst h
      exact ⟨.refl hK, fun K' _ => by simp [e]⟩
    · simp at h
  · have hstep : ∀ K : PartialState, (if sign = true then StateLike.insert K (Atom.ofObjs pred os)
        else StateLike.erase K (Atom.ofObjs pred os)) = stepP sign (Atom.ofObjs pred os) K := fun K => by cases sign <;> rfl
    simp only [hstep] at h ⊢
    generalize hx : Atom.ofObjs pred os = x at h ⊢
    have hA' : A sign x.pred := by rw [← hx]; exact hA
    have hr : r = stepP sign x K := by
      split at h
      · simpa using h.symm
      · rw [hs sign pred hA] at h
        simpa using h.symm
    subst hr
    obtain ⟨e1, e2⟩ := stepP_ext hA' hK hc
    refine ⟨e1, fun K' hK' => ?_⟩
    simp [stepP_known hK'.cons (e2.grows hK'.grows)]

theorem applySimples_once (hs : Silent A fire) {sign : Bool} (params args : List Obj) :
    ∀ (l : List (Name × List Term)), (∀ pred, ListsPred l pred → A sign pred) →
      Once A (applySimples m fire sign params args l)
  | [], _ => .idle
  | (pred, ts) :: l, h =>
    (applySimple_once hs (h pred ⟨ts, by simp⟩) ts params args).seq
      (applySimples_once hs params args l (fun p ⟨ts, hp⟩ => h p ⟨ts, by simp [hp]⟩))

mutual
theorem Eff.apply_once (hs : Silent A fire) : ∀ (e : Eff) (params args : List Obj), e.NoCond →
    (∀ sign pred, e.Touches sign pred → A sign pred) → Once A (e.apply m fire params args)
  | .mk fs adds dels cs, params, args, hn, hA => by
    simp only [Eff.NoCond] at hn
    obtain ⟨h1, rfl⟩ := hn
    simp only [Eff.Touches] at hA
    have o1 := FList.apply_once hs fs params args h1 (fun sg p h => hA sg p (.inl h))
    have o2 := applySimples_once (m := m) hs params args adds (fun p h => hA true p (.inr (.inl ⟨rfl, h⟩)))
    have o3 := applySimples_once (m := m) hs params args dels (fun p h => hA false p (.inr (.inr (.inl ⟨rfl, h⟩))))
    intro K r hK h hc
    simp only [Eff.apply, CList.apply, Res.bind_ok, Res.bind_eq_ok, Res.pure_eq, Res.ok.injEq] at h
    obtain ⟨r1, k1, r2, k2, r3, k3, rfl⟩ := h
    simp only at hc ⊢
    obtain ⟨e1, i1⟩ := o1 K r1 hK k1 (by omega)
    obtain ⟨e2, i2⟩ := o2 _ r2 e1.cons k2 (by omega)
    obtain ⟨e3, i3⟩ := o3 _ r3 e2.cons k3 (by omega)
    refine ⟨e1.trans (e2.trans e3), fun K' hK' => ?_⟩
    simp [Eff.apply, CList.apply, i1 K' (e2.trans (e3.trans hK')), i2 K' (e3.trans hK'), i3 K' hK']
theorem FList.apply_once (hs : Silent A fire) : ∀ (l : FList) (params args : List Obj), l.NoCond →
    (∀ sign pred, l.Touches sign pred → A sign pred) → Once A (l.apply m fire params args)
  | .nil, _, _, _, _ => by
    intro K r hK h _
    simp only [FList.apply, Res.ok.injEq] at h
    subst h
    exact ⟨.refl hK, fun _ _ => by simp [FList.apply]⟩
  | .cons vars e rest, params, args, hn, hA => by
    simp only [FList.NoCond] at hn
    simp only [FList.Touches] at hA
    have o1 := fun os => Eff.apply_once hs e (params ++ vars) (args ++ os) hn.1 (fun sg p h => hA sg p (.inl h))
    have o2 := FList.apply_once hs rest params args hn.2 (fun sg p h => hA sg p (.inr h))
    intro K r hK h hc
    simp only [FList.apply, Res.bind_eq_ok (x := genLoop _)] at h
    obtain ⟨tuples, h0, h⟩ := h
    simp only [FList.apply, h0, Res.bind_ok]
    exact ((Once.loopEff o1 tuples).seq o2) K r hK h hc
end

variable {t : Ptree} {P : Pddl} {up : Name → List Name}

/-- What axioms imply. -/
def Ptree.Implied (t : Ptree) (sign : Bool) (pred : Name) : Prop :=
  ∃ op ∈ t.ops, op.isAxiom = true ∧ op.eff.Touches sign pred

theorem Pddl.Built.silent (B : P.Built t) (hf : t.FlatAxioms) (n : Nat) : Silent t.Implied (fireN P.omap P.axioms n) := by
  rintro sign pred ⟨op, ho, ha, ht⟩ params effParams args K
  refine fireN_none (fun ax hm => ?_) n params effParams args K
  rintro ⟨rfl, rfl⟩
  obtain ⟨h1, h2, -⟩ := B.ax hm
  have hc := B.context hm
  exact hf op ho ha ax.op h1 h2 (by rw [← hc.1, ← hc.2]; exact ht)

/-- All kept instances of an axiom. -/
theorem axApplyPLoop_once (B : P.Built t) (ht : t.TypeChecked up) (hr : t.RulesOnly) {fuel : Nat}
    (hs : Silent A (fireN P.omap P.axioms fuel)) {ax : Ax} (hm : ax ∈ P.axioms)
    (hA : ∀ sign pred, ax.op.eff.Touches sign pred → A sign pred) (hno : ¬ A ax.op.ctxSign ax.op.ctxPred) :
    ∀ l : List (List Obj), (∀ as ∈ l, WellTyped (t.constants ++ t.objects) ax.op.params as) →
    Once A (axApplyPLoop P.omap P.axioms fuel ax l)
  | [], _ => .idle
  | as :: l, hw => by
    obtain ⟨ho, ha, -⟩ := B.ax hm
    obtain ⟨c1, c2, c3, c4⟩ := hr _ ho ha
    obtain ⟨pred, cargs, hctx⟩ := B.contexts _ ho ha
    obtain ⟨-, hwf, -, -⟩ := (ht.ops _ ho).axiom_ ha
    have hin := axApplyPLoop_once B ht hr hs hm hA hno l (fun a h => hw a (by simp [h]))
    have hwt := hw as (by simp)
    have happ : Once A (ax.op.apply P.omap P.axioms fuel as) := Eff.apply_once hs _ _ _ c4 hA
    have hone : Once A (fun K => do
        let v ← optionalOf (ax.op.isValid P.omap K as)
        if v = some true then ax.op.apply P.omap P.axioms fuel as K else pure (0, K)) := by
      intro K r hK h hc
      simp only [Res.bind_eq_ok] at h
      obtain ⟨v, hv, h⟩ := h
      have tot := fun K' : PartialState => context_total hctx c1 c2 hwt K'
      rw [← B.omap] at tot
      have hval : ∀ K' : PartialState, (∀ x ∈ K'.pos, x ∉ K'.neg) → (ax.op.isValid P.omap K' as = .ok true ↔
          ∃ x, ax.op.ContextIs (t.constants ++ t.objects) as x ∧ Has K' ax.op.ctxSign x) :=
        fun K' hK' => by rw [B.omap]; exact context_known hctx c1 c2 hwf hwt hK'
      split at h
      · rename_i e
        obtain ⟨e1, e2⟩ := happ K r hK h hc
        refine ⟨e1, fun K' hK' => ?_⟩
        obtain ⟨v', hv'⟩ := tot K'
        simp only [hv', Res.bind_ok]
        split
        · exact e2 K' hK'
        · rfl
      · rename_i e
        simp only [Res.pure_eq, Res.ok.injEq] at h
        subst h
        refine ⟨.refl hK, fun K' hK' => ?_⟩
        obtain ⟨v', hv'⟩ := tot K'
        simp only [hv', Res.bind_ok]
        split
        · rename_i e'
          exfalso
          obtain ⟨x, hx, hk⟩ := (hval K' hK'.cons).1 (optionalOf_true hv' e')
          have hxp : x.pred = ax.op.ctxPred := by obtain ⟨-, os, -, rfl⟩ := hx; rfl
          rcases hK'.within _ x hk with h1 | o3
          · have := (hval K hK).2 ⟨x, hx, h1⟩
            rw [this] at hv
            simp only [optionalOf, Res.ok.injEq] at hv
            exact e hv.symm
          · rw [hxp] at o3
            exact hno o3
        · rfl
    have := hone.seq hin
    intro K r hK h hc
    have heq : ∀ K, axApplyPLoop P.omap P.axioms fuel ax (as :: l) K = (do
        let r ← (do
          let v ← optionalOf (ax.op.isValid P.omap K as)
          if v = some true then ax.op.apply P.omap P.axioms fuel as K else pure (0, K))
        let r' ← axApplyPLoop P.omap P.axioms fuel ax l r.2
        pure (max r.1 r'.1, r'.2)) := by
      intro K
      simp only [axApplyPLoop]
      cases optionalOf (ax.op.isValid P.omap K as) <;> rfl
    rw [heq] at h
    obtain ⟨a1, a2⟩ := this K r hK h hc
    exact ⟨a1, fun K' hK' => by rw [heq]; exact a2 K' hK'⟩

/-- A pass over axioms that reports no contradiction adds facts, and the next one does nothing. -/
theorem consistentPassP_once (B : P.Built t) (ht : t.TypeChecked up) (hr : t.RulesOnly) (hf : t.FlatAxioms) {fuel : Nat} :
    ∀ (l : List Ax), (∀ ax ∈ l, ax ∈ P.axioms) → ∀ {K : PartialState} {r : Bool × PartialState},
    (∀ x ∈ K.pos, x ∉ K.neg) → Pddl.consistentPassP P.omap P.axioms fuel l K = .ok r →
    Ext t.Implied K r.2 ∧ ∀ K', Ext t.Implied r.2 K' → Pddl.consistentPassP P.omap P.axioms fuel l K' = .ok (false, K')
  | [], _, K, r, hK, h => by
    simp only [Pddl.consistentPassP, Res.ok.injEq] at h
    subst h
    exact ⟨.refl hK, fun _ _ => rfl⟩
  | ax :: l, hl, K, r, hK, h => by
    simp only [Pddl.consistentPassP, Res.bind_eq_ok] at h
    obtain ⟨r1, h1, h⟩ := h
    obtain ⟨ho, ha, -⟩ := B.ax (hl ax (by simp))
    obtain ⟨hne, hwf, -, -⟩ := (ht.ops _ ho).axiom_ ha
    have hone := axApplyPLoop_once B ht hr (B.silent hf fuel) (hl ax (by simp)) (fun sg p h => ⟨_, ho, ha, h⟩)
      (fun ⟨op, o1, o2, o3⟩ => hf op o1 o2 _ ho ha o3) ax.arguments
      (B.arguments ht.names (hl ax (by simp)) hne hwf (hr _ ho ha).2.2.1).1
    split at h
    · simp at h
    · rename_i hc
      simp only [Res.bind_eq_ok, Res.pure_eq, Res.ok.injEq] at h
      obtain ⟨r2, h2, rfl⟩ := h
      have hcode : r1.1 ≤ 2 := axApplyPLoop_code h1
      obtain ⟨e1, i1⟩ := hone K r1 hK h1 (by omega)
      obtain ⟨e2, i2⟩ := consistentPassP_once B ht hr hf l (fun a h => hl a (by simp [h])) e1.cons h2
      refine ⟨e1.trans e2, fun K' hK' => ?_⟩
      simp [Pddl.consistentPassP, Ax.applyP, i1 K' (e2.trans hK'), i2 K' hK']

/-! ## Another list of axioms -/

section
variable {fire fire' : Fire PartialState}

theorem applySimple_fireP {sign : Bool} {pred : Name} (h : ∀ ps es as K, fire sign pred ps es as K = fire' sign pred ps es as K)
    (ts : List Term) (params args : List Obj) (K : PartialState) :
    applySimple m fire sign pred ts params args K = applySimple m fire' sign pred ts params args K := by
  simp only [applySimple, h]

theorem applySimples_fireP {sign : Bool} (params args : List Obj) : ∀ (l : List (Name × List Term)),
    (∀ pred, ListsPred l pred → ∀ ps es as K, fire sign pred ps es as K = fire' sign pred ps es as K) → ∀ K,
    applySimples m fire sign params args l K = applySimples m fire' sign params args l K
  | [], _, _ => rfl
  | (pred, ts) :: l, h, K => by
    simp only [applySimples, applySimple_fireP (h pred ⟨ts, by simp⟩),
      applySimples_fireP params args l (fun p ⟨ts, hp⟩ => h p ⟨ts, by simp [hp]⟩)]

mutual
theorem Eff.apply_fireP : ∀ (e : Eff) (params args : List Obj),
    (∀ sign pred, e.Touches sign pred → ∀ ps es as K, fire sign pred ps es as K = fire' sign pred ps es as K) → ∀ K,
    e.apply m fire params args K = e.apply m fire' params args K
  | .mk fs adds dels cs, params, args, h, K => by
    simp only [Eff.Touches] at h
    simp only [Eff.apply, FList.apply_fireP fs params args (fun sg p ht => h sg p (.inl ht)),
      applySimples_fireP params args adds (fun p ht => h true p (.inr (.inl ⟨rfl, ht⟩))),
      applySimples_fireP params args dels (fun p ht => h false p (.inr (.inr (.inl ⟨rfl, ht⟩)))),
      CList.apply_fireP cs params args (fun sg p ht => h sg p (.inr (.inr (.inr ht))))]
theorem FList.apply_fireP : ∀ (l : FList) (params args : List Obj),
    (∀ sign pred, l.Touches sign pred → ∀ ps es as K, fire sign pred ps es as K = fire' sign pred ps es as K) → ∀ K,
    l.apply m fire params args K = l.apply m fire' params args K
  | .nil, _, _, _, _ => by simp only [FList.apply]
  | .cons vars e rest, params, args, h, K => by
    simp only [FList.Touches] at h
    simp only [FList.apply, fun os => Eff.apply_fireP e (params ++ vars) (args ++ os) (fun sg p ht => h sg p (.inl ht)),
      FList.apply_fireP rest params args (fun sg p ht => h sg p (.inr ht))]
theorem CList.apply_fireP : ∀ (l : CList) (params args : List Obj),
    (∀ sign pred, l.Touches sign pred → ∀ ps es as K, fire sign pred ps es as K = fire' sign pred ps es as K) → ∀ K,
    l.apply m fire params args K = l.apply m fire' params args K
  | .nil, _, _, _, _ => by simp only [CList.apply]
  | .cons g e rest, params, args, h, K => by
    simp only [CList.Touches] at h
    simp only [CList.apply, Eff.apply_fireP e params args (fun sg p ht => h sg p (.inl ht)),
      CList.apply_fireP rest params args (fun sg p ht => h sg p (.inr ht))]
end

end

theorem consistentPLoop_congr {axs axs' : List Ax} {fuel : Nat} {ax : Ax}
    (h : ∀ as (K : PartialState), ax.op.apply m axs fuel as K = ax.op.apply m axs' fuel as K) : ∀ (l : List (List Obj)) K c,
    consistentPLoop m axs fuel ax l K c = consistentPLoop m axs' fuel ax l K c
  | [], _, _ => rfl
  | as :: l, K, c => by simp only [consistentPLoop, h, consistentPLoop_congr h l]

theorem oneAxiomFix_congr {axs axs' : List Ax} {fuel : Nat} {ax : Ax}
    (h : ∀ as (K : PartialState), ax.op.apply m axs fuel as K = ax.op.apply m axs' fuel as K) : ∀ (k : Nat) (K : PartialState),
    oneAxiomFix m axs fuel ax k K = oneAxiomFix m axs' fuel ax k K
  | 0, _ => rfl
  | k + 1, K => by simp only [oneAxiomFix, consistentPLoop_congr h, oneAxiomFix_congr h k]

end Symbolic
