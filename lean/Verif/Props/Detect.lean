import Verif.Lemmas.Detect
import Verif.Lemmas.KeepAxioms
import Verif.Props.AxiomOne
import Verif.Props.PartialReturns
import Verif.Props.Propagate
import Verif.Props.ValidPartial

/-!
# C100: contradictions in PartialStates are detected
-/

namespace Symbolic

section
variable [StrHash] {t : Ptree} {b : Bool} {n : Nat} {P : Pddl} {up : Name → List Name}

/-- Axioms that do not build on each other do not trigger each other forever. -/
theorem Pddl.Built.flat_returns (B : P.Built t) (hwf : t.WellFormed) (hf : t.FlatAxioms) :
    ∃ F, ∀ fuel, F ≤ fuel → ∀ op ∈ t.ops, ∀ as (s : PartialState), op.params.length = as.length →
      ∃ r, op.apply P.omap P.axioms fuel as s = .ok r := by
  classical
  let rank : Bool → Name → Nat := fun sign p =>
    if ∃ ax ∈ t.ops, ax.isAxiom = true ∧ ax.ctxSign = sign ∧ ax.ctxPred = p then 1 else 0
  have hr : ∀ op ∈ t.ops, op.isAxiom = true → ∀ sign p, op.eff.Touches sign p → rank sign p < rank op.ctxSign op.ctxPred := by
    intro op ho ha sign p ht
    have h1 : rank op.ctxSign op.ctxPred = 1 := if_pos ⟨op, ho, ha, rfl, rfl⟩
    have h0 : rank sign p = 0 := if_neg (by
      rintro ⟨ax, hm, hax, rfl, rfl⟩
      exact hf op ho ha ax hm hax ht)
    omega
  obtain ⟨N, hN⟩ := effs_bound rank t.ops
  refine ⟨N, fun fuel hn op ho as s hlen => ?_⟩
  have hne : op.apply P.omap P.axioms fuel as s ≠ .fuel := by
    rw [B.omap]
    exact Eff.apply_ne_fuel _ (fireN_total _ (B.ranked hr) fuel) op.eff _ _ _ (fun sg p ht => by
      have := hN op ho sg p ht; show rank sg p < fuel; omega)
  rw [B.omap] at hne ⊢
  refine NoFail.returns (Eff.apply_noFail (condReturns_partial _) (fireN_safe (condReturns_partial _) (fun ax hm => ?_) fuel)
    op.eff _ _ s hlen (hwf.eff op ho) (B.created ho)) hne
  exact ⟨hwf.eff _ (B.ax hm).1, B.created (B.ax hm).1⟩

/-- What a result knows that is closed under the axioms and free of contradictions shows that nothing contradicts itself. -/
theorem coherent_of_returns (hP : Pddl.make t b n = .ok P) (ht : t.TypeChecked up) (hp : t.PlainEffects) (hr : t.RulesOnly)
    {fuel : Nat} {p p' : PartialState} (h : P.consistentStateP fuel p = .ok p') (hg : GrowsP p p')
    (hcons : ∀ x ∈ p'.pos, x ∉ p'.neg) : t.Coherent (· ∈ p.pos) (· ∈ p.neg) := by
  have B := Pddl.built hP
  have key : ∀ sign x, t.Follows (· ∈ p.pos) (· ∈ p.neg) sign x → if sign = true then x ∈ p'.pos else x ∈ p'.neg := by
    intro sign x hx
    induction hx with
    | isTrue h => exact hg.1 _ h
    | isFalse h => exact hg.2 _ h
    | @rule ax as x sign y h1 h2 _ h4 h5 ih =>
      obtain ⟨e1, e2, e3, e4⟩ := hr ax h1 h2
      obtain ⟨hne, hwf, -, -⟩ := (ht.ops ax h1).axiom_ h2
      obtain ⟨pred, cargs, hctx⟩ := B.contexts ax h1 h2
      have hpl := (makes_respects ax.eff _ _ y (hp ax h1) (ht.effTyped h1 h4.1) h5).1
      refine C33_consequences_known t b n P hP ht.names fuel p p' h ax h1 h2 ⟨hne, hwf, (ht.ops ax h1).formed⟩ e3 e4 as h4.1 ?_
        (PartialState.isConsistent_iff.2 hcons) _ sign y hpl.1 hpl.2 h5
      rw [B.omap, context_known hctx e1 e2 hwf h4.1 hcons]
      exact ⟨x, h4, ih⟩
  exact fun x h h' => hcons x (key true x h) (key false x h')

/-- **C100, partial.** If axioms do not build on each other, `ConsistentState(p)` returns and `IsValidState(p)` is true
exactly if no fact follows together with its opposite from what `p` knows; else `ConsistentState(p)` throws `runtime_error`
and `IsValidState(p)` is false.

Missing for the full claim: axioms whose implications are contexts of axioms, see `C100_refuted`; conditional effects of
axioms and contexts about `=` and types. -/
theorem C100_detects_partial (hP : Pddl.make t b n = .ok P) (up : Name → List Name) (ht : t.TypeChecked up) (hwf : t.WellFormed)
    (hp : t.PlainEffects) (hr : t.RulesOnly) (hf : t.FlatAxioms) : ∃ N, ∀ fuel, N ≤ fuel → ∀ p : PartialState,
      p.isConsistent = true →
      (t.Coherent (· ∈ p.pos) (· ∈ p.neg) → (∃ p', P.consistentStateP fuel p = .ok p') ∧ P.isValidStateP fuel p = .ok true) ∧
      (¬ t.Coherent (· ∈ p.pos) (· ∈ p.neg) →
        P.consistentStateP fuel p = .exc .runtimeError ∧ P.isValidStateP fuel p = .ok false) := by
  have B := Pddl.built hP
  obtain ⟨N₁, h₁⟩ := C94_rules_partial hP up ht hp hr
  obtain ⟨N₂, h₂⟩ := C94_accepts_partial hP up ht hp hr
  obtain ⟨N₃, h₃⟩ := B.flat_returns hwf hf
  refine ⟨N₁ + N₂ + N₃ + 1, fun fuel hn p hcons => ⟨fun hc => ⟨?_, h₂ fuel (by omega) p hc⟩, fun hc => ?_⟩⟩
  · obtain ⟨p', h, -⟩ := h₁ fuel (by omega) p hc
    exact ⟨p', h⟩
  · have hF := h₃ fuel (by omega)
    have hK := PartialState.isConsistent_iff.1 hcons
    have hno : ∀ r, Pddl.consistentPassP P.omap P.axioms fuel P.axioms p ≠ .ok r := by
      intro r h
      obtain ⟨e1, e2⟩ := consistentPassP_once B ht hr hf P.axioms (fun _ h => h) hK h
      have h2 := e2 r.2 (.refl e1.cons)
      have hret : P.consistentStateP fuel p = .ok r.2 := by
        rw [C73_returns]
        obtain ⟨c, q⟩ := r
        cases c
        · exact ⟨0, by omega, p, .none p, h⟩
        · exact ⟨1, by omega, q, .more h (.none q), h2⟩
      exact hc (coherent_of_returns hP ht hp hr hret e1.grows e1.cons)
    constructor
    · rcases consistentFixP_outcome B hwf hF 0 p with ⟨q, h⟩ | h
      · exfalso
        rw [Pddl.consistentFixP, Res.bind_eq_ok] at h
        obtain ⟨r, h, -⟩ := h
        exact hno r h
      · exact h
    · obtain ⟨⟨v, c, q⟩, hv⟩ := consistentPPass_noFail B hwf hF P.axioms (fun _ h => h) p false
      obtain ⟨k, rfl⟩ : ∃ k, fuel = k + 1 := ⟨fuel - 1, by omega⟩
      rw [Pddl.isValidStateP, consistentPFix, hv, Res.bind_ok]
      cases v
      · rfl
      · obtain ⟨c', h, -⟩ := pass_of_consistentPPass hv
        exact absurd h (hno _)

theorem sat_context {objects : List Obj} {S : Atom → Prop} {op : Op} {pred : Name} {cargs as : List Obj}
    (hc : contextOf op.pre = .ok (op.ctxSign, pred, cargs)) (hwf : op.pre.WF objects (op.params.map Obj.name))
    (h1 : op.ctxPred ≠ n!"=") (h2 : ¬ IsType objects op.ctxPred)
    (hw : WellTyped objects op.params as) (h : Sat objects S (Env.none.bind op.params as) op.pre) :
    ∃ x, op.ContextIs objects as x ∧ Is S op.ctxSign x := by
  by_cases h' : Sat objects (fun x => ¬ S x) (Env.none.bind op.params as) op.pre
  · exfalso
    obtain ⟨e1, -, hpre⟩ := contextOf_ok hc
    rw [e1] at h1 h2
    have hsc : ∀ t ∈ op.ctx, t.Scoped (op.params.map Obj.name) := by
      rw [hpre] at hwf
      generalize op.ctxSign = sg at hwf
      cases sg
      · simp only [Bool.false_eq_true, if_false, Goal.WF] at hwf
        exact hwf.1
      · simp only [if_true, Goal.WF] at hwf
        exact hwf.1
    have hd := (forall₂_denotes hw.length hsc _).2 rfl
    rw [hpre] at h h'
    generalize op.ctxSign = sg at h h'
    cases sg
    · simp only [Bool.false_eq_true, if_false, Sat, satAtom_lit h1 h2 hd] at h h'
      exact h' h
    · simp only [if_true, Sat, satAtom_lit h1 h2 hd] at h h'
      exact h' h
  · obtain ⟨x, a1, a2, -⟩ := context_new hc hwf hw h h'
    exact ⟨x, a1, a2⟩

/-- **C100, partial.** If no fact follows together with its opposite and the contexts of axioms are atoms, not negated ones,
then what the result of `ConsistentState(p)` knows to be true is a State that agrees with `p` and satisfies all axioms.

Missing for the full claim: negated contexts, see `C100_negated_refuted`. -/
theorem C100_completion_partial (hP : Pddl.make t b n = .ok P) (up : Name → List Name) (ht : t.TypeChecked up)
    (hp : t.PlainEffects) (hr : t.RulesOnly) (hpos : ∀ ax ∈ t.ops, ax.isAxiom = true → ax.ctxSign = true) :
    ∃ N, ∀ fuel, N ≤ fuel → ∀ p : PartialState, t.Coherent (· ∈ p.pos) (· ∈ p.neg) →
      ∃ p', P.consistentStateP fuel p = .ok p' ∧ Compatible (· ∈ p.pos) (· ∈ p.neg) (· ∈ p'.pos) ∧
        AxiomsHold (t.constants ++ t.objects) t.ops (· ∈ p'.pos) := by
  have B := Pddl.built hP
  obtain ⟨N, h⟩ := C94_rules_partial hP up ht hp hr
  refine ⟨N, fun fuel hn p hc => ?_⟩
  obtain ⟨p', h1, h2⟩ := h fuel hn p hc
  refine ⟨p', h1, ⟨fun x hx => (h2 x).1.2 (.isTrue hx), fun x hx hx' => hc x ((h2 x).1.1 hx') (.isFalse hx)⟩, ?_⟩
  intro ax ho ha as hw
  rw [holdsFor_iff (hp ax ho) hw]
  intro hs sign y hy
  obtain ⟨e1, e2, e3, e4⟩ := hr ax ho ha
  obtain ⟨pred, cargs, hctx⟩ := B.contexts ax ho ha
  obtain ⟨-, hwf, -, -⟩ := (ht.ops ax ho).axiom_ ha
  obtain ⟨x, hx, hk⟩ := sat_context hctx hwf e1 e2 hw hs
  have hfx : t.Follows (· ∈ p.pos) (· ∈ p.neg) ax.ctxSign x := by
    have hs := hpos ax ho ha
    rw [hs] at hk ⊢
    exact (h2 x).1.1 (hk.2 rfl)
  have hfy := Ptree.Follows.rule ho ha hfx hx ((makes_noCond _ _ _ _ _ _ _ e4).1 hy)
  cases sign
  · exact ⟨fun hy' => absurd hfy (hc y ((h2 y).1.1 hy')), fun h => by simp at h⟩
  · exact ⟨fun _ => rfl, fun _ => (h2 y).1.2 hfy⟩

/-- **C100, partial.** Hence, where axioms do not build on each other and have atoms as contexts, `IsValidState(p)` is true
exactly if there is a State that agrees with `p` and satisfies all axioms. -/
theorem C100_valid_iff_completion_partial (hP : Pddl.make t b n = .ok P) (up : Name → List Name) (ht : t.TypeChecked up)
    (hwf : t.WellFormed) (hp : t.PlainEffects) (hr : t.RulesOnly) (hf : t.FlatAxioms)
    (hpos : ∀ ax ∈ t.ops, ax.isAxiom = true → ax.ctxSign = true) : ∃ N, ∀ fuel, N ≤ fuel → ∀ p : PartialState,
      p.isConsistent = true →
      ∃ v, P.isValidStateP fuel p = .ok v ∧ (v = true ↔ ∃ s : State, Compatible (· ∈ p.pos) (· ∈ p.neg) (· ∈ s) ∧
        AxiomsHold (t.constants ++ t.objects) t.ops (· ∈ s)) := by
  obtain ⟨N₁, h₁⟩ := C100_detects_partial hP up ht hwf hp hr hf
  obtain ⟨N₂, h₂⟩ := C100_completion_partial hP up ht hp hr hpos
  refine ⟨N₁ + N₂, fun fuel hn p hcons => ?_⟩
  obtain ⟨k1, k2⟩ := h₁ fuel (by omega) p hcons
  by_cases hc : t.Coherent (· ∈ p.pos) (· ∈ p.neg)
  · obtain ⟨p', -, h3, h4⟩ := h₂ fuel (by omega) p hc
    exact ⟨true, (k1 hc).2, by simpa using ⟨p'.pos, h3, h4⟩⟩
  · refine ⟨false, (k2 hc).2, by simp only [Bool.false_eq_true, false_iff]; rintro ⟨s, h3, h4⟩; exact hc (C94_coherent hP hp hr h4 h3).2⟩

/-- **C93, PartialStates, partial.** If what the axiom implies triggers no axiom and its context is an atom, not a negated
one, `axiom.IsConsistent(p)` returns, and it is true exactly if there is a State that agrees with `p` and satisfies this
axiom.

Missing for the full claim: implications that trigger axioms, see `C93_other_axiom_refuted`. -/
theorem C93_own_axiom_partial (hP : Pddl.make t b n = .ok P) (up : Name → List Name) (ht : t.TypeChecked up) (hwf : t.WellFormed)
    (hp : t.PlainEffects) (hr : t.RulesOnly) (ax : Ax) (hm : ax ∈ P.axioms) (sig : Name → List Name)
    (hsig : ax.op.Sorted (t.constants ++ t.objects) sig)
    (hf : ∀ op ∈ t.ops, op.isAxiom = true → ¬ ax.op.eff.Touches op.ctxSign op.ctxPred) (hpos : ax.op.ctxSign = true)
    (fuel : Nat) (h2 : 2 ≤ fuel) (p : PartialState) (hcons : p.isConsistent = true) :
    ∃ v, ax.isConsistentP P.omap P.axioms fuel p = .ok v ∧
      (v = true ↔ ∃ s : State, Compatible (· ∈ p.pos) (· ∈ p.neg) (· ∈ s) ∧
        ∀ os, WellTyped (t.constants ++ t.objects) ax.op.params os → ax.op.HoldsFor (t.constants ++ t.objects) (· ∈ s) os) := by
  have B := Pddl.built hP
  obtain ⟨ho, ha, hctx', -⟩ := B.ax hm
  obtain ⟨e1, e2, e3, e4⟩ := hr _ ho ha
  obtain ⟨hne, hwfp, -, -⟩ := (ht.ops _ ho).axiom_ ha
  obtain ⟨pred, cargs, hctx⟩ := B.contexts _ ho ha
  have hargs := B.arguments ht.names hm hne hwfp e3
  have hK := PartialState.isConsistent_iff.1 hcons
  have hnone : ∀ sg q, ax.op.eff.Touches sg q → ∀ a ∈ P.axioms, ¬ (a.pos = sg ∧ a.pred = q) := by
    rintro sg q ht' a hma ⟨rfl, rfl⟩
    obtain ⟨k1, k2⟩ := B.context hma
    rw [k1, k2] at ht'
    exact hf _ (B.ax hma).1 (B.ax hma).2.1 ht'
  have hs : Silent (fun sg q => ax.op.eff.Touches sg q) (fireN P.omap P.axioms fuel) := fun sg q hq ps es as K =>
    fireN_none (hnone sg q hq) fuel ps es as K
  have hone := axApplyPLoop_once B ht hr hs hm (fun _ _ h => h) (hf _ ho ha) ax.arguments hargs.1
  have hret : ∀ as (s : PartialState), ax.op.params.length = as.length → ∃ r, ax.op.apply P.omap P.axioms fuel as s = .ok r := by
    intro as s hlen
    have hnf : ax.op.apply P.omap P.axioms fuel as s ≠ .fuel := by
      have hs' := hs
      rw [B.omap] at hs' ⊢
      exact Eff.apply_ne_fuel _ (A := fun sg q => ax.op.eff.Touches sg q)
        (fun sg q ps es as K hq => by rw [hs' sg q hq]; simp) ax.op.eff _ _ _ (fun _ _ h => h)
    rw [B.omap] at hnf ⊢
    refine NoFail.returns (Eff.apply_noFail (condReturns_partial _) (fireN_safe (condReturns_partial _) (fun a hma => ?_) fuel)
      ax.op.eff _ _ s hlen (hwf.eff _ ho) (B.created ho)) hnf
    exact ⟨hwf.eff _ (B.ax hma).1, B.created (B.ax hma).1⟩
  have hloop : ∀ (l : List (List Obj)), (∀ as ∈ l, WellTyped (t.constants ++ t.objects) ax.op.params as) →
      ∀ (s : PartialState) (c : Bool), ∃ r, consistentPLoop P.omap P.axioms fuel ax l s c = .ok r := by
    intro l
    induction l with
    | nil => exact fun _ s c => ⟨_, rfl⟩
    | cons as l ih =>
      intro hw s c
      have ih := ih (fun a ha => hw a (by simp [ha]))
      obtain ⟨v, hv⟩ := context_total hctx e1 e2 (hw as (by simp)) s
      rw [← B.omap] at hv
      simp only [consistentPLoop, hv, Res.bind_ok]
      obtain ⟨r, hr'⟩ := hret as s (hw as (by simp)).length
      rcases v with _ | _ | _
      · exact ih s c
      · exact ih s c
      · simp only [hr', catchExc, Res.bind_ok]
        split
        · exact ⟨_, rfl⟩
        · exact ih r.2 _
  obtain ⟨⟨v, c, K⟩, hv⟩ := hloop ax.arguments hargs.1 p false
  obtain ⟨k, rfl⟩ : ∃ k, fuel = k + 1 + 1 := ⟨fuel - 2, by omega⟩
  have hgood : ∀ s : State, Compatible (· ∈ p.pos) (· ∈ p.neg) (· ∈ s) →
      (∀ os, WellTyped (t.constants ++ t.objects) ax.op.params os → ax.op.HoldsFor (t.constants ++ t.objects) (· ∈ s) os) →
      ax.isConsistentP P.omap P.axioms (k + 1 + 1) p ≠ .ok false := by
    intro s hs1 hs2 hf'
    have hcongr : ∀ as (K : PartialState), ax.op.apply P.omap P.axioms (k + 1 + 1) as K =
        ax.op.apply P.omap [ax] (k + 1 + 1) as K := by
      intro as K
      refine Eff.apply_fireP _ _ _ (fun sg q hq ps es as K => ?_) K
      rw [fireN_none (hnone sg q hq), fireN_none]
      intro a hma
      rw [List.mem_singleton] at hma
      subst hma
      exact hnone sg q hq a hm
    rw [Ax.isConsistentP, oneAxiomFix_congr hcongr, B.omap] at hf'
    rcases oneAxiomFix_good (T := s) (axs := [ax]) (ax := ax) (fuel := k + 1 + 1) (fun a hma => by
      rw [List.mem_singleton] at hma
      subst hma
      exact ⟨hsig, hctx', hs2⟩) (by simp) hargs.1 (k + 1 + 1) p hs1 with h | h <;> rw [h] at hf' <;> simp at hf'
  cases v
  · have hfalse : ax.isConsistentP P.omap P.axioms (k + 1 + 1) p = .ok false := by
      simp [Ax.isConsistentP, oneAxiomFix, hv]
    exact ⟨false, hfalse, by
      simp only [Bool.false_eq_true, false_iff]
      rintro ⟨s, hs1, hs2⟩
      exact hgood s hs1 hs2 hfalse⟩
  · obtain ⟨i, hi, happ, rfl⟩ := apply_of_consistentPLoop hv
    obtain ⟨x1, x2⟩ := hone p (i, K) hK happ hi
    have hidle := x2 K (.refl x1.cons)
    have htrue : ax.isConsistentP P.omap P.axioms (k + 1 + 1) p = .ok true := by
      have hsecond := consistentPLoop_of_apply false hidle (by omega)
      rw [Ax.isConsistentP, oneAxiomFix, hv, Res.bind_ok]
      by_cases h0 : i > 0
      · simp [h0, oneAxiomFix, hsecond]
      · simp [h0]
    refine ⟨true, htrue, fun _ => ⟨K.pos, ⟨x1.grows.1, fun x hx hx' => x1.cons x hx' (x1.grows.2 x hx)⟩, ?_⟩, fun _ => rfl⟩
    intro as hw
    rw [holdsFor_iff (hp _ ho) hw]
    intro hsat sign y hy
    obtain ⟨x, hx, hk⟩ := sat_context hctx hwfp e1 e2 hw hsat
    have hin : as ∈ ax.arguments := by
      by_contra hnin
      exact hargs.2 as hw hnin _ hsat
    have hvalid : ax.op.isValid P.omap K as = .ok true := by
      rw [B.omap, context_known hctx e1 e2 hwfp hw x1.cons]
      refine ⟨x, hx, ?_⟩
      rw [hpos] at hk ⊢
      exact hk.2 rfl
    have hq := (axApplyPLoop_zero hidle).2 as hin hvalid
    rw [B.omap, Op.apply] at hq
    have hpl := (makes_respects ax.op.eff _ _ y (hp _ ho) (ht.effTyped ho hw) hy).1
    have hknow := Eff.apply_zero_known _ _ _ K hw.length hsig.formed.eff e4 hq sign y hpl.1 hpl.2 hy
    cases sign
    · exact ⟨fun hy' => absurd hknow (x1.cons y hy'), fun h => by simp at h⟩
    · exact ⟨fun _ => rfl, fun _ => hknow⟩

end

/-! ## Refutations and examples -/

section
open Demo
attribute [local instance] lenHash

theorem demo_flat : tree.FlatAxioms := by
  intro op ho ha ax hm hax
  simp only [tree, List.mem_cons, List.not_mem_nil, or_false] at ho hm
  rcases ho with rfl | rfl | rfl
  · simp [pick] at ha
  · simp [place] at ha
  · rcases hm with rfl | rfl | rfl
    · simp [pick] at hax
    · simp [place] at hax
    · simp [held, Eff.Touches, FList.Touches, CList.Touches, ListsPred, Op.ctxSign, Op.ctxPred]

/-- A box in the hand is not on the table. -/
theorem demo_incoherent : ¬ tree.Coherent (· ∈ State.ofList [inhand a, on a table]) (· ∈ State.empty) := by
  intro hc
  refine hc (on a table) (.isTrue (by simp)) (.rule (ax := held) (as := [a]) (x := inhand a) (by simp [tree]) rfl
    (.isTrue (by simp)) ⟨?_, [a], ?_, rfl⟩ ?_)
  · exact .cons ⟨by decide, .inr (by decide)⟩ .nil
  · exact .cons rfl .nil
  · simp only [held, Makes, MakesF]
    exact .inl (.inl ⟨[table], .cons ⟨by decide, .inl rfl⟩ .nil,
      .inr (.inr (.inl ⟨trivial, n!"on", [.var x, .var z], [a, table], by simp, .cons rfl (.cons rfl .nil), rfl⟩))⟩)

example : ∃ N, ∀ fuel, N ≤ fuel → P.consistentStateP fuel ⟨State.ofList [inhand a, on a table], State.empty⟩ = .exc .runtimeError ∧
    P.isValidStateP fuel ⟨State.ofList [inhand a, on a table], State.empty⟩ = .ok false := by
  obtain ⟨N, h⟩ := C100_detects_partial P_made demoUp demo_checked demo_wellFormed demo_plain demo_rulesOnly demo_flat
  exact ⟨N, fun fuel hn => (h fuel hn ⟨State.ofList [inhand a, on a table], State.empty⟩ (by decide +kernel)).2 demo_incoherent⟩

theorem demo_positive : ∀ ax ∈ tree.ops, ax.isAxiom = true → ax.ctxSign = true := by decide

example : ∃ N, ∀ fuel, N ≤ fuel → ∃ p', P.consistentStateP fuel ⟨State.ofList [inhand a, on b table], State.empty⟩ = .ok p' ∧
    Compatible (· ∈ State.ofList [inhand a, on b table]) (· ∈ State.empty) (· ∈ p'.pos) ∧
    AxiomsHold (tree.constants ++ tree.objects) tree.ops (· ∈ p'.pos) := by
  obtain ⟨N, h⟩ := C100_completion_partial P_made demoUp demo_checked demo_plain demo_rulesOnly demo_positive
  exact ⟨N, fun fuel hn => h fuel hn ⟨State.ofList [inhand a, on b table], State.empty⟩ demo_coherent⟩

example : ∃ N, ∀ fuel, N ≤ fuel → ∀ p : PartialState, p.isConsistent = true →
    ∃ v, P.isValidStateP fuel p = .ok v ∧ (v = true ↔ ∃ s : State, Compatible (· ∈ p.pos) (· ∈ p.neg) (· ∈ s) ∧
      AxiomsHold (tree.constants ++ tree.objects) tree.ops (· ∈ s)) :=
  C100_valid_iff_completion_partial P_made demoUp demo_checked demo_wellFormed demo_plain demo_rulesOnly demo_flat demo_positive

/-- The axiom of the demo domain rejects a PartialState exactly if no State that satisfies it agrees with the PartialState. -/
example (ax : Ax) (hm : ax ∈ P.axioms) (p : PartialState) (hcons : p.isConsistent = true) :
    ∃ v, ax.isConsistentP P.omap P.axioms 2 p = .ok v ∧
      (v = true ↔ ∃ s : State, Compatible (· ∈ p.pos) (· ∈ p.neg) (· ∈ s) ∧
        ∀ os, WellTyped (tree.constants ++ tree.objects) ax.op.params os →
          ax.op.HoldsFor (tree.constants ++ tree.objects) (· ∈ s) os) := by
  obtain ⟨h1, h2, -⟩ := (Pddl.built P_made).ax hm
  exact C93_own_axiom_partial P_made demoUp demo_checked demo_wellFormed demo_plain demo_rulesOnly ax hm demoSig
    (demo_sorted _ h1 h2).1 (fun op ho ha => demo_flat _ h1 h2 op ho ha) (demo_positive _ h1 h2) 2 (by decide) p hcons

/-- **C100, refuted** for axioms that build on each other: `(inhand ?x) => (busy ?x)` and `(busy ?x) => (not (clear ?x))`
contradict what is known, but the change codes of triggered axioms are dropped and the PartialState is accepted. -/
theorem C100_refuted :
    (⟨State.ofList [inhand a, clear a], State.empty⟩ : PartialState).isConsistent = true ∧
    ¬ ovrTree.Coherent (· ∈ State.ofList [inhand a, clear a]) (· ∈ State.empty) ∧
    ovrP.isValidStateP 5 ⟨State.ofList [inhand a, clear a], State.empty⟩ = .ok true := by
  refine ⟨by decide +kernel, fun hc => ?_, C33_override_refuted.2⟩
  refine hc (clear a) (.isTrue (by simp)) (.rule (ax := ovr2) (as := [a]) (x := busyA a) (by simp [ovrTree]) rfl
    (.rule (ax := ovr1) (as := [a]) (x := inhand a) (by simp [ovrTree]) rfl (.isTrue (by simp)) ⟨?_, [a], .cons rfl .nil, rfl⟩ ?_)
    ⟨?_, [a], .cons rfl .nil, rfl⟩ ?_)
  · exact .cons ⟨by decide, .inr (by decide)⟩ .nil
  · simp only [ovr1, Makes]
    exact .inr (.inl ⟨rfl, n!"busy", [.var x], [a], by simp, .cons rfl .nil, rfl⟩)
  · exact .cons ⟨by decide, .inr (by decide)⟩ .nil
  · simp only [ovr2, Makes]
    exact .inr (.inr (.inl ⟨trivial, n!"clear", [.var x], [a], by simp, .cons rfl .nil, rfl⟩))

/-- `(inhand ?x) => (clear ?x)` and `(not (inhand ?x)) => (clear ?x)`. -/
def eith1 : Op := ⟨n!"axiom", [x], .atom n!"inhand" [.var x], .mk .nil [(n!"clear", [.var x])] [] .nil, true⟩
def eith2 : Op := ⟨n!"axiom", [x], .neg (.atom n!"inhand" [.var x]), .mk .nil [(n!"clear", [.var x])] [] .nil, true⟩
def eithTree : Ptree :=
  { tree with ops := [eith1, eith2], drvs := [], preds := ⟨n!"clear", [x]⟩ :: tree.preds, init := [] }

theorem eithMade : (Pddl.make eithTree true 5).isOk = true := by decide +kernel
def eithP : Pddl := get _ eithMade
theorem eithP_made : Pddl.make eithTree true 5 = .ok eithP := get_eq _ _

/-- **C100, refuted** for negated contexts: `IsValidState` accepts a PartialState that no State that satisfies the axioms
agrees with, since it does not try both values of `inhand(a)`. -/
theorem C100_negated_refuted :
    (⟨State.empty, State.ofList [clear a]⟩ : PartialState).isConsistent = true ∧ eithTree.FlatAxioms ∧
    eithP.isValidStateP 5 ⟨State.empty, State.ofList [clear a]⟩ = .ok true ∧
    ¬ ∃ s : State, Compatible (· ∈ State.empty) (· ∈ State.ofList [clear a]) (· ∈ s) ∧
      AxiomsHold (eithTree.constants ++ eithTree.objects) eithTree.ops (· ∈ s) := by
  refine ⟨by decide +kernel, ?_, by decide +kernel, ?_⟩
  · intro op ho ha ax hm hax
    simp only [eithTree, List.mem_cons, List.not_mem_nil, or_false] at ho hm
    rcases ho with rfl | rfl <;> rcases hm with rfl | rfl <;>
      simp [eith1, eith2, Eff.Touches, FList.Touches, CList.Touches, ListsPred, Op.ctxSign, Op.ctxPred]
  · rintro ⟨s, hs, hA⟩
    have hno : clear a ∉ s := hs.2 _ (by simp)
    have ha : WellTyped (eithTree.constants ++ eithTree.objects) [x] [a] := .cons ⟨by decide, .inr (by decide)⟩ .nil
    have h1 := hA eith1 (by simp [eithTree]) rfl [a] ha
    have h2 := hA eith2 (by simp [eithTree]) rfl [a] ha
    have lit : ∀ pred, pred ≠ n!"=" → ¬ IsType (eithTree.constants ++ eithTree.objects) pred →
        (SatAtom (eithTree.constants ++ eithTree.objects) (· ∈ s) (Env.none.bind [x] [a]) pred [.var x] ↔
          (⟨pred, [a.name]⟩ : Atom) ∈ s) := fun pred e1 e2 =>
      satAtom_lit (os := [a]) e1 e2 (.cons (show Denotes (Env.none.bind [x] [a]) (.var x) a from rfl) .nil)
    have lc := lit n!"clear" (by decide) (by simp [IsType, HasType, eithTree, tree, a, b, table, tBox, tObj])
    have li := lit n!"inhand" (by decide) (by simp [IsType, HasType, eithTree, tree, a, b, table, tBox, tObj])
    simp only [Op.HoldsFor, eith1, eith2, Sat, Eff.Says, FList.Says, CList.Says, List.mem_cons, List.not_mem_nil, or_false,
      Prod.mk.injEq, li, false_implies, implies_true, and_true, true_and] at h1 h2
    have hc : clear a ∈ s := by
      by_cases hi : (⟨n!"inhand", [a.name]⟩ : Atom) ∈ s
      · exact lc.1 (h1 hi _ _ ⟨rfl, rfl⟩)
      · exact lc.1 (h2 hi _ _ ⟨rfl, rfl⟩)
    exact hno hc

end

end Symbolic
