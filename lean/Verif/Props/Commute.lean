import Verif.Lemmas.Commute
import Verif.Props.KeepAxioms
import Verif.Props.Twice

/-!
# C99: actions that do not interfere can be swapped
-/

namespace Symbolic

section
variable [StrHash] {t : Ptree} {P : Pddl}

/-- One action after an independent one. -/
theorem apply_after {b : Bool} {n : Nat} (hP : Pddl.make t b n = .ok P) {up : Name → List Name} (ht : t.TypeChecked up)
    (hp : t.PlainEffects) : ∃ N, ∀ op₁ ∈ t.ops, ∀ args₁, WellTyped (t.constants ++ t.objects) op₁.params args₁ →
      ∀ op₂ ∈ t.ops, ∀ args₂, WellTyped (t.constants ++ t.objects) op₂.params args₂ → ∀ s : State,
      t.Independent op₁ op₂ (t.CausesIn (· ∈ s) op₁ args₁) (t.CausesIn (· ∈ s) op₂ args₂) → ∀ fuel, N ≤ fuel →
      ∃ i s₁ j r, op₁.apply P.omap P.axioms fuel args₁ s = .ok (i, s₁) ∧ op₂.apply P.omap P.axioms fuel args₂ s₁ = .ok (j, r) ∧
        (∀ x, x ∈ s₁ ↔ After (· ∈ s) (t.CausesIn (· ∈ s) op₁ args₁) x) ∧
        (∀ sign x, Either (t.CausesIn (· ∈ s) op₁ args₁) (t.CausesIn (· ∈ s₁) op₂ args₂) sign x ↔
          Either (t.CausesIn (· ∈ s) op₁ args₁) (t.CausesIn (· ∈ s) op₂ args₂) sign x) ∧
        ∀ x, x ∈ r ↔ After (· ∈ s) (Either (t.CausesIn (· ∈ s) op₁ args₁) (t.CausesIn (· ∈ s) op₂ args₂)) x := by
  obtain ⟨N, h⟩ := C89_state_partial b n hP up ht hp
  refine ⟨N, fun op₁ ho₁ args₁ hw₁ op₂ ho₂ args₂ hw₂ s hI fuel hn => ?_⟩
  have hno₁ : NoConflict (t.CausesIn (· ∈ s) op₁ args₁) := fun x a b => hI.free x (.inl a) (.inl b)
  obtain ⟨i, s₁, e₁, hm₁, -⟩ := h op₁ ho₁ args₁ hw₁ s hno₁ (fun sign x hx => hI.read₁ sign x (.inl hx)) fuel hn
  have hs₁ : (· ∈ s₁) = After (· ∈ s) (t.CausesIn (· ∈ s) op₁ args₁) := funext fun x => propext (hm₁ x)
  have key : ∀ sign x, Either (t.CausesIn (· ∈ s) op₁ args₁) (t.CausesIn (· ∈ s₁) op₂ args₂) sign x ↔
      Either (t.CausesIn (· ∈ s) op₁ args₁) (t.CausesIn (· ∈ s) op₂ args₂) sign x := by
    rw [hs₁]
    refine causes_after (fun y hr => after_same fun sign hc => (hI.read₂ sign y (.inl hc)).1 hr)
      (fun ax hax ha y hr => after_same fun sign hc => (hI.read₁ sign y (.inl hc)).2 ax hax ha hr)
      (fun sign y => after_is hno₁) (fun sign y => after_back) (fun sign y => after_keep) (fun sign y h1 h2 => ?_)
    cases sign
    · exact hI.free y (.inl h1) (.inr h2)
    · exact hI.free y (.inr h2) (.inl h1)
  obtain ⟨j, r, e₂, hm₂, -⟩ := h op₂ ho₂ args₂ hw₂ s₁
    (fun x a b => hI.free x ((key _ _).1 (.inr a)) ((key _ _).1 (.inr b)))
    (fun sign x hx => hI.read₂ sign x ((key _ _).1 (.inr hx))) fuel hn
  refine ⟨i, s₁, j, r, e₁, e₂, hm₁, key, fun x => ?_⟩
  rw [← after_after hI.free key, ← hs₁]
  exact hm₂ x

/-- **C99, partial.** In a domain that passes the type checker: if nothing one of two actions causes, through its effects and
the axioms it triggers, is the opposite of something one of them causes or is read by conditions of effects, then applying them
in either order leads to the same State, which has exactly the atoms that one of them causes to be true, and those that were
there and none of them causes to be false.

Missing for the full claim: actions with conflicting effects, see `C99_refuted`. -/
theorem C99_state_partial (b : Bool) (n : Nat) (hP : Pddl.make t b n = .ok P) (up : Name → List Name) (ht : t.TypeChecked up)
    (hp : t.PlainEffects) : ∃ N, ∀ op₁ ∈ t.ops, ∀ args₁, WellTyped (t.constants ++ t.objects) op₁.params args₁ →
      ∀ op₂ ∈ t.ops, ∀ args₂, WellTyped (t.constants ++ t.objects) op₂.params args₂ → ∀ s : State,
      t.Independent op₁ op₂ (t.CausesIn (· ∈ s) op₁ args₁) (t.CausesIn (· ∈ s) op₂ args₂) → ∀ fuel, N ≤ fuel →
      ∃ s₁ s₂ r i₁ i₂ j₁ j₂, op₁.apply P.omap P.axioms fuel args₁ s = .ok (i₁, s₁) ∧
        op₂.apply P.omap P.axioms fuel args₂ s₁ = .ok (j₁, r) ∧
        op₂.apply P.omap P.axioms fuel args₂ s = .ok (i₂, s₂) ∧ op₁.apply P.omap P.axioms fuel args₁ s₂ = .ok (j₂, r) ∧
        ∀ x, x ∈ r ↔ (t.CausesIn (· ∈ s) op₁ args₁ true x ∨ t.CausesIn (· ∈ s) op₂ args₂ true x) ∨
          (x ∈ s ∧ ¬ (t.CausesIn (· ∈ s) op₁ args₁ false x ∨ t.CausesIn (· ∈ s) op₂ args₂ false x)) := by
  obtain ⟨N, h⟩ := apply_after hP ht hp
  refine ⟨N, fun op₁ ho₁ args₁ hw₁ op₂ ho₂ args₂ hw₂ s hI fuel hn => ?_⟩
  obtain ⟨i₁, s₁, j₁, r, e1, e2, -, -, hr⟩ := h op₁ ho₁ args₁ hw₁ op₂ ho₂ args₂ hw₂ s hI fuel hn
  obtain ⟨i₂, s₂, j₂, r', e3, e4, -, -, hr'⟩ := h op₂ ho₂ args₂ hw₂ op₁ ho₁ args₁ hw₁ s hI.symm fuel hn
  have : r' = r := State.ext fun x => by
    rw [hr, hr']
    simp only [After, Either, or_comm]
  subst this
  exact ⟨s₁, s₂, r', i₁, i₂, j₁, j₂, e1, e2, e3, e4, hr⟩

/-- One action after an independent one, on a PartialState. -/
theorem apply_after_partial {b : Bool} {n : Nat} (hP : Pddl.make t b n = .ok P) {up : Name → List Name} (ht : t.TypeChecked up)
    (hp : t.PlainEffects) : ∃ N, ∀ op₁ ∈ t.ops, t.AllCondsClosed op₁ → ∀ args₁,
      WellTyped (t.constants ++ t.objects) op₁.params args₁ → ∀ op₂ ∈ t.ops, t.AllCondsClosed op₂ → ∀ args₂,
      WellTyped (t.constants ++ t.objects) op₂.params args₂ → ∀ K : PartialState, (∀ x ∈ K.pos, x ∉ K.neg) →
      Knows (t.constants ++ t.objects) (· ∈ K.pos) (· ∈ K.neg) (t.MayAsk op₁) →
      Knows (t.constants ++ t.objects) (· ∈ K.pos) (· ∈ K.neg) (t.MayAsk op₂) →
      ∀ W V, W = t.Causes (· ∈ K.pos) (Known (· ∈ K.pos) (· ∈ K.neg)) op₁ args₁ →
      V = t.Causes (· ∈ K.pos) (Known (· ∈ K.pos) (· ∈ K.neg)) op₂ args₂ → t.Independent op₁ op₂ W V → ∀ fuel, N ≤ fuel →
      ∃ i K₁ j R, op₁.apply P.omap P.axioms fuel args₁ K = .ok (i, K₁) ∧ op₂.apply P.omap P.axioms fuel args₂ K₁ = .ok (j, R) ∧
        (∀ x, x ∈ R.pos ↔ (W true x ∨ V true x) ∨ (x ∈ K.pos ∧ ¬ (W false x ∨ V false x))) ∧
        ∀ x, x ∈ R.neg ↔ (W false x ∨ V false x) ∨ (x ∈ K.neg ∧ ¬ (W true x ∨ V true x)) := by
  obtain ⟨N, h⟩ := C89_partial_state_partial b n hP up ht hp
  refine ⟨N, fun op₁ ho₁ hcl₁ args₁ hw₁ op₂ ho₂ hcl₂ args₂ hw₂ K hcons hk₁ hk₂ W V hW hV hI fuel hn => ?_⟩
  have hno₁ : NoConflict W := fun x a b => hI.free x (.inl a) (.inl b)
  obtain ⟨i, K₁, e₁, hcons₁, hpos₁, hneg₁, -⟩ := h op₁ ho₁ hcl₁ args₁ hw₁ K hcons hk₁ W hW hno₁
    (fun sign x hx => hI.read₁ sign x (.inl hx)) fuel hn
  have A : KnownAfter (· ∈ K.pos) (· ∈ K.neg) (· ∈ K₁.pos) (· ∈ K₁.neg) W := ⟨hcons, hcons₁, hpos₁, hneg₁⟩
  have key : ∀ sign x, Either W (t.Causes (· ∈ K₁.pos) (Known (· ∈ K₁.pos) (· ∈ K₁.neg)) op₂ args₂) sign x ↔
      Either W V sign x := by
    rw [hV]
    rw [hW] at A ⊢
    refine causes_after (fun y hr => A.same fun sign hc => (hI.read₂ sign y (.inl (hW ▸ hc))).1 hr)
      (fun ax hax ha y hr => A.same fun sign hc => (hI.read₁ sign y (.inl (hW ▸ hc))).2 ax hax ha hr)
      (fun sign y => A.known) (fun sign y => A.back) (fun sign y => A.keep) (fun sign y h1 h2 => ?_)
    rw [← hW] at h1
    rw [← hV] at h2
    cases sign
    · exact hI.free y (.inl h1) (.inr h2)
    · exact hI.free y (.inr h2) (.inl h1)
  obtain ⟨j, R, e₂, -, hpos₂, hneg₂, -⟩ := h op₂ ho₂ hcl₂ args₂ hw₂ K₁ hcons₁
    (A.knows (fun sign x hx => hI.read₂ sign x (.inl hx)) hk₂) _ rfl
    (fun x a b => hI.free x ((key _ _).1 (.inr a)) ((key _ _).1 (.inr b)))
    (fun sign x hx => hI.read₂ sign x ((key _ _).1 (.inr hx))) fuel hn
  refine ⟨i, K₁, j, R, e₁, e₂, fun x => ?_, fun x => ?_⟩
  · rw [hpos₂, hpos₁]
    exact prop_after (key true x) (key false x) (hI.free x)
  · rw [hneg₂, hneg₁]
    exact prop_after (key false x) (key true x) (fun a b => hI.free x b a)

/-- **C99, PartialStates, partial.** The same for a PartialState that does not contradict itself and knows all atoms that
conditions of effects mention. -/
theorem C99_partial_state_partial (b : Bool) (n : Nat) (hP : Pddl.make t b n = .ok P) (up : Name → List Name)
    (ht : t.TypeChecked up) (hp : t.PlainEffects) : ∃ N, ∀ op₁ ∈ t.ops, t.AllCondsClosed op₁ → ∀ args₁,
      WellTyped (t.constants ++ t.objects) op₁.params args₁ → ∀ op₂ ∈ t.ops, t.AllCondsClosed op₂ → ∀ args₂,
      WellTyped (t.constants ++ t.objects) op₂.params args₂ → ∀ K : PartialState, (∀ x ∈ K.pos, x ∉ K.neg) →
      Knows (t.constants ++ t.objects) (· ∈ K.pos) (· ∈ K.neg) (t.MayAsk op₁) →
      Knows (t.constants ++ t.objects) (· ∈ K.pos) (· ∈ K.neg) (t.MayAsk op₂) →
      ∀ W V, W = t.Causes (· ∈ K.pos) (Known (· ∈ K.pos) (· ∈ K.neg)) op₁ args₁ →
      V = t.Causes (· ∈ K.pos) (Known (· ∈ K.pos) (· ∈ K.neg)) op₂ args₂ → t.Independent op₁ op₂ W V → ∀ fuel, N ≤ fuel →
      ∃ K₁ K₂ R i₁ i₂ j₁ j₂, op₁.apply P.omap P.axioms fuel args₁ K = .ok (i₁, K₁) ∧
        op₂.apply P.omap P.axioms fuel args₂ K₁ = .ok (j₁, R) ∧
        op₂.apply P.omap P.axioms fuel args₂ K = .ok (i₂, K₂) ∧ op₁.apply P.omap P.axioms fuel args₁ K₂ = .ok (j₂, R) ∧
        (∀ x, x ∈ R.pos ↔ (W true x ∨ V true x) ∨ (x ∈ K.pos ∧ ¬ (W false x ∨ V false x))) ∧
        ∀ x, x ∈ R.neg ↔ (W false x ∨ V false x) ∨ (x ∈ K.neg ∧ ¬ (W true x ∨ V true x)) := by
  obtain ⟨N, h⟩ := apply_after_partial hP ht hp
  refine ⟨N, fun op₁ ho₁ hcl₁ args₁ hw₁ op₂ ho₂ hcl₂ args₂ hw₂ K hcons hk₁ hk₂ W V hW hV hI fuel hn => ?_⟩
  obtain ⟨i₁, K₁, j₁, R, e1, e2, hp1, hn1⟩ := h op₁ ho₁ hcl₁ args₁ hw₁ op₂ ho₂ hcl₂ args₂ hw₂ K hcons hk₁ hk₂ W V hW hV hI fuel hn
  obtain ⟨i₂, K₂, j₂, R', e3, e4, hp2, hn2⟩ := h op₂ ho₂ hcl₂ args₂ hw₂ op₁ ho₁ hcl₁ args₁ hw₁ K hcons hk₂ hk₁ V W hV hW hI.symm
    fuel hn
  have : R' = R := by
    have a1 : R'.pos = R.pos := State.ext fun x => by simp only [hp1, hp2, or_comm]
    have a2 : R'.neg = R.neg := State.ext fun x => by simp only [hn1, hn2, or_comm]
    cases R; cases R'
    simp only at a1 a2
    rw [a1, a2]
  subst this
  exact ⟨K₁, K₂, R', i₁, i₂, j₁, j₂, e1, e2, e3, e4, hp1, hn1⟩

/-- **C99, partial.** `IsValid` of an action answers the same after another one, if preconditions are not about what that one
causes. -/
theorem C99_valid_partial (b : Bool) (n : Nat) (hP : Pddl.make t b n = .ok P) (up : Name → List Name) (ht : t.TypeChecked up)
    (hp : t.PlainEffects) : ∃ N, ∀ op₁ ∈ t.ops, ∀ args₁, WellTyped (t.constants ++ t.objects) op₁.params args₁ → ∀ s : State,
      NoConflict (t.CausesIn (· ∈ s) op₁ args₁) → t.NotRead op₁ (t.CausesIn (· ∈ s) op₁ args₁) → ∀ fuel, N ≤ fuel →
      ∃ k s', op₁.apply P.omap P.axioms fuel args₁ s = .ok (k, s') ∧ ∀ op₂ ∈ t.ops,
        op₂.pre.WF (t.constants ++ t.objects) (op₂.params.map Obj.name) →
        ∀ args₂, op₂.params.length = args₂.length →
        (∀ sign x, t.CausesIn (· ∈ s) op₁ args₁ sign x →
          ¬ op₂.pre.About (t.constants ++ t.objects) (Env.none.bind op₂.params args₂) x) → op₂.isValid P.omap s' args₂ = op₂.isValid P.omap s args₂ := by
  obtain ⟨N, h⟩ := C89_state_partial b n hP up ht hp
  refine ⟨N, fun op₁ ho₁ args₁ hw₁ s h1 h2 fuel hn => ?_⟩
  obtain ⟨k, s', e, hm, -⟩ := h op₁ ho₁ args₁ hw₁ s h1 h2 fuel hn
  refine ⟨k, s', e, fun op₂ ho₂ hwf args₂ hlen hno => ?_⟩
  rw [Op.isValid, Op.isValid, (Pddl.built hP).omap]
  obtain ⟨v, hv, hs⟩ := eval_sat (t.constants ++ t.objects) s op₂.pre op₂.params args₂ hlen hwf
  obtain ⟨v', hv', hs'⟩ := eval_sat (t.constants ++ t.objects) s' op₂.pre op₂.params args₂ hlen hwf
  rw [hv, hv', Res.ok.injEq, Bool.eq_iff_iff, hs, hs']
  refine (sat_about _ _ fun x hx => ?_).symm
  rw [hm]
  exact after_same fun sign hc => hno sign x hc hx

/-- **C99, partial.** `ApplyActions` with two such actions in either order, with derived predicates computed after each one,
for rules that are not recursive and about which the effects say nothing. -/
theorem C99_plans_partial (b : Bool) (n : Nat) (hP : Pddl.make t b n = .ok P) (up : Name → List Name) (ht : t.TypeChecked up)
    (hp : t.PlainEffects) (hu : t.EffectsUnderived) (hwf : ∀ d ∈ t.drvs, d.WF (t.constants ++ t.objects)) (rank : Name → Nat)
    (ha : Acyclic rank t.drvs) (call₁ call₂ : Name) (op₁ op₂ : Op) (args₁ args₂ : List Obj)
    (h1 : P.parseAction call₁ = .ok (op₁, args₁)) (h2 : P.parseAction call₂ = .ok (op₂, args₂)) (s : State)
    (hI : t.Independent op₁ op₂ (t.CausesIn (· ∈ s) op₁ args₁) (t.CausesIn (· ∈ s) op₂ args₂)) (fuel fuel' : Nat) (r r' : State)
    (h : P.applyActions fuel s [call₁, call₂] = .ok r) (h' : P.applyActions fuel' s [call₂, call₁] = .ok r') : r = r' := by
  have B := Pddl.built hP
  obtain ⟨N, hN⟩ := apply_after hP ht hp
  -- both actions, from the State before derived predicates are computed
  have one : ∀ {call₁ call₂ : Name} {op₁ op₂ : Op} {args₁ args₂ : List Obj}, P.parseAction call₁ = .ok (op₁, args₁) →
      P.parseAction call₂ = .ok (op₂, args₂) →
      t.Independent op₁ op₂ (t.CausesIn (· ∈ s) op₁ args₁) (t.CausesIn (· ∈ s) op₂ args₂) → ∀ {fuel : Nat} {r : State},
      P.applyActions fuel s [call₁, call₂] = .ok r → ∃ m, P.derivedState fuel m = .ok r ∧
        ∀ x : Atom, ¬ IsDerived (t.constants ++ t.objects) t.drvs x →
          (x ∈ m ↔ After (· ∈ s) (Either (t.CausesIn (· ∈ s) op₁ args₁) (t.CausesIn (· ∈ s) op₂ args₂)) x) := by
    intro call₁ call₂ op₁ op₂ args₁ args₂ h1 h2 hI fuel r h
    simp only [Pddl.applyActions, h1, h2, Res.bind_ok, Pddl.applyOp, Res.bind_eq_ok, Res.pure_eq, Res.ok.injEq] at h
    obtain ⟨_, ⟨⟨k₁, m₁⟩, e1, q₁, d1, rfl⟩, _, ⟨⟨k₂, m₂⟩, e2, q₂, d2, rfl⟩, rfl⟩ := h
    obtain ⟨ho₁, hw₁⟩ := parseAction_ok h1
    obtain ⟨ho₂, hw₂⟩ := parseAction_ok h2
    simp only [Pddl.symbols, B.tree] at ho₁ hw₁ ho₂ hw₂
    obtain ⟨i, s₁, j, r, a1, a2, hm₁, key, hr⟩ := hN op₁ ho₁ args₁ hw₁ op₂ ho₂ args₂ hw₂ s hI (max fuel N) (Nat.le_max_right _ _)
    rw [Op.apply_mono P.omap P.axioms op₁ args₁ s (Nat.le_max_left fuel _) (by rw [e1]; simp), e1, Res.ok.injEq, Prod.mk.injEq] at a1
    obtain ⟨-, rfl⟩ := a1
    have hbase : ∀ y : Atom, ¬ IsDerived (t.constants ++ t.objects) t.drvs y → (y ∈ m₁ ↔ y ∈ q₁.2) := fun y hy =>
      ((C28_derived_state_is_fixpoint t b n P hP hwf m₁ q₁.2 fuel
        (by simp only [Pddl.derivedState, d1, Res.bind_ok, Res.pure_eq])).2.1 y hy).symm
    have hU : ∀ y : Atom, ¬ IsHead t.drvs y.pred → (y ∈ m₁ ↔ y ∈ q₁.2) := by
      refine fun y hy => hbase y ?_
      rintro ⟨d, hd, os, -, rfl⟩
      exact hy ⟨d, hd, rfl⟩
    have hIs : ∀ sign (y : Atom), ¬ IsHead t.drvs y.pred → (Is (· ∈ m₁) sign y ↔ Is (· ∈ q₁.2) sign y) := by
      intro sign y hy
      simp only [Is, hU y hy]
    have same : ∀ sign x, t.CausesIn (· ∈ q₁.2) op₂ args₂ sign x ↔ t.CausesIn (· ∈ m₁) op₂ args₂ sign x := fun sign x =>
      ⟨fun h => (causes_congr hu ho₂ (fun y hy => (hU y hy).symm) (fun sign y hy => (hIs sign y hy).symm) h).1,
        fun h => (causes_congr hu ho₂ hU hIs h).1⟩
    obtain ⟨M, hM⟩ := C89_state_partial b n hP up ht hp
    obtain ⟨k, m, e3, hm, -⟩ := hM op₂ ho₂ args₂ hw₂ q₁.2
      (fun x a b => hI.free x ((key _ _).1 (.inr ((same _ _).1 a))) ((key _ _).1 (.inr ((same _ _).1 b))))
      (fun sign x hx => hI.read₂ sign x ((key _ _).1 (.inr ((same _ _).1 hx)))) (max fuel M) (Nat.le_max_right _ _)
    rw [Op.apply_mono P.omap P.axioms op₂ args₂ q₁.2 (Nat.le_max_left fuel _) (by rw [e2]; simp), e2, Res.ok.injEq,
      Prod.mk.injEq] at e3
    obtain ⟨-, rfl⟩ := e3
    refine ⟨m₂, by simp only [Pddl.derivedState, d2, Res.bind_ok, Res.pure_eq], fun x hx => ?_⟩
    rw [← after_after hI.free key, hm x, same, same, ← hbase x hx, hm₁]
    rfl
  obtain ⟨m, d, hm⟩ := one h1 h2 hI h
  obtain ⟨m', d', hm'⟩ := one h2 h1 hI.symm h'
  refine C30_acyclic_depends_on_base_partial t b n P hP hwf rank ha m m' r r' (fun x hx => ?_) fuel fuel' d d'
  simp only [hm x hx, hm' x hx, After, Either, or_comm]

end

/-! ## Examples -/

section
open Demo
attribute [local instance] lenHash

/-- What `pick` causes in the demo domain. -/
theorem pick_preds {S : Atom → Prop} {so : Bool → Atom → Prop} {args : List Obj} {sign : Bool} {p : Atom}
    (h : tree.Causes S so pick args sign p) : (sign = true ∧ p.pred = n!"inhand") ∨ (sign = false ∧ p.pred = n!"on") := by
  induction h with
  | own h =>
    have := touches_of_makes _ _ _ _ _ _ h
    simp [pick, Eff.Touches, FList.Touches, CList.Touches, ListsPred] at this
    exact .inl this
  | @triggered ax as q sign p h1 h2 _ _ _ h6 _ =>
    have := touches_of_makes _ _ _ _ _ _ h6
    simp only [tree, List.mem_cons, List.not_mem_nil, or_false] at h1
    rcases h1 with rfl | rfl | rfl
    · simp [pick] at h2
    · simp [place] at h2
    · simp [held, Eff.Touches, FList.Touches, CList.Touches, ListsPred] at this
      exact .inr this

theorem picks_independent (S : Atom → Prop) (so : Bool → Atom → Prop) (as bs : List Obj) :
    tree.Independent pick pick (tree.Causes S so pick as) (tree.Causes S so pick bs) := by
  refine ⟨fun p h h' => ?_, pick_unread _, pick_unread _⟩
  have h1 : p.pred = n!"inhand" := by rcases h with h | h <;> simpa using pick_preds h
  have h2 : p.pred = n!"on" := by rcases h' with h | h <;> simpa using pick_preds h
  rw [h1] at h2
  exact absurd h2 (by decide)

theorem pick_typed_b : WellTyped (tree.constants ++ tree.objects) pick.params [b] := .cons ⟨by decide, .inr (by decide)⟩ .nil

/-- `pick(a)` and `pick(b)`, each of which triggers the axiom, in every State. -/
example : ∃ N, ∀ s : State, ∀ fuel, N ≤ fuel → ∃ s₁ s₂ r i₁ i₂ j₁ j₂,
    pick.apply P.omap P.axioms fuel [a] s = .ok (i₁, s₁) ∧ pick.apply P.omap P.axioms fuel [b] s₁ = .ok (j₁, r) ∧
    pick.apply P.omap P.axioms fuel [b] s = .ok (i₂, s₂) ∧ pick.apply P.omap P.axioms fuel [a] s₂ = .ok (j₂, r) := by
  obtain ⟨N, h⟩ := C99_state_partial true 5 P_made demoUp demo_checked demo_plain
  refine ⟨N, fun s fuel hn => ?_⟩
  obtain ⟨s₁, s₂, r, i₁, i₂, j₁, j₂, e1, e2, e3, e4, -⟩ := h pick (by simp [tree]) [a] pick_typed pick (by simp [tree]) [b]
    pick_typed_b s (picks_independent _ _ _ _) fuel hn
  exact ⟨s₁, s₂, r, i₁, i₂, j₁, j₂, e1, e2, e3, e4⟩

/-- And in every PartialState that does not contradict itself. -/
example : ∃ N, ∀ K : PartialState, (∀ x ∈ K.pos, x ∉ K.neg) → ∀ fuel, N ≤ fuel → ∃ K₁ K₂ R i₁ i₂ j₁ j₂,
    pick.apply P.omap P.axioms fuel [a] K = .ok (i₁, K₁) ∧ pick.apply P.omap P.axioms fuel [b] K₁ = .ok (j₁, R) ∧
    pick.apply P.omap P.axioms fuel [b] K = .ok (i₂, K₂) ∧ pick.apply P.omap P.axioms fuel [a] K₂ = .ok (j₂, R) := by
  obtain ⟨N, h⟩ := C99_partial_state_partial true 5 P_made demoUp demo_checked demo_plain
  refine ⟨N, fun K hcons fuel hn => ?_⟩
  obtain ⟨s₁, s₂, r, i₁, i₂, j₁, j₂, e1, e2, e3, e4, -⟩ := h pick (by simp [tree]) pick_closed [a] pick_typed pick (by simp [tree])
    pick_closed [b] pick_typed_b K hcons (pick_knows _ _) (pick_knows _ _) _ _ rfl rfl (picks_independent _ _ _ _) fuel hn
  exact ⟨s₁, s₂, r, i₁, i₂, j₁, j₂, e1, e2, e3, e4⟩

/-- `place(b, table)` is valid after `pick(a)` iff it was before. -/
example : ∃ N, ∀ s : State, ∀ fuel, N ≤ fuel → ∃ k s', pick.apply P.omap P.axioms fuel [a] s = .ok (k, s') ∧
    place.isValid P.omap s' [b, table] = place.isValid P.omap s [b, table] := by
  obtain ⟨N, h⟩ := C99_valid_partial true 5 P_made demoUp demo_checked demo_plain
  refine ⟨N, fun s fuel hn => ?_⟩
  obtain ⟨k, s', e, hv⟩ := h pick (by simp [tree]) [a] pick_typed s (pick_free _ _) (pick_unread _) fuel hn
  refine ⟨k, s', e, hv place (by simp [tree]) (demo_wellFormed.pre _ (by simp [tree])) [b, table] rfl fun sign q hq ha => ?_⟩
  simp only [place, Goal.About, Goal.AboutL, or_false] at ha
  rcases pick_causes hq with ⟨-, rfl⟩ | ⟨-, h1⟩
  · rcases ha with ⟨os, hd, he⟩ | ⟨os, hd, he⟩
    · obtain _ | ⟨h1, h2⟩ := hd
      cases h2
      have h1 : some b = some _ := h1
      cases h1
      exact absurd he (by decide)
    · simpa [inhand] using congrArg Atom.pred he
  · rcases ha with ⟨os, -, rfl⟩ | ⟨os, -, rfl⟩ <;> simp at h1

/-- `ApplyActions`, with the derived predicate `busy`. -/
example (s r r' : State) (h : P.applyActions 5 s [n!"pick(a)", n!"pick(b)"] = .ok r)
    (h' : P.applyActions 5 s [n!"pick(b)", n!"pick(a)"] = .ok r') : r = r' := by
  refine C99_plans_partial true 5 P_made demoUp demo_checked demo_plain ?_ ?_ (fun _ => 0) ?_ _ _ pick pick [a] [b] (by rfl)
    (by rfl) s (picks_independent _ _ _ _) 5 5 r r' h h'
  · rintro op hop p hp ⟨d, hd, rfl⟩
    simp only [tree, List.mem_cons, List.not_mem_nil, or_false] at hop hd
    subst hd
    rcases hop with rfl | rfl | rfl <;>
      simp [pick, place, held, busy, Eff.Touches, FList.Touches, CList.Touches, ListsPred, Eff.Reads, FList.Reads, CList.Reads] at hp
  · exact demo_wellFormed.drvs
  · intro d hd p n hm hh
    simp only [tree, List.mem_singleton] at hd
    subst hd
    obtain ⟨d', hd', rfl⟩ := hh
    simp only [tree, List.mem_singleton] at hd'
    subst hd'
    simp [busy, Goal.Mentions, Goal.MentionsL] at hm

/-- **C99, refuted** for effects in conflict: `unload(a)` deletes what the axiom triggered by `pick(a)` adds. -/
theorem C99_refuted : Pddl.make (loadTree [loads, unload]) true 5 = .ok unloadP ∧
    unloadP.applyActions 5 State.empty [n!"pick(a)", n!"unload(a)"] = .ok (State.ofList [inhand a]) ∧
    unloadP.applyActions 5 State.empty [n!"unload(a)", n!"pick(a)"] = .ok (State.ofList [inhand a, busyA a]) :=
  ⟨get_eq _ _, by decide +kernel, by decide +kernel⟩

end

end Symbolic
