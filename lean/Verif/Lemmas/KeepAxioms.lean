import Verif.Lemmas.OnePass
import Verif.Lemmas.Frame
import Verif.Spec.KeepAxioms

/-!
# Axioms after an action
-/

namespace Symbolic

section
variable {objects : List Obj} {S T : Atom → Prop}

theorem bind_total {n : Name} : ∀ (vs os : List Obj) (env : Env), vs.length = os.length →
    (∃ o, env n = some o) ∨ n ∈ vs.map Obj.name → ∃ o, env.bind vs os n = some o
  | [], _, env, _, h => by
    rcases h with h | h
    · simpa [Env.bind] using h
    · simp at h
  | v :: vs, [], _, hl, _ => by simp at hl
  | v :: vs, o :: os, env, hl, h => by
    refine bind_total vs os _ (by simpa using hl) ?_
    by_cases e : n = v.name
    · exact .inl ⟨o, by simp [Env.set, e]⟩
    · rcases h with ⟨o', h⟩ | h
      · exact .inl ⟨o', by simp [Env.set, e, h]⟩
      · simp only [List.map_cons, List.mem_cons, e, false_or] at h
        exact .inr h

theorem denotes_total {env : Env} {scope : List Name} (he : ∀ n ∈ scope, ∃ o, env n = some o) :
    ∀ {ts : List Term}, (∀ t ∈ ts, t.Scoped scope) → ∃ os, List.Forall₂ (Denotes env) ts os
  | [], _ => ⟨[], .nil⟩
  | t :: ts, h => by
    obtain ⟨os, hos⟩ := denotes_total he (ts := ts) fun t ht => h t (by simp [ht])
    have ht := h t (by simp)
    cases t with
    | var v =>
      obtain ⟨o, ho⟩ := he v.name ht
      exact ⟨o :: os, .cons ho hos⟩
    | const c => exact ⟨c :: os, .cons rfl hos⟩

mutual
/-- The converse of `makes_says`. -/
theorem says_of_makes : ∀ (e : Eff) (scope : List Name) (env : Env), e.WF objects scope →
    (∀ n ∈ scope, ∃ o, env n = some o) → (∀ sign x, Makes objects S sign env e x → Is S sign x) → e.Says objects S env
  | .mk fs adds dels cs, scope, env, hf, he, h => by
    simp only [Eff.WF] at hf
    simp only [Makes] at h
    simp only [Eff.Says]
    refine ⟨saysF_of_makes fs scope env hf.1 he fun sign x hx => h sign x (.inl hx), fun pred ts hm => ?_, fun pred ts hm hs => ?_,
      saysC_of_makes cs scope env hf.2.2.2 he fun sign x hx => h sign x (.inr (.inr (.inr hx)))⟩
    · obtain ⟨h1, h2, h3⟩ := hf.2.1 _ _ hm
      obtain ⟨os, hd⟩ := denotes_total he h1
      exact (satAtom_lit h2 h3 hd).2 ((h true _ (.inr (.inl ⟨rfl, pred, ts, os, hm, hd, rfl⟩))).2 rfl)
    · obtain ⟨h1, h2, h3⟩ := hf.2.2.1 _ _ hm
      obtain ⟨os, hd⟩ := denotes_total he h1
      have := (h false _ (.inr (.inr (.inl ⟨rfl, pred, ts, os, hm, hd, rfl⟩)))).1 ((satAtom_lit h2 h3 hd).1 hs)
      simp at this
theorem saysF_of_makes : ∀ (e : FList) (scope : List Name) (env : Env), e.WF objects scope →
    (∀ n ∈ scope, ∃ o, env n = some o) → (∀ sign x, MakesF objects S sign env e x → Is S sign x) → e.Says objects S env
  | .nil, _, _, _, _, _ => by simp only [FList.Says]
  | .cons vars e rest, scope, env, hf, he, h => by
    simp only [FList.WF] at hf
    simp only [MakesF] at h
    simp only [FList.Says]
    refine ⟨fun os hw => says_of_makes e _ _ hf.2.1 (fun n hn => ?_) fun sign x hx => h sign x (.inl ⟨os, hw, hx⟩),
      saysF_of_makes rest scope env hf.2.2 he fun sign x hx => h sign x (.inr hx)⟩
    exact bind_total vars os env hw.length ((List.mem_append.1 hn).imp (he n) id)
theorem saysC_of_makes : ∀ (e : CList) (scope : List Name) (env : Env), e.WF objects scope →
    (∀ n ∈ scope, ∃ o, env n = some o) → (∀ sign x, MakesC objects S sign env e x → Is S sign x) → e.Says objects S env
  | .nil, _, _, _, _, _ => by simp only [CList.Says]
  | .cons g e rest, scope, env, hf, he, h => by
    simp only [CList.WF] at hf
    simp only [MakesC] at h
    simp only [CList.Says]
    exact ⟨fun hg => says_of_makes e _ _ hf.2.1 he fun sign x hx => h sign x (.inl ⟨hg, hx⟩),
      saysC_of_makes rest scope env hf.2.2 he fun sign x hx => h sign x (.inr hx)⟩
end

/-- An axiom holds for arguments iff its implications are so. -/
theorem holdsFor_iff {op : Op} (hf : op.eff.WF objects (op.params.map Obj.name)) {os : List Obj}
    (hw : WellTyped objects op.params os) : op.HoldsFor objects S os ↔
      (Sat objects S (Env.none.bind op.params os) op.pre →
        ∀ sign y, Makes objects S sign (Env.none.bind op.params os) op.eff y → Is S sign y) :=
  ⟨fun h hs sign y hy => makes_says op.eff _ _ y hf (h hs) hy, fun h hs => says_of_makes op.eff _ _ hf
    (fun _ hn => bind_total _ _ _ hw.length (.inr hn)) (h hs)⟩

/-- Axioms hold in states that agree on what they are about. -/
theorem holdsFor_agree {op : Op} (hf : op.eff.WF objects (op.params.map Obj.name)) {os : List Obj}
    (hw : WellTyped objects op.params os)
    (h : ∀ x : Atom, ((∃ n, op.pre.Mentions x.pred n) ∨ (∃ sign, op.eff.Touches sign x.pred) ∨ op.eff.Reads x.pred) → (S x ↔ T x)) :
    op.HoldsFor objects S os ↔ op.HoldsFor objects T os := by
  rw [holdsFor_iff hf hw, holdsFor_iff hf hw, sat_congr fun x hx => h x (.inl hx)]
  refine imp_congr_right fun _ => forall_congr' fun sign => forall_congr' fun y => ?_
  rw [makes_agree op.eff _ y fun x hx => h x (.inr (.inr hx))]
  refine imp_congr_right fun hy => ?_
  rw [Is, Is, h y (.inr (.inl ⟨sign, touches_of_makes _ _ _ _ _ _ hy⟩))]

end

variable [StrHash] {t : Ptree} {P : Pddl} {up : Name → List Name}

/-- The axioms after an action. -/
theorem Pddl.Built.keeps_axioms (B : P.Built t) (ht : t.TypeChecked up) (hp : t.PlainEffects) {op : Op} {args : List Obj}
    {s s' : State} (hread : t.NotRead op (t.CausesIn (· ∈ s) op args)) (hno : NoConflict (t.CausesIn (· ∈ s) op args))
    (hm : ∀ x, x ∈ s' ↔ t.CausesIn (· ∈ s) op args true x ∨ (x ∈ s ∧ ¬ t.CausesIn (· ∈ s) op args false x))
    (hA : AxiomsHold (t.constants ++ t.objects) t.ops (· ∈ s)) :
    AxiomsHold (t.constants ++ t.objects) t.ops (· ∈ s') ↔ ¬ t.Contradicted (· ∈ s') (t.CausesIn (· ∈ s) op args) := by
  have hres : ∀ sign y, Is (· ∈ s') sign y ↔ t.CausesIn (· ∈ s) op args sign y ∨
      (Is (· ∈ s) sign y ∧ ¬ t.CausesIn (· ∈ s) op args (!sign) y) := by
    intro sign y
    have hno := hno y
    cases sign
    · simp only [Is, hm, Bool.not_false, Bool.false_eq_true, iff_false]
      tauto
    · simp only [Is, hm, Bool.not_true, iff_true]
  have hagree : ∀ ax ∈ t.ops, ax.isAxiom = true → ∀ y : Atom, ax.eff.Reads y.pred → (y ∈ s ↔ y ∈ s') := by
    intro ax hax haa y hr
    have n1 := fun sign hc => (hread sign y hc).2 ax hax haa hr
    rw [hm]
    exact ⟨fun hy => .inr ⟨hy, n1 _⟩, fun hy => (hy.resolve_left (n1 _)).1⟩
  have opp : ∀ sign y, Is (· ∈ s') sign y → ¬ Is (· ∈ s') (!sign) y := by
    intro sign y h1 h2
    cases sign
    · simp only [Is, Bool.not_false, Bool.false_eq_true, iff_false, iff_true] at h1 h2
      exact h1 h2
    · simp only [Is, Bool.not_true, Bool.false_eq_true, iff_false, iff_true] at h1 h2
      exact h2 h1
  constructor
  · rintro h ⟨ax, hax, haa, as, hw, hs, sign, y, hy, hc⟩
    exact opp sign y (makes_says ax.eff _ _ y (hp ax hax) (h ax hax haa as hw hs) hy) ((hres _ _).2 (.inl hc))
  · intro h ax hax haa as hw
    rw [holdsFor_iff (hp ax hax) hw]
    intro hs sign y hy
    have hy' := (makes_agree (S := (· ∈ s)) ax.eff _ y (hagree ax hax haa)).2 hy
    by_cases hold : Sat (t.constants ++ t.objects) (· ∈ s) (Env.none.bind ax.params as) ax.pre
    · exact (hres _ _).2 (.inr ⟨makes_says ax.eff _ _ y (hp ax hax) (hA ax hax haa as hw hold) hy',
        fun hc => h ⟨ax, hax, haa, as, hw, hs, sign, y, hy, hc⟩⟩)
    · obtain ⟨pred, cargs, hctx⟩ := B.contexts ax hax haa
      obtain ⟨-, hwf, -, -⟩ := (ht.ops ax hax).axiom_ haa
      obtain ⟨x, hx, h1, h2⟩ := context_new hctx hwf hw hs hold
      exact (hres _ _).2 (.inl (.triggered hax haa (((hres _ _).1 h1).resolve_right fun h => h2 h.1) h2 hx hy'))

/-- Nothing is contradicted where operators and axioms do not undo each other. -/
theorem Ptree.NoContradictions.causes (_ : t.NoContradictions) {S : Atom → Prop} {so : Bool → Atom → Prop} {op : Op}
    {args : List Obj} {sign : Bool} {x : Atom} (h : t.Causes S so op args sign x) :
    op.eff.Touches sign x.pred ∨ AxiomTouches t.ops sign x.pred := by
  cases h with
  | own h => exact .inl (touches_of_makes _ _ _ _ _ _ h)
  | triggered h1 h2 _ _ _ h => exact .inr ⟨_, h1, h2, touches_of_makes _ _ _ _ _ _ h⟩

/-- Applying an operator keeps the axioms. -/
theorem Ptree.NoContradictions.apply (hN : t.NoContradictions) (B : P.Built t) (ht : t.TypeChecked up) (hp : t.PlainEffects)
    {op : Op} (ho : op ∈ t.ops) {args : List Obj} (hw : WellTyped (t.constants ++ t.objects) op.params args) {s : State}
    (hA : AxiomsHold (t.constants ++ t.objects) t.ops (· ∈ s)) {fuel k : Nat} {s' : State}
    (h : op.apply P.omap P.axioms fuel args s = .ok (k, s')) : AxiomsHold (t.constants ++ t.objects) t.ops (· ∈ s') := by
  have touch : ∀ sign x, t.CausesIn (· ∈ s) op args sign x → ¬ AxiomTouches t.ops (!sign) x.pred := by
    intro sign x hx
    rcases hN.causes hx with h | ⟨ax, h1, h2, h⟩
    · exact hN.axioms op ho _ _ h
    · exact hN.axioms ax h1 _ _ h
  have hno : NoConflict (t.CausesIn (· ∈ s) op args) := by
    intro x h1 h2
    rcases hN.causes h1 with h | h
    · rcases hN.causes h2 with h' | h'
      · exact hN.own op ho _ h h'
      · exact touch _ _ h1 h'
    · exact touch _ _ h2 h
  have hread : t.NotRead op (t.CausesIn (· ∈ s) op args) := by
    intro sign x hx
    constructor
    · intro hr
      rcases hN.causes hx with h | h
      · exact (hN.conds op ho _ hr sign).1 h
      · exact (hN.conds op ho _ hr sign).2 h
    · intro ax hax haa hr
      rcases hN.causes hx with h | h
      · exact hN.reads ax hax haa _ hr op ho sign h
      · exact (hN.conds ax hax _ hr sign).2 h
  obtain ⟨k', s₁, e, hm, -⟩ := B.cascade_state ht hp ho hw hno hread (Nat.le_max_right fuel _)
  rw [Op.apply_mono P.omap P.axioms op args s (Nat.le_max_left fuel _) (by rw [h]; simp), h, Res.ok.injEq, Prod.mk.injEq] at e
  obtain ⟨-, rfl⟩ := e
  refine (B.keeps_axioms ht hp hread hno hm hA).2 ?_
  rintro ⟨ax, hax, haa, as, -, -, sign, y, hy, hc⟩
  have := touch _ _ hc
  rw [Bool.not_not] at this
  exact this ⟨ax, hax, haa, touches_of_makes _ _ _ _ _ _ hy⟩

/-- Derived predicates do not change whether axioms hold. -/
theorem axiomsHold_derived (B : P.Built t) (hp : t.PlainEffects) (hd : t.AxiomsUnderived) {fuel k : Nat} {s : State}
    {r : Bool × State} (h : drvsFix P.omap fuel P.drvs k s = .ok r) :
    AxiomsHold (t.constants ++ t.objects) t.ops (· ∈ r.2) ↔ AxiomsHold (t.constants ++ t.objects) t.ops (· ∈ s) := by
  rw [B.omap] at h
  have hw := drvsFix_within h
  rw [Pddl.drvs, B.tree] at hw
  refine forall_congr' fun ax => forall_congr' fun hax => forall_congr' fun haa => forall_congr' fun os => forall_congr' fun hos => ?_
  refine holdsFor_agree (hp ax hax) hos fun x hx => ?_
  have hnd : ∀ sign, ¬ DerivedAtom (t.constants ++ t.objects) t.drvs sign x := by
    rintro sign ⟨d, hm, os, -, rfl⟩
    exact hd ax hax haa _ hx ⟨d, hm, rfl⟩
  constructor
  · intro hr
    by_contra hs
    exact hnd _ ((hw x).1 hr hs)
  · intro hs
    by_contra hr
    exact hnd _ ((hw x).2 hs hr)

end Symbolic
