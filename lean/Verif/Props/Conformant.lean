import Verif.Props.Commute
import Verif.Props.Formulas
import Verif.Props.Plans
import Verif.Props.Returns
import Verif.Spec.Conformant

/-!
# C101: plans that are valid on a PartialState are valid from every State that agrees with it
-/

namespace Symbolic

section
variable [StrHash] {t : Ptree} {P : Pddl}

/-- One action. -/
theorem safe_step {b : Bool} {n : Nat} (hP : Pddl.make t b n = .ok P) {up : Name → List Name} (ht : t.TypeChecked up)
    (hp : t.PlainEffects) : ∃ N, ∀ op ∈ t.ops, ∀ args, WellTyped (t.constants ++ t.objects) op.params args →
      ∀ K : PartialState, (∀ x ∈ K.pos, x ∉ K.neg) → ∀ fuel, N ≤ fuel → ∀ i K', op.apply P.omap P.axioms fuel args K = .ok (i, K') →
      t.SafeStep K op args K' →
      ((∀ x ∈ K'.pos, x ∉ K'.neg) ∧
        (∀ x, x ∈ K'.pos ∨ x ∈ K'.neg → (x ∈ K.pos ∨ x ∈ K.neg) ∨ ∃ sign, t.KnownCauses K op args sign x)) ∧
      ∀ S : State, Compatible (· ∈ K.pos) (· ∈ K.neg) (· ∈ S) → AxiomsHold (t.constants ++ t.objects) t.ops (· ∈ S) →
        ∃ j m, op.apply P.omap P.axioms fuel args S = .ok (j, m) ∧ Compatible (· ∈ K'.pos) (· ∈ K'.neg) (· ∈ m) ∧
          AxiomsHold (t.constants ++ t.objects) t.ops (· ∈ m) := by
  have B := Pddl.built hP
  obtain ⟨N₁, h₁⟩ := C86_cascade_partial b n hP up ht hp
  obtain ⟨N₂, h₂⟩ := C97_apply_partial b n hP up ht hp
  obtain ⟨N₃, h₃⟩ := C89_partial_state_partial b n hP up ht hp
  refine ⟨N₁ + N₂ + N₃, fun op ho args hw K hcons fuel hn i K' e hs => ⟨?_, fun S hS hA => ?_⟩⟩
  · obtain ⟨k, K'', e', hc', hpos, hneg, -⟩ := h₃ op ho hs.closed args hw K hcons hs.knows _ rfl hs.free hs.unread fuel (by omega)
    rw [e, Res.ok.injEq, Prod.mk.injEq] at e'
    obtain ⟨-, rfl⟩ := e'
    refine ⟨hc', fun x hx => ?_⟩
    rcases hx with hx | hx
    · rcases (hpos x).1 hx with h | h
      · exact .inr ⟨_, h⟩
      · exact .inl (.inl h.1)
    · rcases (hneg x).1 hx with h | h
      · exact .inr ⟨_, h⟩
      · exact .inl (.inr h.1)
  · obtain ⟨k, K'', R, e', hR, -⟩ := h₁ op ho hs.closed args hw K hcons hs.knows _ rfl hs.free hs.unread fuel (by omega) _
      (fun _ => Iff.rfl)
    rw [e, Res.ok.injEq, Prod.mk.injEq] at e'
    obtain ⟨-, rfl⟩ := e'
    obtain ⟨j, hj, hcomp, -⟩ := hR S ⟨hS, hA⟩
    have hsub := (causes_compare B ht hp ho hw hcons hs.knows hs.closed hS).1
    obtain ⟨k', m, em, hm⟩ := h₂ op ho args hw S (fun x hx hx' => hs.free x (hsub _ _ hx) (hsub _ _ hx'))
      (fun sg x hx => hs.unread sg x (hsub _ _ hx)) hA fuel (by omega)
    rw [hj, Res.ok.injEq, Prod.mk.injEq] at em
    obtain ⟨-, rfl⟩ := em
    refine ⟨j, _, hj, hcomp, hm.2 ?_⟩
    rintro ⟨ax, h1, h2, as, h3, h4, sign, y, h5, h6⟩
    exact hs.keeps _ hcomp ⟨ax, h1, h2, as, h3, h4, sign, y, h5, hsub _ _ h6⟩

/-- What is known to be true is true. -/
theorem eval_compatible {g : Goal} {m : ObjMap} {params args : List Obj} {K : PartialState} {v : Bool}
    (h : g.eval m params K args = .ok v) {S : State} (hS : Compatible (· ∈ K.pos) (· ∈ K.neg) (· ∈ S)) :
    g.eval m params S args = .ok v :=
  C19_partial_evaluation_sound ⟨g, params, m⟩ K args v (by simp [Formula.evalPartial, h, optionalOf]) S hS

/-- **C101, partial.** In a domain that passes the type checker, with rules that are not recursive: if every action of a list is
known to be valid in the PartialState that the actions before it lead to, and none contradicts an axiom, then from every valid
State that agrees with the PartialState, `ApplyActions` returns, all actions are valid in their turn, and the result is a valid
State that agrees with what is known at the end.

Missing for the full claim: conditions of effects about unknown atoms, and actions that contradict axioms or themselves, see
`C101_refuted`. -/
theorem C101_run_partial (b : Bool) (n : Nat) (hP : Pddl.make t b n = .ok P) (up : Name → List Name) (ht : t.TypeChecked up)
    (hwf : t.WellFormed) (hc : t.ContextsClosed) (hu : t.EffectsUnderived) (hd : t.AxiomsUnderived) (rank : Name → Nat)
    (ha : Acyclic rank t.drvs) : ∃ N, ∀ fuel, N ≤ fuel → ∀ (K : PartialState) (calls : List Name) (K' : PartialState),
      K.isConsistent = true → SilentOn t.drvs K → t.KnownPlan P fuel K calls K' →
      ∀ S : State, Compatible (· ∈ K.pos) (· ∈ K.neg) (· ∈ S) → P.isValidState fuel S = .ok true →
        ∃ S', P.applyActions fuel S calls = .ok S' ∧ Compatible (· ∈ K'.pos) (· ∈ K'.neg) (· ∈ S') ∧
          P.isValidState fuel S' = .ok true ∧
          Achieves (fun s a => P.isValidAction s a = .ok true) (fun s a s' => P.nextState fuel s a = .ok s') (· = S') S calls := by
  have B := Pddl.built hP
  have hp : t.PlainEffects := hwf.eff
  obtain ⟨N, hN⟩ := safe_step hP ht hp
  obtain ⟨D, hD⟩ := rank_bound (fun d : Drv => rank d.head) t.drvs
  refine ⟨N + D + 2, fun fuel hn K calls K' hcons hsil hk => ?_⟩
  obtain ⟨k, rfl⟩ : ∃ k, fuel = k + 2 := ⟨fuel - 2, by omega⟩
  induction hk with
  | nil => exact fun S hS hv => ⟨S, rfl, hS, hv, .done rfl⟩
  | @cons K K₁ K' call op args i calls h1 h2 h3 h4 _ ih =>
    intro S hS hv
    obtain ⟨ho, hw⟩ := parseAction_ok h1
    simp only [Pddl.symbols, B.tree] at ho hw
    obtain ⟨⟨hcons₁, hknow⟩, hstep⟩ := hN op ho args hw K (PartialState.isConsistent_iff.1 hcons) _ (by omega) i K₁ h3 h4
    have hsil₁ : SilentOn t.drvs K₁ := by
      intro x hx
      rcases hknow x hx with h | ⟨sign, h⟩
      · exact hsil x h
      · cases h with
        | own h => exact hu op ho _ (.inl ⟨_, touches_of_makes _ _ _ _ _ _ h⟩)
        | triggered h1 _ _ _ _ h => exact hu _ h1 _ (.inl ⟨_, touches_of_makes _ _ _ _ _ _ h⟩)
    obtain ⟨j, m, e1, hcm, hAm⟩ := hstep S hS ((valid_iff_hold hP ht hc (k + 2) S).1 hv)
    have hdr : P.drvs = t.drvs := by rw [Pddl.drvs, B.tree]
    obtain ⟨r, e3⟩ := drvsFix_acyclic hwf.drvs hwf.names hwf.heads ha hD k (k + 1) 0 m (by omega) (fun d _ h => by omega)
    rw [← B.omap, ← hdr] at e3
    have happ : P.applyOp (k + 2) op args S = .ok r.2 := by
      simp only [Pddl.applyOp, e1, Res.bind_ok, e3, Res.pure_eq]
    have hsame : ∀ x : Atom, ¬ IsHead t.drvs x.pred → (x ∈ r.2 ↔ x ∈ m) := by
      intro x hx
      have e4 := e3
      rw [B.omap, hdr] at e4
      have hno : ∀ sign, ¬ DerivedAtom (t.constants ++ t.objects) t.drvs sign x := by
        rintro sign ⟨d, hm, os, -, rfl⟩
        exact hx ⟨d, hm, rfl⟩
      have hw := drvsFix_within e4 x
      exact ⟨fun h => by_contra fun h' => hno _ (hw.1 h h'), fun h => by_contra fun h' => hno _ (hw.2 h h')⟩
    have hcr : Compatible (· ∈ K₁.pos) (· ∈ K₁.neg) (· ∈ r.2) :=
      ⟨fun x hx => (hsame x (hsil₁ x (.inl hx))).2 (hcm.1 x hx),
        fun x hx hx' => hcm.2 x hx ((hsame x (hsil₁ x (.inr hx))).1 hx')⟩
    obtain ⟨S', q1, q2, q3, q4⟩ := ih (PartialState.isConsistent_iff.2 hcons₁) hsil₁ r.2 hcr
      ((valid_iff_hold hP ht hc (k + 2) r.2).2 ((axiomsHold_derived B hp hd e3).2 hAm))
    refine ⟨S', ?_, q2, q3, .step ?_ ?_ q4⟩
    · simp only [Pddl.applyActions, h1, Res.bind_ok, happ, q1]
    · simp only [Pddl.isValidAction, h1, Res.bind_ok]
      exact eval_compatible h2 hS
    · simp only [Pddl.nextState, h1, Res.bind_ok, happ]

/-- **C101, partial.** Hence, if the goal is known to be true at the end, `IsValidPlan` accepts the list from every such State. -/
theorem C101_plan_partial (b : Bool) (n : Nat) (hP : Pddl.make t b n = .ok P) (up : Name → List Name) (ht : t.TypeChecked up)
    (hwf : t.WellFormed) (hc : t.ContextsClosed) (hu : t.EffectsUnderived) (hd : t.AxiomsUnderived) (rank : Name → Nat)
    (ha : Acyclic rank t.drvs) : ∃ N, ∀ fuel, N ≤ fuel → ∀ (K : PartialState) (calls : List Name) (K' : PartialState),
      K.isConsistent = true → SilentOn t.drvs K → t.KnownPlan P fuel K calls K' → t.goal.eval P.omap [] K' [] = .ok true →
      ∀ S : State, Compatible (· ∈ K.pos) (· ∈ K.neg) (· ∈ S) → P.isValidState fuel S = .ok true →
        Pddl.isValidPlan { P with initial := S } fuel calls = .ok true := by
  obtain ⟨N, h⟩ := C101_run_partial b n hP up ht hwf hc hu hd rank ha
  refine ⟨N, fun fuel hn K calls K' hcons hsil hk hg S hS hv => ?_⟩
  obtain ⟨S', -, h2, -, h4⟩ := h fuel hn K calls K' hcons hsil hk S hS hv
  rw [C36_valid_plan]
  have hgoal : P.isGoalSatisfied S' = .ok true := by
    rw [Pddl.isGoalSatisfied, (Pddl.built hP).tree]
    exact eval_compatible hg h2
  clear hv hS h2 hk
  induction h4 with
  | done h => exact .done (by subst h; exact hgoal)
  | step h1 h2 _ ih => exact .step h1 h2 ih

end

/-! ## Examples -/

section
open Demo
attribute [local instance] lenHash

/-- What `place(a, b)` causes. -/
theorem place_causes {S : Atom → Prop} {so : Bool → Atom → Prop} {sign : Bool} {p : Atom}
    (h : tree.Causes S so place [a, b] sign p) : (sign = true ∧ p = on a b) ∨ (sign = false ∧ p = inhand a) := by
  induction h with
  | @own sign p h =>
    simp only [place, Makes, Lists, List.mem_singleton, Prod.mk.injEq] at h
    rcases h with h | ⟨rfl, q, ts, os, ⟨rfl, rfl⟩, hd, rfl⟩ | ⟨rfl, q, ts, os, ⟨rfl, rfl⟩, hd, rfl⟩ | h
    · simp [MakesF] at h
    · obtain _ | ⟨h1, h2⟩ := hd
      obtain _ | ⟨h2, h3⟩ := h2
      cases h3
      have h1 : some a = some _ := h1
      have h2 : some b = some _ := h2
      cases h1; cases h2
      exact .inl ⟨rfl, rfl⟩
    · obtain _ | ⟨h1, h2⟩ := hd
      cases h2
      have h1 : some a = some _ := h1
      cases h1
      exact .inr ⟨rfl, rfl⟩
    · simp [MakesC] at h
  | @triggered ax as q sign p h1 h2 _ _ h5 _ h6 =>
    simp only [tree, List.mem_cons, List.not_mem_nil, or_false] at h1
    rcases h1 with rfl | rfl | rfl
    · simp [pick] at h2
    · simp [place] at h2
    · obtain ⟨-, os, -, rfl⟩ := h5
      rcases h6 with ⟨-, h⟩ | ⟨h, -⟩
      · exact absurd (show n!"inhand" = n!"on" from congrArg Atom.pred h) (by decide)
      · exact absurd h (by decide)

theorem demo_effects : tree.EffectsUnderived := by
  rintro op hop p hp ⟨d, hd, rfl⟩
  simp only [tree, List.mem_cons, List.not_mem_nil, or_false] at hop hd
  subst hd
  rcases hop with rfl | rfl | rfl <;>
    simp [pick, place, held, busy, Eff.Touches, FList.Touches, CList.Touches, ListsPred, Eff.Reads, FList.Reads, CList.Reads] at hp

theorem demo_underived : tree.AxiomsUnderived := by
  rintro ax hop ha p hp ⟨d, hd, rfl⟩
  rcases hp with ⟨n, hp⟩ | hp | hp
  · simp only [tree, List.mem_cons, List.not_mem_nil, or_false] at hop hd
    subst hd
    rcases hop with rfl | rfl | rfl
    · simp [pick] at ha
    · simp [place] at ha
    · simp [held, busy, Goal.Mentions] at hp
  · exact demo_effects ax hop _ (.inl hp) ⟨d, hd, rfl⟩
  · exact demo_effects ax hop _ (.inr hp) ⟨d, hd, rfl⟩

theorem demo_acyclic : Acyclic (fun _ => 0) tree.drvs := by
  intro d hd p n hm hh
  simp only [tree, List.mem_singleton] at hd
  subst hd
  obtain ⟨d', hd', rfl⟩ := hh
  simp only [tree, List.mem_singleton] at hd'
  subst hd'
  simp [busy, Goal.Mentions, Goal.MentionsL] at hm

/-- Nothing is known but that `a` is not in the hand and nothing is on it. -/
def Ka : PartialState := ⟨State.empty, State.ofList [inhand a, on a a, on b a]⟩
def Kpick : PartialState := ⟨State.ofList [inhand a], State.ofList [on a a, on b a, on a table, on a b]⟩
def Kplace : PartialState := ⟨State.ofList [on a b], State.ofList [inhand a, on a a, on b a, on a table]⟩

theorem pick_safe : tree.SafeStep Ka pick [a] Kpick := by
  refine ⟨pick_closed, pick_knows _ _, pick_free _ _, pick_unread _, fun S _ => ?_⟩
  rintro ⟨ax, h1, h2, as, -, -, sign, q, h5, h6⟩
  have := touches_of_makes _ _ _ _ _ _ h5
  simp only [tree, List.mem_cons, List.not_mem_nil, or_false] at h1
  rcases h1 with rfl | rfl | rfl
  · simp [pick] at h2
  · simp [place] at h2
  · simp [held, Eff.Touches, FList.Touches, CList.Touches, ListsPred] at this
    obtain ⟨rfl, hq⟩ := this
    rcases pick_causes h6 with ⟨-, rfl⟩ | ⟨h, -⟩
    · exact absurd hq (by decide)
    · exact absurd h (by decide)

theorem place_safe : tree.SafeStep Kpick place [a, b] Kplace := by
  refine ⟨?_, ?_, fun p h h' => ?_, fun sign p _ => ⟨by simp [place, Eff.Reads, FList.Reads, CList.Reads], fun ax hop ha => ?_⟩,
    fun S hS => ?_⟩
  · intro ax hop ha
    simp only [tree, List.mem_cons, List.not_mem_nil, or_false] at hop
    rcases hop with rfl | rfl | rfl <;> simp [pick, place, held, Eff.CondsClosed, FList.CondsClosed, CList.CondsClosed]
  · rintro pred os ⟨ax, hop, -, h⟩ -
    simp only [tree, List.mem_cons, List.not_mem_nil, or_false] at hop
    rcases hop with rfl | rfl | rfl <;> simp [pick, place, held, Eff.Asks, FList.Asks, CList.Asks] at h
  · rcases place_causes h with ⟨-, rfl⟩ | ⟨h, -⟩
    · rcases place_causes h' with ⟨h, -⟩ | ⟨-, h⟩
      · simp at h
      · exact absurd h (by decide)
    · simp at h
  · simp only [tree, List.mem_cons, List.not_mem_nil, or_false] at hop
    rcases hop with rfl | rfl | rfl <;> simp [pick, place, held, Eff.Reads, FList.Reads, CList.Reads] at ha ⊢
  · rintro ⟨ax, h1, h2, as, hw, h4, sign, q, h5, h6⟩
    have := touches_of_makes _ _ _ _ _ _ h5
    simp only [tree, List.mem_cons, List.not_mem_nil, or_false] at h1
    rcases h1 with rfl | rfl | rfl
    · simp [pick] at h2
    · simp [place] at h2
    · simp [held, Eff.Touches, FList.Touches, CList.Touches, ListsPred] at this
      obtain ⟨rfl, -⟩ := this
      rcases place_causes h6 with ⟨-, rfl⟩ | ⟨h, -⟩
      · have ha : inhand a ∉ S := hS.2 _ (by simp [Kplace])
        obtain _ | ⟨-, hnil⟩ := hw
        cases hnil
        rename_i o
        simp only [held, Makes, MakesF, MakesC, Lists, List.mem_singleton, List.not_mem_nil, or_false, false_and, exists_false,
          and_false, false_or, true_and, Bool.false_eq_true, Prod.mk.injEq] at h5
        obtain ⟨os, hz, q, ts, os', ⟨rfl, rfl⟩, hd, he⟩ := h5
        obtain _ | ⟨-, hnil⟩ := hz
        cases hnil
        obtain _ | ⟨h7, h8⟩ := hd
        obtain ⟨he, -⟩ := List.cons.inj (Atom.mk.inj he).2
        have h7 : some o = some _ := h7
        cases h7
        simp only [held, Sat, SatAtom] at h4
        rcases h4 with ⟨h, -⟩ | ⟨-, h, -⟩ | ⟨-, -, os, h9, h10⟩
        · exact absurd h (by decide)
        · simp [IsType, HasType, tree, a, b, table, tBox, tObj] at h
        · obtain _ | ⟨h9, hnil⟩ := h9
          cases hnil
          have h9 : some o = some _ := h9
          cases h9
          apply ha
          rw [inhand, he]
          exact h10
      · exact absurd h (by decide)

/-- `pick(a)`, `place(a, b)` reaches the goal from every valid State in which `a` is not in the hand and nothing is on it. -/
example : ∃ N, ∀ fuel, N ≤ fuel → ∀ S : State, Compatible (· ∈ Ka.pos) (· ∈ Ka.neg) (· ∈ S) → P.isValidState fuel S = .ok true →
    Pddl.isValidPlan { P with initial := S } fuel [n!"pick(a)", n!"place(a, b)"] = .ok true := by
  obtain ⟨N, h⟩ := C101_plan_partial true 5 P_made demoUp demo_checked demo_wellFormed demo_contexts demo_effects
    demo_underived (fun _ => 0) demo_acyclic
  refine ⟨N + 5, fun fuel hn => h fuel (by omega) Ka _ Kplace (by decide +kernel) ?_ (.cons (i := 2) (K₁ := Kpick) (op := pick)
    (args := [a]) (by rfl) (by decide +kernel) ?_ pick_safe (.cons (i := 2) (op := place) (args := [a, b]) (by rfl)
    (by decide +kernel) ?_ place_safe .nil)) (by decide +kernel)⟩
  · rintro p hp ⟨d, hd, hq⟩
    simp only [tree, List.mem_singleton] at hd
    subst hd
    simp only [Ka, State.mem_ofList, List.mem_cons, List.not_mem_nil, or_false] at hp
    rcases hp with hp | rfl | rfl | rfl
    · simp at hp
    · exact absurd hq (by decide)
    · exact absurd hq (by decide)
    · exact absurd hq (by decide)
  · rw [Op.apply_mono P.omap P.axioms pick [a] Ka (by omega : 5 ≤ fuel) (by decide +kernel)]
    decide +kernel
  · rw [Op.apply_mono P.omap P.axioms place [a, b] Kpick (by omega : 5 ≤ fuel) (by decide +kernel)]
    decide +kernel

/-- The domain of `C86_axiom_refuted` with the goal `(not (on a table))`. -/
def confTree : Ptree := { settleTree with goal := .neg (.atom n!"on" [.const a, .const table]) }
theorem confMade : (Pddl.make confTree true 5).isOk = true := by decide +kernel
def confP : Pddl := get _ confMade

/-- **C101, refuted** for actions that contradict an axiom: nothing is known, `grab(a, table)` is known to be valid and the goal
is known to be true afterwards; but from the valid State in which `a` is in the hand, the plan does not reach the goal. -/
theorem C101_refuted : Pddl.make confTree true 5 = .ok confP ∧
    ∃ (K K' : PartialState) (i : Nat) (S : State), K.isConsistent = true ∧
      confP.parseAction n!"grab(a, table)" = .ok (grabOp, [a, table]) ∧ grabOp.isValid confP.omap K [a, table] = .ok true ∧
      grabOp.apply confP.omap confP.axioms 5 [a, table] K = .ok (i, K') ∧ confTree.goal.eval confP.omap [] K' [] = .ok true ∧
      Compatible (· ∈ K.pos) (· ∈ K.neg) (· ∈ S) ∧ confP.isValidState 5 S = .ok true ∧
      Pddl.isValidPlan { confP with initial := S } 5 [n!"grab(a, table)"] = .ok false := by
  refine ⟨get_eq _ _, ⟨State.empty, State.empty⟩, ⟨State.ofList [inhand a], State.ofList [on a table, on a a, on a b]⟩, 1,
    State.ofList [inhand a], by decide +kernel, by rfl, by decide +kernel, by decide +kernel, by decide +kernel,
    ⟨fun x hx => ?_, fun x hx => ?_⟩, by decide +kernel, by decide +kernel⟩
  · simp at hx
  · simp at hx

end

end Symbolic
