import Verif.Lemmas.ClosureMono
import Verif.Props.Conformant
import Verif.Props.Propagate
import Verif.Props.ValidPartial
import Verif.Spec.Knowledge

/-!
# C106: more knowledge gives more knowledge
-/

namespace Symbolic

theorem Ptree.Follows.mono {t : Ptree} {T F T' F' : Atom → Prop} (hT : ∀ x, T x → T' x) (hF : ∀ x, F x → F' x) {sign : Bool}
    {x : Atom} (h : t.Follows T F sign x) : t.Follows T' F' sign x := by
  induction h with
  | isTrue h => exact .isTrue (hT _ h)
  | isFalse h => exact .isFalse (hF _ h)
  | rule h1 h2 _ h4 h5 ih => exact .rule h1 h2 ih h4 h5

section
variable [StrHash] {t : Ptree} {P : Pddl}

/-- **C106, partial.** Of two PartialStates, where one knows all that the other knows, `ConsistentState` of the first knows all
that `ConsistentState` of the second knows; both return. For axioms that are rules, if nothing follows together with its opposite.

Missing for the full claim: facts that contradict each other, see `C106_contradiction_refuted`. -/
theorem C106_consistent_partial (b : Bool) (n : Nat) (hP : Pddl.make t b n = .ok P) (up : Name → List Name)
    (ht : t.TypeChecked up) (hp : t.PlainEffects) (hr : t.RulesOnly) : ∃ N, ∀ fuel, N ≤ fuel → ∀ K L : PartialState,
      K.Below L → t.Coherent (· ∈ L.pos) (· ∈ L.neg) →
      ∃ K' L', P.consistentStateP fuel K = .ok K' ∧ P.consistentStateP fuel L = .ok L' ∧ K'.Below L' := by
  obtain ⟨N, h⟩ := C94_rules_partial hP up ht hp hr
  refine ⟨N, fun fuel hn K L hb hc => ?_⟩
  have hm : ∀ sign x, t.Follows (· ∈ K.pos) (· ∈ K.neg) sign x → t.Follows (· ∈ L.pos) (· ∈ L.neg) sign x :=
    fun sign x h => h.mono hb.1 hb.2
  obtain ⟨K', e1, r1⟩ := h fuel hn K (fun x h1 h2 => hc x (hm _ _ h1) (hm _ _ h2))
  obtain ⟨L', e2, r2⟩ := h fuel hn L hc
  exact ⟨K', L', e1, e2, fun x hx => (r2 x).1.2 (hm _ _ ((r1 x).1.1 hx)), fun x hx => (r2 x).2.2 (hm _ _ ((r1 x).2.1 hx))⟩

/-- In a settled PartialState consequences of what is known are known. -/
theorem Pddl.Settled.knows {b : Bool} {n : Nat} (hP : Pddl.make t b n = .ok P) {up : Name → List Name} (ht : t.TypeChecked up)
    (hp : t.PlainEffects) (hr : t.RulesOnly) {fuel : Nat} {L : PartialState} (hL : P.Settled fuel L) {ax : Op} (h1 : ax ∈ t.ops)
    (h2 : ax.isAxiom = true) {as : List Obj} {x : Atom} (h4 : ax.ContextIs (t.constants ++ t.objects) as x)
    (hx : if ax.ctxSign = true then x ∈ L.pos else x ∈ L.neg) {S : Atom → Prop} {sign : Bool} {y : Atom}
    (h5 : Makes (t.constants ++ t.objects) S sign (Env.none.bind ax.params as) ax.eff y) :
    if sign = true then y ∈ L.pos else y ∈ L.neg := by
  have B := Pddl.built hP
  obtain ⟨e1, e2, e3, e4⟩ := hr ax h1 h2
  obtain ⟨hne, hwf, -, -⟩ := (ht.ops ax h1).axiom_ h2
  obtain ⟨pred, cargs, hctx⟩ := B.contexts ax h1 h2
  have hpl := (makes_respects ax.eff _ _ y (hp ax h1) (ht.effTyped h1 h4.1) h5).1
  refine C33_consequences_known t b n P hP ht.names fuel L L hL.2 ax h1 h2 ⟨hne, hwf, (ht.ops ax h1).formed⟩ e3 e4 as h4.1 ?_
    hL.1 _ sign y hpl.1 hpl.2 h5
  rw [B.omap, context_known hctx e1 e2 hwf h4.1 (PartialState.isConsistent_iff.1 hL.1)]
  exact ⟨x, h4, hx⟩

theorem known_iff {K : PartialState} (hc : ∀ x ∈ K.pos, x ∉ K.neg) (sign : Bool) (x : Atom) :
    Known (· ∈ K.pos) (· ∈ K.neg) sign x ↔ if sign = true then x ∈ K.pos else x ∈ K.neg := by
  cases sign
  · exact ⟨fun h => h.1, fun h => ⟨h, fun h' => hc x h' h⟩⟩
  · exact ⟨fun h => h.1, fun h => ⟨h, hc x h⟩⟩

/-- What is caused where more is known. -/
theorem causes_below {b : Bool} {n : Nat} (hP : Pddl.make t b n = .ok P) {up : Name → List Name} (ht : t.TypeChecked up)
    (hp : t.PlainEffects) (hr : t.RulesOnly) {fuel : Nat} {op : Op} (ho : op ∈ t.ops) (hcl : t.AllCondsClosed op) {args : List Obj}
    (hw : WellTyped (t.constants ++ t.objects) op.params args) {K L : PartialState} (hb : K.Below L) (hL : P.Settled fuel L)
    (hk : Knows (t.constants ++ t.objects) (· ∈ K.pos) (· ∈ K.neg) (t.MayAsk op)) :
    (∀ sign x, t.KnownCauses L op args sign x → t.KnownCauses K op args sign x) ∧
    ∀ sign x, t.KnownCauses K op args sign x → t.KnownCauses L op args sign x ∨ Known (· ∈ L.pos) (· ∈ L.neg) sign x := by
  have hLc := PartialState.isConsistent_iff.1 hL.1
  have hKc : ∀ x ∈ K.pos, x ∉ K.neg := fun x h h' => hLc x (hb.1 x h) (hb.2 x h')
  have cK : Compatible (· ∈ K.pos) (· ∈ K.neg) (· ∈ K.pos) := ⟨fun _ h => h, fun a h h' => hKc a h' h⟩
  have cL : Compatible (· ∈ K.pos) (· ∈ K.neg) (· ∈ L.pos) := ⟨hb.1, fun a h h' => hLc a h' (hb.2 a h)⟩
  have hso : ∀ sign x, Known (· ∈ K.pos) (· ∈ K.neg) sign x → Known (· ∈ L.pos) (· ∈ L.neg) sign x := by
    intro sign x
    rw [known_iff hKc, known_iff hLc]
    cases sign
    · exact hb.2 x
    · exact hb.1 x
  refine ⟨fun sign x h => h.mono ho hw (makes_known ht hp hk hcl hKc cL cK) hso, fun sign x h => ?_⟩
  induction h with
  | own h => exact .inl (.own (makes_known ht hp hk hcl hKc cK cL op ho (.inl rfl) args hw _ _ h))
  | @triggered ax as x sign y h1 h2 _ h4 h5 h6 ih =>
    by_cases hs : Known (· ∈ L.pos) (· ∈ L.neg) ax.ctxSign x
    · exact .inr ((known_iff hLc _ _).2 (hL.knows hP ht hp hr h1 h2 h5 ((known_iff hLc _ _).1 hs) h6))
    · exact .inl (.triggered h1 h2 (ih.resolve_right hs) hs h5
        (makes_known ht hp hk hcl hKc cK cL ax h1 (.inr h2) as h5.1 _ _ h6))

theorem knows_below {objects : List Obj} {M : Name → Nat → Prop} {K L : PartialState} (hb : K.Below L)
    (hk : Knows objects (· ∈ K.pos) (· ∈ K.neg) M) : Knows objects (· ∈ L.pos) (· ∈ L.neg) M :=
  fun pred os h1 h2 => (hk pred os h1 h2).imp (hb.1 _) (hb.2 _)

/-- **C106, partial.** Applying an action to both: if the PartialState that knows more is closed under the axioms
(`ConsistentState` does not change it), its result knows all that the result of the other knows, and if nothing is new for the
one that knows less then nothing is new for the other.

Missing for the full claim: PartialStates that are not closed under the axioms, see `C106_apply_refuted`, and actions
that C86 excludes. -/
theorem C106_apply_partial (b : Bool) (n : Nat) (hP : Pddl.make t b n = .ok P) (up : Name → List Name)
    (ht : t.TypeChecked up) (hp : t.PlainEffects) (hr : t.RulesOnly) : ∃ N, ∀ fuel, N ≤ fuel → ∀ op ∈ t.ops, t.AllCondsClosed op →
      ∀ args, WellTyped (t.constants ++ t.objects) op.params args → ∀ K L : PartialState, K.Below L → P.Settled fuel L →
      Knows (t.constants ++ t.objects) (· ∈ K.pos) (· ∈ K.neg) (t.MayAsk op) → NoConflict (t.KnownCauses K op args) →
      t.NotRead op (t.KnownCauses K op args) →
      ∃ i K' j L', op.apply P.omap P.axioms fuel args K = .ok (i, K') ∧ op.apply P.omap P.axioms fuel args L = .ok (j, L') ∧
        K'.Below L' ∧ (i = 0 → j = 0) := by
  obtain ⟨N, hN⟩ := C89_partial_state_partial b n hP up ht hp
  refine ⟨N, fun fuel hn op ho hcl args hw K L hb hL hk hfree hread => ?_⟩
  have hLc := PartialState.isConsistent_iff.1 hL.1
  have hKc : ∀ x ∈ K.pos, x ∉ K.neg := fun x h h' => hLc x (hb.1 x h) (hb.2 x h')
  obtain ⟨hsub, hsup⟩ := causes_below hP ht hp hr ho hcl hw hb hL hk
  have hkL := knows_below hb hk
  obtain ⟨i, K', e1, -, p1, n1, z1, -⟩ := hN op ho hcl args hw K hKc hk _ rfl hfree hread fuel hn
  obtain ⟨j, L', e2, -, p2, n2, z2, -⟩ := hN op ho hcl args hw L hLc hkL _ rfl
    (fun x h h' => hfree x (hsub _ _ h) (hsub _ _ h')) (fun sg x h => hread sg x (hsub _ _ h)) fuel hn
  refine ⟨i, K', j, L', e1, e2, ⟨fun x hx => ?_, fun x hx => ?_⟩, fun hi => z2.2 ?_⟩
  · rw [p2]
    rcases (p1 x).1 hx with h | ⟨h, h'⟩
    · rcases hsup _ _ h with h'' | h''
      · exact .inl h''
      · exact .inr ⟨((known_iff hLc _ _).1 h''), fun h3 => hfree x h (hsub _ _ h3)⟩
    · exact .inr ⟨hb.1 x h, fun h3 => h' (hsub _ _ h3)⟩
  · rw [n2]
    rcases (n1 x).1 hx with h | ⟨h, h'⟩
    · rcases hsup _ _ h with h'' | h''
      · exact .inl h''
      · exact .inr ⟨by simpa using (known_iff hLc _ _).1 h'', fun h3 => hfree x (hsub _ _ h3) h⟩
    · exact .inr ⟨hb.2 x h, fun h3 => h' (hsub _ _ h3)⟩
  · have hK := z1.1 hi
    subst hK
    have tp : ∀ x, t.KnownCauses L op args true x → x ∈ L.pos := fun x h => hb.1 x ((p1 x).2 (.inl (hsub _ _ h)))
    have tn : ∀ x, t.KnownCauses L op args false x → x ∈ L.neg := fun x h => hb.2 x ((n1 x).2 (.inl (hsub _ _ h)))
    have e3 : L'.pos = L.pos := State.ext fun x => by
      rw [p2]
      exact ⟨fun h => h.elim (tp x) (·.1), fun h => .inr ⟨h, fun h' => hLc x h (tn x h')⟩⟩
    have e4 : L'.neg = L.neg := State.ext fun x => by
      rw [n2]
      exact ⟨fun h => h.elim (tn x) (·.1), fun h => .inr ⟨h, fun h' => hLc x (tp x h') h⟩⟩
    cases L; cases L'
    simp only at e3 e4
    rw [e3, e4]

/-- A formula known to be true stays known to be true with more knowledge. -/
theorem eval_below {g : Goal} {m : ObjMap} {params args : List Obj} {K L : PartialState} {v : Bool}
    (h : g.eval m params K args = .ok v) (hb : K.Below L) (hc : ∀ x ∈ L.pos, x ∉ L.neg) : g.eval m params L args = .ok v := by
  have := C20_more_information ⟨g, params, m⟩ K L args v (by simp [Formula.evalPartial, h, optionalOf]) hb.1 hb.2 hc
  unfold Formula.evalPartial optionalOf at this
  split at this <;> simp_all

/-- **C106, partial.** Applying the actions of a list in turn, each followed by `ConsistentState`: if each is known to be valid in
its turn for the PartialState that knows less, then also for the one that knows more, and the result knows all that the other result
knows. In particular a goal that is known to be reached stays known to be reached. -/
theorem C106_track_partial (b : Bool) (n : Nat) (hP : Pddl.make t b n = .ok P) (up : Name → List Name)
    (ht : t.TypeChecked up) (hp : t.PlainEffects) (hr : t.RulesOnly) : ∃ N, ∀ fuel, N ≤ fuel → ∀ (K : PartialState)
      (calls : List Name) (K' : PartialState), t.SoundTrack P fuel K calls K' → ∀ L L' : PartialState, K.Below L →
      P.Settled fuel L → t.Track P fuel L calls L' →
      t.SoundTrack P fuel L calls L' ∧ P.Settled fuel L' ∧ K'.Below L' ∧
        (t.goal.eval P.omap [] K' [] = .ok true → t.goal.eval P.omap [] L' [] = .ok true) := by
  have B := Pddl.built hP
  obtain ⟨N₁, h₁⟩ := C106_consistent_partial b n hP up ht hp hr
  obtain ⟨N₂, h₂⟩ := C106_apply_partial b n hP up ht hp hr
  obtain ⟨N₃, h₃⟩ := C94_rules_partial hP up ht hp hr
  refine ⟨N₁ + N₂ + N₃ + 51, fun fuel hn K calls K' hK => ?_⟩
  induction hK with
  | nil =>
    rintro L L' hb hL (_ | _)
    exact ⟨.nil, hL, hb, fun hg => eval_below hg hb (PartialState.isConsistent_iff.1 hL.1)⟩
  | @cons K K₁ K₂ K' call op args i calls a1 a2 a3 a4 a5 a6 a7 a8 _ ih =>
    intro L L' hb hL hT
    cases hT with
    | @cons _ L₁ L₂ _ _ op' args' j _ b1 b2 b3 b4 b5 =>
      rw [a1, Res.ok.injEq, Prod.mk.injEq] at b1
      obtain ⟨rfl, rfl⟩ := b1
      obtain ⟨ho, hw⟩ := parseAction_ok a1
      simp only [Pddl.symbols, B.tree] at ho hw
      obtain ⟨i', M₁, j', M₂, e1, e2, e3, -⟩ := h₂ fuel (by omega) op ho a3 args hw K L hb hL a4 a5 a6
      rw [a7, Res.ok.injEq, Prod.mk.injEq] at e1
      obtain ⟨rfl, rfl⟩ := e1
      rw [b2, Res.ok.injEq, Prod.mk.injEq] at e2
      obtain ⟨rfl, rfl⟩ := e2
      obtain ⟨K₃, L₃, f1, f2, f3⟩ := h₁ fuel (by omega) K₁ L₁ e3 b3
      rw [a8, Res.ok.injEq] at f1
      subst f1
      rw [b4, Res.ok.injEq] at f2
      subst f2
      have hset : P.Settled fuel L₂ := by
        obtain ⟨L₃, g1, g2⟩ := h₃ fuel (by omega) L₁ b3
        rw [b4, Res.ok.injEq] at g1
        subst g1
        exact ⟨PartialState.isConsistent_iff.2 fun x h h' => b3 x ((g2 x).1.1 h) ((g2 x).2.1 h'),
          (C95_consistent_is_valid P fuel L₁ L₂ b4 (by omega)).2.2⟩
      obtain ⟨q1, q2⟩ := ih L₂ L' f3 hset b5
      have hsub := (causes_below hP ht hp hr ho a3 hw hb hL a4).1
      exact ⟨.cons a1 (eval_below a2 hb (PartialState.isConsistent_iff.1 hL.1)) a3 (knows_below hb a4)
        (fun x h h' => a5 x (hsub _ _ h) (hsub _ _ h')) (fun sg x h => a6 sg x (hsub _ _ h)) b2 b4 q1, q2⟩

end

/-! ## Examples -/

section
open Demo
attribute [local instance] lenHash

/-- What follows from what is in the hand follows too if more is known. -/
example : ∃ N, ∀ fuel, N ≤ fuel → ∃ K' L', P.consistentStateP fuel ⟨State.ofList [inhand a], State.empty⟩ = .ok K' ∧
    P.consistentStateP fuel ⟨State.ofList [inhand a, on b table], State.empty⟩ = .ok L' ∧ K'.Below L' := by
  obtain ⟨N, h⟩ := C106_consistent_partial true 5 P_made demoUp demo_checked demo_plain demo_rulesOnly
  refine ⟨N, fun fuel hn => h fuel hn _ _ ⟨fun x hx => ?_, fun _ h => h⟩ demo_coherent⟩
  simp only [State.mem_ofList, List.mem_cons] at hx ⊢
  exact hx.imp_right fun h => by cases h

/-- As `Ka`, and it is known where `b` is. -/
def La : PartialState := ⟨State.ofList [on b table], State.ofList [inhand a, on a a, on b a]⟩
def Lpick : PartialState := ⟨State.ofList [inhand a, on b table], State.ofList [on a a, on b a, on a table, on a b]⟩

theorem Ka_below : Ka.Below La := ⟨fun x h => absurd h (State.not_mem_empty x), fun _ h => h⟩

theorem La_settled {fuel : Nat} (h : 5 ≤ fuel) : P.Settled fuel La :=
  ⟨by decide +kernel, P.consistentStateP_ok h (by decide +kernel)⟩

/-- `pick(a)` where it is unknown, and where it is known where `b` is. -/
example : ∃ N, ∀ fuel, N ≤ fuel → ∃ i K' j L', pick.apply P.omap P.axioms fuel [a] Ka = .ok (i, K') ∧
    pick.apply P.omap P.axioms fuel [a] La = .ok (j, L') ∧ K'.Below L' ∧ (i = 0 → j = 0) := by
  obtain ⟨N, h⟩ := C106_apply_partial true 5 P_made demoUp demo_checked demo_plain demo_rulesOnly
  exact ⟨N + 5, fun fuel hn => h fuel (by omega) pick (by simp [tree]) pick_closed [a] pick_typed Ka La Ka_below
    (La_settled (by omega)) (pick_knows _ _) (pick_free _ _) (pick_unread _)⟩

theorem Lpick_coherent : tree.Coherent (· ∈ Lpick.pos) (· ∈ Lpick.neg) := by
  refine (C94_coherent P_made demo_plain demo_rulesOnly (S := (· ∈ State.ofList [inhand a, on b table])) ?_
    ⟨fun _ h => h, fun x h h' => ?_⟩).2
  · exact (C32_valid_iff_axioms_hold tree true 5 P P_made (by decide)
      (fun op ho ha => ⟨(demo_sorted op ho ha).1.formed, (demo_sorted op ho ha).2⟩) 5
      (State.ofList [inhand a, on b table])).1 (by decide +kernel)
  · exact PartialState.isConsistent_iff.1 (by decide +kernel : Lpick.isConsistent = true) x h' h

/-- The plan `pick(a)`. -/
example : ∃ N, ∀ fuel, N ≤ fuel → tree.SoundTrack P fuel La [n!"pick(a)"] Lpick ∧ Kpick.Below Lpick := by
  obtain ⟨N, h⟩ := C106_track_partial true 5 P_made demoUp demo_checked demo_plain demo_rulesOnly
  refine ⟨N + 5, fun fuel hn => ?_⟩
  have hk : pick.apply P.omap P.axioms fuel [a] Ka = .ok (2, Kpick) := by
    rw [Op.apply_mono P.omap P.axioms pick [a] Ka (by omega : 5 ≤ fuel) (by decide +kernel)]
    decide +kernel
  have hl : pick.apply P.omap P.axioms fuel [a] La = .ok (2, Lpick) := by
    rw [Op.apply_mono P.omap P.axioms pick [a] La (by omega : 5 ≤ fuel) (by decide +kernel)]
    decide +kernel
  obtain ⟨h1, -, h2, -⟩ := h fuel (by omega) Ka [n!"pick(a)"] Kpick
    (.cons (K₁ := Kpick) (K₂ := Kpick) (op := pick) (args := [a]) (by rfl) (by decide +kernel) pick_closed (pick_knows _ _)
      (pick_free _ _) (pick_unread _) hk (P.consistentStateP_ok (by omega : 5 ≤ fuel) (by decide +kernel)) .nil) La Lpick Ka_below
    (La_settled (by omega)) (.cons (K₁ := Lpick) (op := pick) (args := [a]) (by rfl) hl Lpick_coherent
      (P.consistentStateP_ok (by omega : 5 ≤ fuel) (by decide +kernel)) .nil)
  exact ⟨h1, h2⟩

/-- **C106, refuted** for facts that contradict each other: `clear(a)` alone gives `near(a)`; with `inhand(a)` also known both are
lost. -/
theorem C106_contradiction_refuted : Pddl.make ovrTree₁ true 5 = .ok ovrP₁ ∧ ∃ K L K' L' : PartialState, K.Below L ∧
    L.isConsistent = true ∧ ovrP₁.consistentStateP 5 K = .ok K' ∧ ovrP₁.consistentStateP 5 L = .ok L' ∧ ¬ K'.Below L' := by
  refine ⟨ovrP₁_made, ⟨State.ofList [clear a], State.empty⟩, ⟨State.ofList [inhand a, clear a], State.empty⟩,
    ⟨State.ofList [clear a, nearA a], State.empty⟩, ⟨State.ofList [inhand a, busyA a], State.ofList [clear a]⟩, ⟨?_, fun _ h => h⟩,
    by decide +kernel, by decide +kernel, by decide +kernel, fun h => absurd (h.1 (clear a) (by decide +kernel)) (by decide +kernel)⟩
  intro x hx
  rw [State.mem_ofList] at hx ⊢
  simp only [List.mem_cons] at hx ⊢
  exact .inr hx

/-- **C106, refuted** for PartialStates that are not closed under the axioms: that `inhand(a)` is known already keeps `pick(a)` from
triggering that `a` is on nothing. -/
theorem C106_apply_refuted : Pddl.make tree true 5 = .ok P ∧ ∃ K L K' L' : PartialState, ∃ i j, K.Below L ∧
    L.isConsistent = true ∧ pick.apply P.omap P.axioms 5 [a] K = .ok (i, K') ∧ pick.apply P.omap P.axioms 5 [a] L = .ok (j, L') ∧
    ¬ K'.Below L' := by
  refine ⟨P_made, ⟨State.ofList [], State.ofList []⟩, ⟨State.ofList [inhand a], State.ofList []⟩,
    ⟨State.ofList [inhand a], State.ofList [on a table, on a a, on a b]⟩, ⟨State.ofList [inhand a], State.ofList []⟩, 1, 0,
    ⟨fun x hx => ?_, fun _ h => h⟩, by decide +kernel, by decide +kernel, by decide +kernel,
    fun h => absurd (h.2 (on a table) (by decide +kernel)) (by decide +kernel)⟩
  rw [State.mem_ofList] at hx
  cases hx

end

end Symbolic
