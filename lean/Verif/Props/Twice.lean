import Verif.Lemmas.KeepAxioms
import Verif.Props.Cascade

/-!
# C98: applying an action again changes nothing
-/

namespace Symbolic

section
variable [StrHash] {t : Ptree} {P : Pddl}

omit [StrHash] in
/-- What was caused in `S` is so in `S'`, and conditions have the same truth values in both: then all that the same action
causes in `S'` is an effect of its own that is so already. -/
theorem causes_again {S S' : Atom → Prop} {so so' : Bool → Atom → Prop} {op : Op} {args : List Obj}
    (hr : ∀ y : Atom, op.eff.Reads y.pred → (S y ↔ S' y))
    (hso : ∀ sign y, t.Causes S so op args sign y → so' sign y) {sign : Bool} {x : Atom}
    (h : t.Causes S' so' op args sign x) : t.Causes S so op args sign x ∧ so' sign x := by
  induction h with
  | own h =>
    have := Ptree.Causes.own (so := so) ((makes_agree op.eff _ _ hr).2 h)
    exact ⟨this, hso _ _ this⟩
  | triggered _ _ _ hn _ _ ih => exact absurd ih.2 hn

/-- **C98, partial.** Under the conditions of C89, applying an action to the result of applying it changes nothing, and
`Apply` returns false.

Missing for the full claim: effects in conflict and conditions that read what is caused, see `C98_refuted`. -/
theorem C98_state_partial (b : Bool) (n : Nat) (hP : Pddl.make t b n = .ok P) (up : Name → List Name) (ht : t.TypeChecked up)
    (hp : t.PlainEffects) : ∃ N, ∀ op ∈ t.ops, ∀ args, WellTyped (t.constants ++ t.objects) op.params args → ∀ s : State,
      NoConflict (t.CausesIn (· ∈ s) op args) → t.NotRead op (t.CausesIn (· ∈ s) op args) → ∀ fuel, N ≤ fuel →
      ∃ k s', op.apply P.omap P.axioms fuel args s = .ok (k, s') ∧ op.apply P.omap P.axioms fuel args s' = .ok (0, s') := by
  obtain ⟨N, h⟩ := C89_state_partial b n hP up ht hp
  refine ⟨N, fun op ho args hw s h1 h2 fuel hn => ?_⟩
  obtain ⟨k, s', e, hm, -⟩ := h op ho args hw s h1 h2 fuel hn
  refine ⟨k, s', e, ?_⟩
  have hagree : ∀ y : Atom, op.eff.Reads y.pred → (y ∈ s ↔ y ∈ s') := by
    intro y hr
    have n1 := fun sign hc => (h2 sign y hc).1 hr
    rw [hm]
    exact ⟨fun hy => .inr ⟨hy, n1 _⟩, fun hy => (hy.resolve_left (n1 _)).1⟩
  have hso : ∀ sign y, t.CausesIn (· ∈ s) op args sign y → Is (· ∈ s') sign y := by
    intro sign y hy
    cases sign
    · simp only [Is, hm, Bool.false_eq_true, iff_false, not_or, not_and, not_not]
      exact ⟨fun h => h1 y h hy, fun _ => hy⟩
    · simp only [Is, hm, iff_true]
      exact .inl hy
  have again := fun {sign x} (hx : t.CausesIn (· ∈ s') op args sign x) => causes_again hagree hso hx
  obtain ⟨k', s'', e', hm', hz⟩ := h op ho args hw s' (fun x a b => h1 x (again a).1 (again b).1)
    (fun sign x hx => h2 sign x (again hx).1) fuel hn
  have : s'' = s' := State.ext fun x => by
    rw [hm']
    constructor
    · rintro (hx | hx)
      · exact (again hx).2.2 rfl
      · exact hx.1
    · intro hx
      refine .inr ⟨hx, fun hc => ?_⟩
      have := (again hc).2.1 hx
      simp at this
  rw [e', hz.2 this, this]

/-- **C98, PartialStates, partial.** The same for a PartialState that does not contradict itself and knows all atoms that
conditions of effects mention. -/
theorem C98_partial_state_partial (b : Bool) (n : Nat) (hP : Pddl.make t b n = .ok P) (up : Name → List Name)
    (ht : t.TypeChecked up) (hp : t.PlainEffects) : ∃ N, ∀ op ∈ t.ops, t.AllCondsClosed op → ∀ args,
      WellTyped (t.constants ++ t.objects) op.params args → ∀ K : PartialState, (∀ x ∈ K.pos, x ∉ K.neg) →
      Knows (t.constants ++ t.objects) (· ∈ K.pos) (· ∈ K.neg) (t.MayAsk op) →
      ∀ W, W = t.Causes (· ∈ K.pos) (Known (· ∈ K.pos) (· ∈ K.neg)) op args → NoConflict W → t.NotRead op W → ∀ fuel, N ≤ fuel →
      ∃ k K', op.apply P.omap P.axioms fuel args K = .ok (k, K') ∧ op.apply P.omap P.axioms fuel args K' = .ok (0, K') := by
  obtain ⟨N, h⟩ := C89_partial_state_partial b n hP up ht hp
  refine ⟨N, fun op ho hcl args hw K hcons hk W hW h1 h2 fuel hn => ?_⟩
  obtain ⟨k, K', e, hcons', hpos, hneg, -⟩ := h op ho hcl args hw K hcons hk W hW h1 h2 fuel hn
  refine ⟨k, K', e, ?_⟩
  have hagree : ∀ y : Atom, op.eff.Reads y.pred → (y ∈ K.pos ↔ y ∈ K'.pos) := by
    intro y hr
    have n1 := fun sign hc => (h2 sign y hc).1 hr
    rw [hpos]
    exact ⟨fun hy => .inr ⟨hy, n1 _⟩, fun hy => (hy.resolve_left (n1 _)).1⟩
  have hso : ∀ sign y, t.Causes (· ∈ K.pos) (Known (· ∈ K.pos) (· ∈ K.neg)) op args sign y →
      Known (· ∈ K'.pos) (· ∈ K'.neg) sign y := by
    intro sign y hy
    rw [← hW] at hy
    cases sign
    · have : y ∈ K'.neg := (hneg y).2 (.inl hy)
      exact ⟨this, fun h => hcons' y h this⟩
    · have : y ∈ K'.pos := (hpos y).2 (.inl hy)
      exact ⟨this, hcons' y this⟩
  have again : ∀ {sign x}, t.Causes (· ∈ K'.pos) (Known (· ∈ K'.pos) (· ∈ K'.neg)) op args sign x →
      W sign x ∧ Known (· ∈ K'.pos) (· ∈ K'.neg) sign x := by
    intro sign x hx
    rw [hW]
    exact causes_again hagree hso hx
  have hk' : Knows (t.constants ++ t.objects) (· ∈ K'.pos) (· ∈ K'.neg) (t.MayAsk op) := by
    intro pred os hq hm
    have hq' := hq
    obtain ⟨ax, hax, ha, hr⟩ := hq
    have n1 : ∀ sign, ¬ W sign ⟨pred, os.map Obj.name⟩ := by
      intro sign hc
      rcases ha with rfl | ha
      · exact (h2 sign _ hc).1 (Eff.asks_reads hr)
      · exact (h2 sign _ hc).2 ax hax ha (Eff.asks_reads hr)
    exact (hk pred os hq' hm).imp (fun h => (hpos _).2 (.inr ⟨h, n1 _⟩)) (fun h => (hneg _).2 (.inr ⟨h, n1 _⟩))
  obtain ⟨k', K'', e', -, hpos', hneg', hz, -⟩ := h op ho hcl args hw K' hcons' hk' _ rfl (fun x a b => h1 x (again a).1 (again b).1)
    (fun sign x hx => h2 sign x (again hx).1) fuel hn
  have : K'' = K' := by
    have a1 : K''.pos = K'.pos := State.ext fun x => by
      rw [hpos']
      exact ⟨fun hx => hx.elim (fun hx => (again hx).2.1) And.left, fun hx => .inr ⟨hx, fun hc => (again hc).2.2 hx⟩⟩
    have a2 : K''.neg = K'.neg := State.ext fun x => by
      rw [hneg']
      exact ⟨fun hx => hx.elim (fun hx => (again hx).2.1) And.left, fun hx => .inr ⟨hx, fun hc => (again hc).2.2 hx⟩⟩
    cases K'; cases K''
    simp only at a1 a2
    rw [a1, a2]
  rw [e', hz.2 this, this]

end

/-! ## Examples -/

section
open Demo
attribute [local instance] lenHash

/-- `pick(a)` in every State of the demo domain. -/
example : ∃ N, ∀ s : State, ∀ fuel, N ≤ fuel → ∃ k s', pick.apply P.omap P.axioms fuel [a] s = .ok (k, s') ∧
    pick.apply P.omap P.axioms fuel [a] s' = .ok (0, s') := by
  obtain ⟨N, h⟩ := C98_state_partial true 5 P_made demoUp demo_checked demo_plain
  exact ⟨N, fun s fuel hn => h pick (by simp [tree]) [a] pick_typed s (pick_free _ _) (pick_unread _) fuel hn⟩

/-- And in every PartialState that does not contradict itself. -/
example : ∃ N, ∀ K : PartialState, (∀ x ∈ K.pos, x ∉ K.neg) → ∀ fuel, N ≤ fuel →
    ∃ k K', pick.apply P.omap P.axioms fuel [a] K = .ok (k, K') ∧ pick.apply P.omap P.axioms fuel [a] K' = .ok (0, K') := by
  obtain ⟨N, h⟩ := C98_partial_state_partial true 5 P_made demoUp demo_checked demo_plain
  exact ⟨N, fun K hcons fuel hn => h pick (by simp [tree]) pick_closed [a] pick_typed K hcons (pick_knows _ _) _ rfl (pick_free _ _)
    (pick_unread _) fuel hn⟩

/-- `flip(?x)`: eff `(when (inhand ?x) (busy ?x))`, `(inhand ?x)` with the condition after it. -/
def flip : Op where
  name := n!"flip"
  params := [x]
  pre := .conj []
  eff := .mk .nil [] [] (.cons (.atom n!"inhand" [.var x]) (.mk .nil [(n!"busy", [.var x])] [] .nil)
    (.cons (.conj []) (.mk .nil [(n!"inhand", [.var x])] [] .nil) .nil))

def flipTree : Ptree := { tree with ops := [flip], drvs := [] }
theorem flipMade : (Pddl.make flipTree false 5).isOk = true := by decide +kernel
def flipP : Pddl := get _ flipMade

/-- **C98, refuted** for conditions that read what is caused: the second call sees what the first one added. -/
theorem C98_refuted : Pddl.make flipTree false 5 = .ok flipP ∧
    flip.apply flipP.omap flipP.axioms 5 [a] State.empty = .ok (1, State.ofList [inhand a]) ∧
    flip.apply flipP.omap flipP.axioms 5 [a] (State.ofList [inhand a]) = .ok (1, State.ofList [inhand a, busyA a]) :=
  ⟨get_eq _ _, by decide +kernel, by decide +kernel⟩

end

end Symbolic
