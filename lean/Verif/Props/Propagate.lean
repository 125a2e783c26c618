import Verif.Lemmas.PropagateReturns
import Verif.Props.Cascade
import Verif.Props.Least
import Verif.Props.Partial
import Verif.Spec.Reorder

/-!
# C94: ConsistentState on a PartialState uses axioms as rules
-/

namespace Symbolic

section
variable [StrHash] {t : Ptree} {b : Bool} {n : Nat} {P : Pddl}

/-- **C94, partial.** `ConsistentState(p)` returns, and what the result knows are the facts that follow from what `p` knows by
using axioms as rules, if no fact follows together with its opposite.

Missing for the full claim: facts that contradict each other, see `C94_order_refuted`; conditional effects of axioms and
contexts about `=` and types; domains that do not pass a type checker, see `C33_narrow_axiom_refuted`. -/
theorem C94_rules_partial (hP : Pddl.make t b n = .ok P) (up : Name → List Name) (ht : t.TypeChecked up) (hp : t.PlainEffects)
    (hr : t.RulesOnly) : ∃ N, ∀ fuel, N ≤ fuel → ∀ p : PartialState, t.Coherent (· ∈ p.pos) (· ∈ p.neg) →
      ∃ p', P.consistentStateP fuel p = .ok p' ∧
      ∀ x, (x ∈ p'.pos ↔ t.Follows (· ∈ p.pos) (· ∈ p.neg) true x) ∧
        (x ∈ p'.neg ↔ t.Follows (· ∈ p.pos) (· ∈ p.neg) false x) := by
  have B := Pddl.built hP
  refine ⟨(declaredLits (t.constants ++ t.objects) t.preds).length, fun fuel hn p hc => ?_⟩
  obtain ⟨p', h⟩ := (Between.two_passes B ht hp hr hc hn).1
  refine ⟨p', h, ?_⟩
  have hb := Between.fix B ht hp hr hc hn 0 p p' (.refl t p) h
  have hcons := hb.consistent hc
  have key : ∀ sign x, t.Follows (· ∈ p.pos) (· ∈ p.neg) sign x → if sign = true then x ∈ p'.pos else x ∈ p'.neg := by
    intro sign x hx
    induction hx with
    | isTrue h => exact hb.grows.1 _ h
    | isFalse h => exact hb.grows.2 _ h
    | @rule ax as x sign y h1 h2 _ h4 h5 ih =>
      obtain ⟨e1, e2, e3, e4⟩ := hr ax h1 h2
      obtain ⟨hne, hwf, -, -⟩ := (ht.ops ax h1).axiom_ h2
      obtain ⟨pred, cargs, hctx⟩ := B.contexts ax h1 h2
      have hpl := (makes_respects ax.eff _ _ y (hp ax h1) (ht.effTyped h1 h4.1) h5).1
      refine C33_consequences_known t b n P hP ht.names fuel p p' h ax h1 h2 ⟨hne, hwf, (ht.ops ax h1).formed⟩ e3 e4 as h4.1 ?_
        (PartialState.isConsistent_iff.2 hcons) _ sign y hpl.1 hpl.2 h5
      rw [B.omap, context_known hctx e1 e2 hwf h4.1 hcons]
      exact ⟨x, h4, ih⟩
  exact fun x => ⟨⟨hb.pos x, key true x⟩, hb.neg x, key false x⟩

/-- **C94, partial.** `IsValidState(p)` returns and accepts `p`, if no fact follows from what `p` knows together with its
opposite. -/
theorem C94_accepts_partial (hP : Pddl.make t b n = .ok P) (up : Name → List Name) (ht : t.TypeChecked up)
    (hp : t.PlainEffects) (hr : t.RulesOnly) : ∃ N, ∀ fuel, N ≤ fuel → ∀ p : PartialState,
      t.Coherent (· ∈ p.pos) (· ∈ p.neg) → P.isValidStateP fuel p = .ok true :=
  ⟨max 2 (declaredLits (t.constants ++ t.objects) t.preds).length, fun _ hn _ hc =>
    (Between.two_passes (Pddl.built hP) ht hp hr hc (by omega)).2 (by omega)⟩

end

theorem follows_congr {t₁ t₂ : Ptree} (ho : ∀ o, o ∈ t₁.constants ++ t₁.objects ↔ o ∈ t₂.constants ++ t₂.objects)
    (hops : ∀ op : Op, op.isAxiom = true → (op ∈ t₁.ops ↔ op ∈ t₂.ops)) {T F : Atom → Prop} {sign : Bool} {x : Atom}
    (h : t₁.Follows T F sign x) : t₂.Follows T F sign x := by
  induction h with
  | isTrue h => exact .isTrue h
  | isFalse h => exact .isFalse h
  | rule h1 h2 _ h4 h5 ih =>
    exact .rule ((hops _ h2).1 h1) h2 ih ⟨(wellTyped_congr ho).1 h4.1, h4.2⟩ ((makes_objects ho _ _ _ _ _).1 h5)

/-- **C94, partial.** The order in which axioms and objects are declared does not matter for `ConsistentState(p)`, if no fact
follows together with its opposite. -/
theorem C94_order_partial [StrHash] {t₁ t₂ : Ptree} {b₁ b₂ : Bool} {n₁ n₂ : Nat} {P₁ P₂ : Pddl}
    (hP₁ : Pddl.make t₁ b₁ n₁ = .ok P₁) (hP₂ : Pddl.make t₂ b₂ n₂ = .ok P₂)
    (ho : ∀ o, o ∈ t₁.constants ++ t₁.objects ↔ o ∈ t₂.constants ++ t₂.objects)
    (hops : ∀ op : Op, op.isAxiom = true → (op ∈ t₁.ops ↔ op ∈ t₂.ops)) (up₁ up₂ : Name → List Name)
    (ht₁ : t₁.TypeChecked up₁) (ht₂ : t₂.TypeChecked up₂) (hp₁ : t₁.PlainEffects) (hp₂ : t₂.PlainEffects)
    (hr₁ : t₁.RulesOnly) (hr₂ : t₂.RulesOnly) :
    ∃ N, ∀ k₁ k₂, N ≤ k₁ → N ≤ k₂ → ∀ p : PartialState, t₁.Coherent (· ∈ p.pos) (· ∈ p.neg) →
      ∃ p', P₁.consistentStateP k₁ p = .ok p' ∧ P₂.consistentStateP k₂ p = .ok p' := by
  obtain ⟨N₁, h₁⟩ := C94_rules_partial hP₁ up₁ ht₁ hp₁ hr₁
  obtain ⟨N₂, h₂⟩ := C94_rules_partial hP₂ up₂ ht₂ hp₂ hr₂
  have ho' := fun o => (ho o).symm
  have hops' := fun op ha => (hops op ha).symm
  refine ⟨max N₁ N₂, fun k₁ k₂ hk₁ hk₂ p hc => ?_⟩
  obtain ⟨p₁, e₁, r₁⟩ := h₁ k₁ (by omega) p hc
  obtain ⟨p₂, e₂, r₂⟩ := h₂ k₂ (by omega) p
    (fun x h h' => hc x (follows_congr ho' hops' h) (follows_congr ho' hops' h'))
  refine ⟨p₁, e₁, ?_⟩
  rw [e₂]
  have e1 : p₁.pos = p₂.pos := State.ext fun x => by
    rw [(r₁ x).1, (r₂ x).1]; exact ⟨follows_congr ho hops, follows_congr ho' hops'⟩
  have e2 : p₁.neg = p₂.neg := State.ext fun x => by
    rw [(r₁ x).2, (r₂ x).2]; exact ⟨follows_congr ho hops, follows_congr ho' hops'⟩
  cases p₁; cases p₂
  simp only at e1 e2
  rw [e1, e2]

/-- A valid completion makes what follows coherent: it agrees with all of it. -/
theorem C94_coherent [StrHash] {t : Ptree} {b : Bool} {n : Nat} {P : Pddl} (hP : Pddl.make t b n = .ok P)
    (hp : t.PlainEffects) (hr : t.RulesOnly) {T F S : Atom → Prop} (hA : AxiomsHold (t.constants ++ t.objects) t.ops S)
    (hS : Compatible T F S) :
    (∀ sign x, t.Follows T F sign x → Is S sign x) ∧ t.Coherent T F := by
  have B := Pddl.built hP
  have key : ∀ sign x, t.Follows T F sign x → Is S sign x := by
    intro sign x h
    induction h with
    | isTrue h => exact ⟨fun _ => rfl, fun _ => hS.1 _ h⟩
    | isFalse h => exact ⟨fun h' => absurd h' (hS.2 _ h), fun h' => by simp at h'⟩
    | @rule ax as x sign y h1 h2 _ h4 h5 ih =>
      obtain ⟨e1, e2, e3, e4⟩ := hr ax h1 h2
      obtain ⟨pred, cargs, hctx⟩ := B.contexts ax h1 h2
      have hx : x.pred = ax.ctxPred := by obtain ⟨-, os, -, rfl⟩ := h4; rfl
      have h6 := hA ax h1 h2 as h4.1 (context_sat hctx (by rw [hx]; exact ⟨e1, e2⟩) h4 ih)
      exact makes_says ax.eff _ _ y (hp ax h1) h6 ((makes_noCond _ _ _ _ _ _ _ e4).1 h5)
  exact ⟨key, fun x h h' => by simpa using (key _ _ h').1 ((key _ _ h).2 rfl)⟩

/-! ## Examples -/

section
open Demo
attribute [local instance] lenHash

theorem demo_rulesOnly : tree.RulesOnly := by
  intro ax hm ha
  simp only [tree, List.mem_cons, List.not_mem_nil, or_false] at hm
  rcases hm with rfl | rfl | rfl
  · simp [pick] at ha
  · simp [place] at ha
  · refine ⟨by simp [held, Op.ctxPred], ?_, ?_, ?_⟩
    · simp [held, Op.ctxPred, IsType, HasType, tree, a, b, table, tBox, tObj]
    · simp [held, Goal.HasConst]
    · simp [held, Eff.NoCond, FList.NoCond]

theorem demo_coherent : tree.Coherent (· ∈ State.ofList [inhand a, on b table]) (· ∈ State.empty) := by
  refine (C94_coherent P_made demo_plain demo_rulesOnly (S := (· ∈ State.ofList [inhand a, on b table])) ?_
    ⟨fun _ h => h, fun x h => absurd h (State.not_mem_empty x)⟩).2
  exact (C32_valid_iff_axioms_hold tree true 5 P P_made (by decide)
    (fun op ho ha => ⟨(demo_sorted op ho ha).1.formed, (demo_sorted op ho ha).2⟩) 5
    (State.ofList [inhand a, on b table])).1 (by decide +kernel)

/-- A box that is in the hand is on nothing: that is all that follows. -/
example : ∃ N, ∀ fuel, N ≤ fuel → ∃ p',
    P.consistentStateP fuel ⟨State.ofList [inhand a, on b table], State.empty⟩ = .ok p' ∧
    ∀ x, (x ∈ p'.pos ↔ tree.Follows (· ∈ State.ofList [inhand a, on b table]) (· ∈ State.empty) true x) ∧
      (x ∈ p'.neg ↔ tree.Follows (· ∈ State.ofList [inhand a, on b table]) (· ∈ State.empty) false x) := by
  obtain ⟨N, h⟩ := C94_rules_partial P_made demoUp demo_checked demo_plain demo_rulesOnly
  exact ⟨N, fun fuel hn => h fuel hn ⟨State.ofList [inhand a, on b table], State.empty⟩ demo_coherent⟩

example : ∃ N, ∀ fuel, N ≤ fuel →
    P.isValidStateP fuel ⟨State.ofList [inhand a, on b table], State.empty⟩ = .ok true := by
  obtain ⟨N, h⟩ := C94_accepts_partial P_made demoUp demo_checked demo_plain demo_rulesOnly
  exact ⟨N, fun fuel hn => h fuel hn ⟨State.ofList [inhand a, on b table], State.empty⟩ demo_coherent⟩

def nearA (p : Obj) : Atom := ⟨n!"near", [p.name]⟩

/-- `(clear ?x) => (near ?x)`. -/
def ovr3 : Op := ⟨n!"axiom", [x], .atom n!"clear" [.var x], .mk .nil [(n!"near", [.var x])] [] .nil, true⟩
def ovrTree₁ : Ptree :=
  { ovrTree with ops := [ovr1, ovr2, ovr3], preds := ⟨n!"near", [x]⟩ :: ovrTree.preds }
def ovrTree₂ : Ptree :=
  { ovrTree with ops := [ovr3, ovr1, ovr2], preds := ⟨n!"near", [x]⟩ :: ovrTree.preds }

theorem ovrMade₁ : (Pddl.make ovrTree₁ true 5).isOk = true := by decide +kernel
def ovrP₁ : Pddl := get _ ovrMade₁
theorem ovrP₁_made : Pddl.make ovrTree₁ true 5 = .ok ovrP₁ := get_eq _ _
theorem ovrMade₂ : (Pddl.make ovrTree₂ true 5).isOk = true := by decide +kernel
def ovrP₂ : Pddl := get _ ovrMade₂
theorem ovrP₂_made : Pddl.make ovrTree₂ true 5 = .ok ovrP₂ := get_eq _ _

/-- **C94, refuted** for facts that contradict each other by the axioms: a triggered axiom forgets `clear(a)`, and whether
what follows from it is known depends on the order of axioms. -/
theorem C94_order_refuted :
    (∀ op, op ∈ ovrTree₁.ops ↔ op ∈ ovrTree₂.ops) ∧
    ovrP₁.consistentStateP 5 ⟨State.ofList [inhand a, clear a], State.empty⟩ =
      .ok ⟨State.ofList [inhand a, busyA a], State.ofList [clear a]⟩ ∧
    ovrP₂.consistentStateP 5 ⟨State.ofList [inhand a, clear a], State.empty⟩ =
      .ok ⟨State.ofList [inhand a, busyA a, nearA a], State.ofList [clear a]⟩ := by
  refine ⟨fun op => ?_, by decide +kernel, by decide +kernel⟩
  simp only [ovrTree₁, ovrTree₂, List.mem_cons, List.not_mem_nil, or_false]
  constructor
  · rintro (h | h | h) <;> simp [h]
  · rintro (h | h | h) <;> simp [h]

end

end Symbolic
