import Verif.Lemmas.Terminate
import Verif.Lemmas.Construct
import Verif.Examples.Demo

/-!
# C26, C27: axioms triggered by effects
-/

namespace Symbolic

/-! ## C26 -/

section
open Demo
attribute [local instance] lenHash

/-- `link(?x - object, ?y - object)` adds `(near ?x ?y)`. -/
def linkOp : Op where
  name := n!"link"
  params := [z, y]
  pre := .conj []
  eff := .mk .nil [(n!"near", [.var z, .var y])] [] .nil

/-- Axiom `(near ?x ?x) => (odd ?x)`. -/
def oddAx : Op where
  name := n!"axiom"
  params := [x]
  pre := .atom n!"near" [.var x, .var x]
  eff := .mk .nil [(n!"odd", [.var x])] [] .nil
  isAxiom := true

/-- Axiom with a parameter that its context does not mention: `(near ?z ?y) => (seen ?u)`. -/
def leakAx : Op where
  name := n!"axiom"
  params := [z, y, u]
  pre := .atom n!"near" [.var z, .var y]
  eff := .mk .nil [(n!"seen", [.var u])] [] .nil
  isAxiom := true

/-- Axiom about boxes: `(near ?x ?u) => (stacked ?x)` for `?x ?u - box`. -/
def boxAx : Op where
  name := n!"axiom"
  params := [x, u]
  pre := .atom n!"near" [.var x, .var u]
  eff := .mk .nil [(n!"stacked", [.var x])] [] .nil
  isAxiom := true

def linkTree (ax : Op) : Ptree where
  types := some [tBox, tObj]
  constants := [table]
  objects := [a, b]
  ops := [linkOp, ax]
  preds := [⟨n!"near", [z, y]⟩, ⟨n!"odd", [x]⟩, ⟨n!"seen", [u]⟩, ⟨n!"stacked", [x]⟩]
  drvs := []
  init := []
  goal := .conj []

def near (p q : Obj) : Atom := ⟨n!"near", [p.name, q.name]⟩

/-- **C26, refuted.** (1) A repeated variable of the context is not checked: adding `near(a, b)` triggers the axiom about
`near(?x, ?x)` with `?x := b`. (2) A parameter that does not occur in the context is not instantiated: the atom
`seen(u)` about the variable `?u` enters the state. (3) Types are not checked: `near(table, a)` triggers an axiom about
boxes. -/
theorem C26_context_instances_refuted :
    (do let P ← Pddl.make (linkTree oddAx) true 5
        P.nextState 5 State.empty n!"link(a, b)") = .ok (State.ofList [near a b, ⟨n!"odd", [n!"b"]⟩]) ∧
    (do let P ← Pddl.make (linkTree leakAx) true 5
        P.nextState 5 State.empty n!"link(a, b)") = .ok (State.ofList [near a b, ⟨n!"seen", [n!"u"]⟩]) ∧
    (do let P ← Pddl.make (linkTree boxAx) true 5
        P.nextState 5 State.empty n!"link(table, a)") = .ok (State.ofList [near table a, ⟨n!"stacked", [n!"table"]⟩]) := by
  refine ⟨?_, ?_, ?_⟩ <;> decide +kernel

/-- None of the three is licensed: no instance of the first axiom has the context `near(a, b)`, `u` is not an object,
and `table` is not a box. -/
theorem C26_refuted_is_wrong : (∀ as, ¬ oddAx.Triggered as [a, b]) ∧ ¬ Ground [table, a, b] ⟨n!"seen", [n!"u"]⟩ ∧
    ¬ WellTyped [table, a, b] boxAx.params [table, a] := by
  refine ⟨?_, ?_, ?_⟩
  · rintro as ⟨-, h⟩
    simp only [oddAx, Op.ctx, List.forall₂_cons, MatchTerm] at h
    rw [h.1] at h
    have := h.2.1
    simp [a, b] at this
  · rintro ⟨os, h1, h2⟩
    obtain ⟨o, os', rfl, h2, -⟩ := List.map_eq_cons_iff.1 h2.symm
    have := h1 o (by simp)
    simp only [List.mem_cons, List.not_mem_nil, or_false] at this
    rcases this with rfl | rfl | rfl <;> simp [a, b, table] at h2
  · intro h
    cases h with
    | cons h _ => simp [HasType, x, table, tBox, tObj, Obj.typeName] at h

end

/-- **C26, partial.** In every constructed Pddl: an effect literal `(pred, ts)` that changed the state under the
arguments `args` fires, in the order of declaration, exactly the axiom instances whose context has that sign and is that
atom; each axiom is fired at most once. For axioms about `pred` whose context mentions each parameter exactly once.
Missing: repeated or missing context variables, types of the triggered instance. -/
theorem C26_fires_exactly_partial [StrHash] (t : Ptree) (b : Bool) (fuel : Nat) (P : Pddl)
    (hP : Pddl.make t b fuel = .ok P) (params args : List Obj) (hlen : args.length = params.length)
    (hn : (params.map Obj.name).Nodup) (sign : Bool) (pred : Name) (ts : List Term)
    (hs : ∀ t ∈ ts, t.Scoped (params.map Obj.name)) (os : List Obj)
    (hos : List.Forall₂ (Denotes (Env.none.bind params args)) ts os)
    (hlin : ∀ ax ∈ P.axioms, ax.pos = sign → ax.pred = pred → ax.op.Linear ∧ ax.op.ctx.length = ts.length) (n : Nat) :
    ∃ insts : List (Ax × List Obj), (insts.map Prod.fst).Sublist P.axioms ∧
      (∀ ax as, (ax, as) ∈ insts ↔ ax ∈ P.axioms ∧ ax.pos = sign ∧ ax.pred = pred ∧ ax.op.Triggered as os) ∧
      ∀ s : State, fireN P.omap P.axioms (n + 1) sign pred params (ts.map Term.obj) args s =
        runInsts (fun ax as s => ax.op.apply P.omap P.axioms n as s) insts s := by
  have B := Pddl.built hP
  rw [forall₂_denotes hlen.symm hs] at hos
  subst hos
  obtain ⟨insts, h1, h2, h3⟩ := fireLoop_spec (σ := State)
    (run := fun ax as s => ax.op.apply P.omap P.axioms n as s) (sign := sign) (pred := pred) hlen.symm hn hs P.axioms
    (fun ax hm hp hq => by
      obtain ⟨hl1, hl2⟩ := hlin ax hm hp hq
      refine ⟨hl1, ?_, hl2⟩
      have hc := (B.ax hm).2.2.1
      revert hc
      unfold Op.ctx contextOf
      split <;> intro hc <;> simp_all)
  exact ⟨insts, h1, h3, h2⟩

/-- **C26, partial.** In every constructed Pddl whose axioms mention every parameter in the context, applying an action
to declared objects only puts atoms over declared objects into the state: conditional and universal effects and nested
axioms included. Missing: axioms with parameters that the context does not mention. -/
theorem C26_ground_partial [StrHash] (t : Ptree) (b : Bool) (fuel : Nat) (P : Pddl)
    (hP : Pddl.make t b fuel = .ok P) (arity : Name → Nat)
    (hax : ∀ op ∈ t.ops, op.isAxiom = true → op.Covered)
    (hctx : ∀ ax ∈ P.axioms, ax.op.ctx.length = arity ax.pred)
    (hclosed : ∀ op ∈ t.ops, op.eff.Closed arity (t.constants ++ t.objects) (op.params.map Obj.name))
    (op : Op) (hop : op ∈ t.ops) (args : List Obj) (hlen : args.length = op.params.length)
    (hargs : ∀ o ∈ args, o ∈ t.constants ++ t.objects) (s s' : State) (n k : Nat)
    (h : op.apply P.omap P.axioms n args s = .ok (k, s')) (hs : ∀ x ∈ s, Ground (t.constants ++ t.objects) x) :
    ∀ x ∈ s', Ground (t.constants ++ t.objects) x := by
  have B := Pddl.built hP
  have hG : KeepsGround (σ := State) (t.constants ++ t.objects) (fun s => ∀ x ∈ s, Ground (t.constants ++ t.objects) x) :=
    { insert := by
        intro s y hy hs x hx
        have := (mem_stepOp (sign := true) (x := y) (y := x) (s := s)).1 hx
        split at this
        · rename_i e; subst e; exact hy
        · exact hs x this
      erase := by
        intro s y hy hs x hx
        have := (mem_stepOp (sign := false) (x := y) (y := x) (s := s)).1 hx
        split at this
        · simp at this
        · exact hs x this }
  have hf := fireN_ground (arity := arity) (axs := P.axioms) hG (fun ax hm => by
    obtain ⟨h1, h2, h3, -⟩ := B.ax hm
    refine ⟨hax _ h1 h2, ?_, hctx ax hm, hclosed _ h1⟩
    revert h3
    unfold Op.ctx contextOf
    split <;> intro hc <;> simp_all) n
  rw [Op.apply, B.omap] at h
  exact Eff.apply_ground hG hf op.eff op.params args s _ hlen.symm hargs (hclosed op hop) hs h

section
open Demo
attribute [local instance] lenHash

/-- The axiom of the demo domain is linear. -/
example : held.Linear := ⟨by decide, by simp [held, Op.ctx, Term.Scoped], by decide, by decide⟩

/-- `pick(a)` triggers it with `?x := a`. -/
example : held.Triggered [a] [a] := ⟨rfl, .cons rfl .nil⟩

/-- A context with a constant and variables in another order. -/
def mixedAx : Op where
  name := n!"axiom"
  params := [x, y]
  pre := .neg (.atom n!"link" [.var y, .const table, .var x])
  eff := .mk .nil [] [(n!"near", [.var x, .var y])] .nil
  isAxiom := true

example : mixedAx.Linear := ⟨by decide, by
  simp [mixedAx, Op.ctx, Term.Scoped, x, y, table], by decide, by decide⟩

example : mixedAx.Triggered [a, b] [b, table, a] ∧ ∀ as, ¬ mixedAx.Triggered as [b, b, a] := by
  refine ⟨⟨rfl, .cons rfl (.cons rfl (.cons rfl .nil))⟩, ?_⟩
  rintro as ⟨-, h⟩
  simp only [mixedAx, Op.ctx, List.forall₂_cons, MatchTerm] at h
  simp [b, table] at h

/-- The demo domain meets the hypotheses of the ground theorem. -/
def demoArity : Name → Nat := fun p => if p = n!"on" then 2 else 1

example : (∀ op ∈ tree.ops, op.isAxiom = true → op.Covered) ∧
    (∀ op ∈ tree.ops, op.eff.Closed demoArity (tree.constants ++ tree.objects) (op.params.map Obj.name)) ∧
    ∀ x ∈ State.ofList [on a b], Ground (tree.constants ++ tree.objects) x := by
  refine ⟨?_, ?_, ?_⟩
  · intro op hop hax
    simp only [tree, List.mem_cons, List.not_mem_nil, or_false] at hop
    rcases hop with rfl | rfl | rfl
    · simp [pick] at hax
    · simp [place] at hax
    · exact ⟨by decide, by decide⟩
  · intro op hop
    simp only [tree, List.mem_cons, List.not_mem_nil, or_false] at hop
    rcases hop with rfl | rfl | rfl <;>
      simp [pick, place, held, Eff.Closed, FList.Closed, CList.Closed, ClosedLits, demoArity, x, y, z]
  · intro q hq
    rw [State.mem_ofList] at hq
    simp only [List.mem_singleton] at hq
    subst hq
    exact ⟨[a, b], by decide, rfl⟩

end

/-! ## C27 -/

section
open Demo
attribute [local instance] lenHash

/-- `turn(?x)` adds `(up ?x)`. -/
def turnOp : Op where
  name := n!"turn"
  params := [x]
  pre := .conj []
  eff := .mk .nil [(n!"up", [.var x])] [] .nil

/-- Axioms `(up ?x) => (not (up ?x))` and `(not (up ?x)) => (up ?x)`. -/
def downAx : Op where
  name := n!"axiom"
  params := [x]
  pre := .atom n!"up" [.var x]
  eff := .mk .nil [] [(n!"up", [.var x])] .nil
  isAxiom := true

def upAx : Op where
  name := n!"axiom"
  params := [x]
  pre := .neg (.atom n!"up" [.var x])
  eff := .mk .nil [(n!"up", [.var x])] [] .nil
  isAxiom := true

def turnTree : Ptree where
  constants := []
  objects := [a]
  ops := [turnOp, downAx, upAx]
  preds := [⟨n!"up", [x]⟩]
  drvs := []
  init := []
  goal := .conj []

def upA : Atom := ⟨n!"up", [n!"a"]⟩

theorem turn_fires (arg1 arg2 : List (List Obj)) : ∀ (n : Nat) (s : State),
    (upA ∈ s → fireN (ObjMap.create [a])
      [⟨downAx, true, n!"up", [x], arg1⟩, ⟨upAx, false, n!"up", [x], arg2⟩] n true n!"up" [x] [x] [a] s = .fuel) ∧
    (upA ∉ s → fireN (ObjMap.create [a])
      [⟨downAx, true, n!"up", [x], arg1⟩, ⟨upAx, false, n!"up", [x], arg2⟩] n false n!"up" [x] [x] [a] s = .fuel)
  | 0, s => ⟨fun _ => rfl, fun _ => rfl⟩
  | n + 1, s => by
    have ih := turn_fires arg1 arg2 n
    have hk : atomKind (ObjMap.create [a]) n!"up" = .plain := by decide
    have hf : applyFn [x] [x] [a] = .ok [a] := by decide
    constructor
    · intro hs
      have hne : (StateLike.erase (σ := State) s upA).1 ≠ 0 := by
        have := stepOp_code (sign := false) (x := upA) (s := s)
        intro h0
        have h1 := this.1 h0
        simp [hs] at h1
      have hns : upA ∉ (StateLike.erase (σ := State) s upA).2 := by
        have := mem_stepOp (sign := false) (x := upA) (y := upA) (s := s)
        intro h; have := this.1 h; simp at this
      have key : ∀ fire : Fire State, fire false n!"up" [x] [x] [a] (StateLike.erase (σ := State) s upA).2 = .fuel →
          downAx.eff.apply (ObjMap.create [a]) fire [x] [a] s = .fuel := by
        intro fire hfire
        have e : Atom.ofObjs n!"up" [a] = upA := rfl
        simp only [downAx, Eff.apply, FList.apply, applySimples, applySimple, Res.bind_ok, List.map_cons, List.map_nil,
          Term.obj, hf, hk, e, Bool.false_eq_true, if_false, if_neg hne, hfire, Res.bind_fuel]
      simp only [fireN, fireLoop, and_self, if_true]
      have hm : axMatch [x] [x] downAx.params [x] = .ok (some ⟨[x], [(0, 0)], []⟩) := rfl
      have ha : (⟨[x], [(0, 0)], []⟩ : AxMatch).apply [a] = .ok (some [a]) := rfl
      rw [hm]
      simp only [Res.bind_ok, ha]
      have : downAx.params = [x] := rfl
      rw [this, key _ ((ih _).2 hns)]
      rfl
    · intro hs
      have hne : (StateLike.insert (σ := State) s upA).1 ≠ 0 := by
        have := stepOp_code (sign := true) (x := upA) (s := s)
        intro h0
        have h1 := this.1 h0
        simp [hs] at h1
      have hns : upA ∈ (StateLike.insert (σ := State) s upA).2 := by
        have := mem_stepOp (sign := true) (x := upA) (y := upA) (s := s)
        exact this.2 (by simp)
      have key : ∀ fire : Fire State, fire true n!"up" [x] [x] [a] (StateLike.insert (σ := State) s upA).2 = .fuel →
          upAx.eff.apply (ObjMap.create [a]) fire [x] [a] s = .fuel := by
        intro fire hfire
        have e : Atom.ofObjs n!"up" [a] = upA := rfl
        simp only [upAx, Eff.apply, FList.apply, applySimples, applySimple, Res.bind_ok, List.map_cons, List.map_nil,
          Term.obj, hf, hk, e, if_true, if_neg hne, hfire, Res.bind_fuel]
      simp only [fireN, fireLoop, Bool.true_eq_false, false_and, if_false, and_self, if_true]
      have hm : axMatch [x] [x] upAx.params [x] = .ok (some ⟨[x], [(0, 0)], []⟩) := rfl
      have ha : (⟨[x], [(0, 0)], []⟩ : AxMatch).apply [a] = .ok (some [a]) := rfl
      rw [hm]
      simp only [Res.bind_ok, ha]
      have : upAx.params = [x] := rfl
      rw [this, key _ ((ih _).1 hns)]
      rfl

/-- **C27, refuted.** A domain that the constructor accepts in which `NextState(s, "turn(a)")` never returns: two axioms
trigger each other for ever. -/
theorem C27_termination_refuted : ∃ P, Pddl.make turnTree false 0 = .ok P ∧
    ∀ fuel, P.nextState fuel State.empty n!"turn(a)" = .fuel := by
  have hok : (Pddl.make turnTree false 0).isOk = true := by decide +kernel
  refine ⟨get _ hok, get_eq _ _, fun fuel => ?_⟩
  have hp : (get _ hok).parseAction n!"turn(a)" = .ok (turnOp, [a]) := by rfl
  have hax : ∃ arg1 arg2, (get _ hok).axioms =
      [⟨downAx, true, n!"up", [x], arg1⟩, ⟨upAx, false, n!"up", [x], arg2⟩] := ⟨_, _, rfl⟩
  have hom : (get _ hok).omap = ObjMap.create [a] := rfl
  obtain ⟨arg1, arg2, hax⟩ := hax
  have hk : atomKind (ObjMap.create [a]) n!"up" = .plain := by decide
  have hf : applyFn [x] [x] [a] = .ok [a] := by decide
  have e : Atom.ofObjs n!"up" [a] = upA := rfl
  have hin := (mem_stepOp (sign := true) (x := upA) (y := upA) (s := State.empty)).2 (by simp)
  have hne : (StateLike.insert (σ := State) State.empty upA).1 ≠ 0 := by
    intro h0
    have h1 := (stepOp_code (sign := true) (x := upA) (s := State.empty)).1 h0
    simp [State.not_mem_empty] at h1
  simp only [Pddl.nextState, hp, Res.bind_ok, Pddl.applyOp, Op.apply, hax, hom]
  have hfire := (turn_fires arg1 arg2 fuel _).1 hin
  simp only [turnOp, Eff.apply, FList.apply, applySimples, applySimple, Res.bind_ok, List.map_cons, List.map_nil,
    Term.obj, hf, hk, e, if_true, if_neg hne]
  have h2 : (stepOp true upA State.empty).2 = (StateLike.insert (σ := State) State.empty upA).2 := rfl
  rw [h2] at hfire
  rw [hfire]
  rfl

end

/-- **C27, partial.** If the signed predicates can be ranked such that every effect of an axiom has a smaller rank than
its context (no axiom triggers itself through others), applying any action returns or throws: every budget above the
ranks of its effects suffices. Missing: cyclic axioms, which can trigger each other for ever. -/
theorem C27_termination_partial [StrHash] (objects : List Obj) (axs : List Ax) (rank : Bool → Name → Nat)
    (hr : Ranked rank axs) (op : Op) (args : List Obj) (s : State) (fuel : Nat)
    (hfuel : ∀ sign p, op.eff.Touches sign p → rank sign p < fuel) :
    op.apply (ObjMap.create objects) axs fuel args s ≠ .fuel :=
  Eff.apply_ne_fuel objects (fireN_total objects hr fuel) op.eff _ _ _ hfuel

/-- **C27, partial**, for PartialStates. -/
theorem C27_termination_partial_state [StrHash] (objects : List Obj) (axs : List Ax) (rank : Bool → Name → Nat)
    (hr : Ranked rank axs) (op : Op) (args : List Obj) (s : PartialState) (fuel : Nat)
    (hfuel : ∀ sign p, op.eff.Touches sign p → rank sign p < fuel) :
    op.apply (ObjMap.create objects) axs fuel args s ≠ .fuel :=
  Eff.apply_ne_fuel objects (fireN_total objects hr fuel) op.eff _ _ _ hfuel

/-- **C27.** The outcome does not depend on the budget once it suffices. -/
theorem C27_budget_irrelevant [StrHash] (m : ObjMap) (axs : List Ax) (op : Op) (args : List Obj) (s : State)
    (n k : Nat) (hnk : n ≤ k) (h : op.apply m axs n args s ≠ .fuel) :
    op.apply m axs k args s = op.apply m axs n args s := Op.apply_mono m axs op args s hnk h

section
open Demo
attribute [local instance] lenHash

/-- In the demo domain only `inhand` triggers, and only `on` is changed by the axiom. -/
example : ∃ rank : Bool → Name → Nat, Ranked rank P.axioms ∧
    ∀ sign p, pick.eff.Touches sign p → rank sign p < 2 := by
  refine ⟨fun _ p => if p = n!"inhand" then 1 else 0, ?_, ?_⟩
  · intro ax hm sign p ht
    have hB := (Pddl.built P_made).ax hm
    have h1 : ax.op = held := by
      have := hB.1
      simp only [tree, List.mem_cons, List.not_mem_nil, or_false] at this
      rcases this with h | h | h
      · rw [h] at hB; simp [pick] at hB
      · rw [h] at hB; simp [place] at hB
      · exact h
    rw [h1] at ht hB
    have h3 := hB.2.2.1
    simp only [held, contextOf, Res.ok.injEq, Prod.mk.injEq] at h3
    simp only [held, Eff.Touches, FList.Touches, CList.Touches, ListsPred] at ht
    rw [← h3.2.1]
    simp at ht
    rw [ht.2]
    show (0 : Nat) < 1; omega
  · intro sign p ht
    dsimp only
    split <;> omega

end

end Symbolic
