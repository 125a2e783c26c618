import Verif.Lemmas.Monotone
import Verif.Props.Complete
import Verif.Props.KeepAxioms
import Verif.Props.Plans
import Verif.Props.Returns

/-!
# C102: more facts never hurt where nothing is deleted
-/

namespace Symbolic

section
variable [StrHash] {t : Ptree} {P : Pddl} {neg : Name → Prop}

/-- **C102.** Where only the predicates `neg` occur negatively, an action that is valid in a State is valid in every State with
more atoms, but the same atoms of `neg`. The same is true for goals. -/
theorem C102_valid (b : Bool) (n : Nat) (hP : Pddl.make t b n = .ok P) (hwf : t.WellFormed)
    (hpre : ∀ op ∈ t.ops, op.pre.Polar (fun _ => True) neg) (hgoal : t.goal.Polar (fun _ => True) neg) (s s' : State)
    (h : SubState neg (· ∈ s) (· ∈ s')) :
    (∀ call, P.isValidAction s call = .ok true → P.isValidAction s' call = .ok true) ∧
      (P.isGoalSatisfied s = .ok true → P.isGoalSatisfied s' = .ok true) := by
  have B := Pddl.built hP
  constructor
  · intro call hc
    simp only [Pddl.isValidAction, Res.bind_eq_ok] at hc
    obtain ⟨⟨op, args⟩, h1, h2⟩ := hc
    obtain ⟨ho, hlen⟩ := parse_mem h1
    rw [B.tree] at ho
    simp only [Pddl.isValidAction, h1, Res.bind_ok, Op.isValid, B.omap] at h2 ⊢
    obtain ⟨v, hv, hs⟩ := eval_sat _ s op.pre op.params args hlen (hwf.pre _ ho)
    obtain ⟨v', hv', hs'⟩ := eval_sat _ s' op.pre op.params args hlen (hwf.pre _ ho)
    rw [hv, Res.ok.injEq] at h2
    rw [hv', hs'.2 (h.sat (hpre op ho) (hs.1 h2))]
  · simp only [Pddl.isGoalSatisfied, B.tree, B.omap]
    intro h2
    obtain ⟨v, hv, hs⟩ := eval_sat _ s t.goal [] [] rfl hwf.goal
    obtain ⟨v', hv', hs'⟩ := eval_sat _ s' t.goal [] [] rfl hwf.goal
    rw [hv, Res.ok.injEq] at h2
    rw [hv', hs'.2 (h.sat hgoal (hs.1 h2))]

/-- **C102, partial.** In a domain that passes the type checker and deletes nothing, `NextState` keeps the order of States, when
the larger one is valid: the result from it has all atoms of the result from the smaller one, and is valid again.

Missing for the full claim: States that are not valid, see `C102_invalid_refuted`, and conditions of effects about predicates that
are added. -/
theorem C102_next_partial (b : Bool) (n : Nat) (hP : Pddl.make t b n = .ok P) (up : Name → List Name) (ht : t.TypeChecked up)
    (hwf : t.WellFormed) (hc : t.ContextsClosed) (hd : t.AxiomsUnderived) (hD : t.DeleteFree neg) (fuel : Nat) (s s' r r' : State)
    (call : Name) (h : SubState neg (· ∈ s) (· ∈ s')) (hv : P.isValidState fuel s' = .ok true) (e : P.nextState fuel s call = .ok r)
    (e' : P.nextState fuel s' call = .ok r') : SubState neg (· ∈ r) (· ∈ r') ∧ P.isValidState fuel r' = .ok true := by
  have B := Pddl.built hP
  simp only [Pddl.nextState, Res.bind_eq_ok, Pddl.applyOp, Res.pure_eq, Res.ok.injEq] at e e'
  obtain ⟨⟨op, args⟩, h1, ⟨k, m⟩, h2, q, h3, rfl⟩ := e
  obtain ⟨_, h1', ⟨k', m'⟩, h2', q', h3', rfl⟩ := e'
  rw [h1, Res.ok.injEq] at h1'
  subst h1'
  obtain ⟨ho, hw⟩ := parseAction_ok h1
  simp only [Pddl.symbols, B.tree] at ho hw
  obtain ⟨h4, h5⟩ := hD.apply B ht hwf.eff ho hw h ((valid_iff_hold hP ht hc fuel s').1 hv) h2 h2'
  refine ⟨?_, (valid_iff_hold hP ht hc fuel _).2 ((axiomsHold_derived B hwf.eff hd h3').2 h5)⟩
  have hdr : P.drvs = t.drvs := by rw [Pddl.drvs, B.tree]
  rw [B.omap, hdr] at h3 h3'
  exact drvsFix_below hwf.drvs (fun d hd => ⟨hD.rules d hd, hD.heads _ ⟨d, hd, rfl⟩⟩) h4 h3 h3'

/-- **C102, partial.** Hence, if `IsValidPlan` accepts a list of calls from a State, then it accepts it from every valid State with
more atoms. -/
theorem C102_plan_partial (b : Bool) (n : Nat) (hP : Pddl.make t b n = .ok P) (up : Name → List Name) (ht : t.TypeChecked up)
    (hwf : t.WellFormed) (hc : t.ContextsClosed) (hl : t.NoLoops) (hd : t.AxiomsUnderived) (hD : t.DeleteFree neg) :
    ∃ F, ∀ fuel, F ≤ fuel → ∀ (calls : List Name) (s s' : State), SubState neg (· ∈ s) (· ∈ s') →
      P.isValidState fuel s' = .ok true → Pddl.isValidPlan { P with initial := s } fuel calls = .ok true →
      Pddl.isValidPlan { P with initial := s' } fuel calls = .ok true := by
  obtain ⟨F, hF⟩ := C56_next_state_returns t b n P hP hwf hl
  refine ⟨F, fun fuel hn calls s s' h hv hp => ?_⟩
  rw [C36_valid_plan] at hp ⊢
  change Achieves (fun s a => P.isValidAction s a = .ok true) (fun s a s' => P.nextState fuel s a = .ok s')
    (fun s => P.isGoalSatisfied s = .ok true) s calls at hp
  show Achieves (fun s a => P.isValidAction s a = .ok true) (fun s a s' => P.nextState fuel s a = .ok s')
    (fun s => P.isGoalSatisfied s = .ok true) s' calls
  induction hp generalizing s' with
  | done hg => exact .done ((C102_valid b n hP hwf hD.pre hD.goal _ _ h).2 hg)
  | @step s m call calls h1 h2 _ ih =>
    have h3 := h2
    simp only [Pddl.nextState, Res.bind_eq_ok] at h3
    obtain ⟨c, h3, -⟩ := h3
    obtain ⟨m', h4⟩ := hF s' call c h3
    obtain ⟨h5, h6⟩ := C102_next_partial b n hP up ht hwf hc hd hD fuel _ _ _ _ call h hv h2 (h4 fuel hn)
    exact .step ((C102_valid b n hP hwf hD.pre hD.goal _ _ h).1 call h1) (h4 fuel hn) (ih m' h5 h6)

end

/-! ## Examples -/

section
open Demo
attribute [local instance] lenHash

/-- `stack(?x - box, ?y - object)`: pre `(not (fixed ?x))`, `(not (= ?x ?y))`; eff `(on ?x ?y)`. -/
def stackOp : Op where
  name := n!"stack"
  params := [x, y]
  pre := .conj [.neg (.atom n!"fixed" [.var x]), .neg (.atom n!"=" [.var x, .var y])]
  eff := .mk .nil [(n!"on", [.var x, .var y])] [] .nil

/-- Axiom `(on ?x ?y) => (moved ?x)`. -/
def movedAx : Op where
  name := n!"axiom"
  params := [x, y]
  pre := .atom n!"on" [.var x, .var y]
  eff := .mk .nil [(n!"moved", [.var x])] [] .nil
  isAxiom := true

/-- `(:derived (tall ?x - box) (and (moved ?x) (exists (?u - box) (on ?u ?x))))`. -/
def tallDrv : Drv where
  head := n!"tall"
  params := [x]
  body := .conj [.atom n!"moved" [.var x], .ex [u] (.atom n!"on" [.var u, .var x])]

/-- Nothing is deleted in this domain; only `fixed` and `=` occur negatively. -/
def stackTree : Ptree where
  types := some [tBox, tObj]
  constants := [table]
  objects := [a, b]
  ops := [stackOp, movedAx]
  preds := [⟨n!"on", [x, y]⟩, ⟨n!"moved", [x]⟩, ⟨n!"fixed", [x]⟩, ⟨n!"tall", [x]⟩]
  drvs := [tallDrv]
  init := []
  goal := .disj [.atom n!"tall" [.const b], .atom n!"moved" [.const a]]

theorem stackMade : (Pddl.make stackTree true 5).isOk = true := by decide +kernel
def stackP : Pddl := get _ stackMade
theorem stackP_made : Pddl.make stackTree true 5 = .ok stackP := get_eq _ _

def stackNeg (p : Name) : Prop := p = n!"fixed" ∨ p = n!"="

theorem stack_deleteFree : stackTree.DeleteFree stackNeg := by
  refine ⟨?_, ?_, ?_, ?_, ?_, ?_, ?_, by simp [stackTree, Goal.Polar, Goal.PolarL]⟩
  · intro op ho p hp
    simp only [stackTree, List.mem_cons, List.not_mem_nil, or_false] at ho
    rcases ho with rfl | rfl <;> simp [stackOp, movedAx, Eff.Touches, FList.Touches, CList.Touches, ListsPred] at hp
  · intro op ho p hp
    simp only [stackTree, List.mem_cons, List.not_mem_nil, or_false] at ho
    rcases ho with rfl | rfl <;> simp [stackOp, movedAx, Eff.Touches, FList.Touches, CList.Touches, ListsPred] at hp <;>
      obtain ⟨-, rfl⟩ := hp <;> simp [stackNeg]
  · rintro p ⟨d, hd, rfl⟩
    simp only [stackTree, List.mem_singleton] at hd
    subst hd
    simp [tallDrv, stackNeg]
  · intro op ho
    simp only [stackTree, List.mem_cons, List.not_mem_nil, or_false] at ho
    rcases ho with rfl | rfl <;> simp [stackOp, movedAx, Goal.Polar, Goal.PolarL, stackNeg]
  · intro op ho
    simp only [stackTree, List.mem_cons, List.not_mem_nil, or_false] at ho
    rcases ho with rfl | rfl <;> simp [stackOp, movedAx, Eff.CondsPolar, FList.CondsPolar, CList.CondsPolar]
  · intro op ho p hp
    simp only [stackTree, List.mem_cons, List.not_mem_nil, or_false] at ho
    rcases ho with rfl | rfl <;> simp [stackOp, movedAx, Eff.Reads, FList.Reads, CList.Reads] at hp
  · intro d hd
    simp only [stackTree, List.mem_singleton] at hd
    subst hd
    simp [tallDrv, Goal.Polar, Goal.PolarL]

theorem stack_wellFormed : stackTree.WellFormed := by
  refine ⟨by decide, ?_, ?_, ?_, ?_, by decide⟩
  · intro op ho
    simp only [stackTree, List.mem_cons, List.not_mem_nil, or_false] at ho
    rcases ho with rfl | rfl <;>
      simp [stackTree, stackOp, movedAx, Goal.WF, Goal.WFs, Term.Scoped, IsType, HasType, a, b, table, x, y, tBox, tObj]
  · intro op ho
    simp only [stackTree, List.mem_cons, List.not_mem_nil, or_false] at ho
    rcases ho with rfl | rfl <;>
      simp [stackTree, stackOp, movedAx, Eff.WF, FList.WF, CList.WF, WFLits, Term.Scoped, IsType, HasType, a, b, table, x, y,
        tBox, tObj]
  · simp [stackTree, Goal.WF, Goal.WFs, Term.Scoped, IsType, HasType, a, b, table, tBox, tObj]
  · intro d hd
    simp only [stackTree, List.mem_singleton] at hd
    subst hd
    exact ⟨by simp [tallDrv], by
      simp [stackTree, tallDrv, Goal.WF, Goal.WFs, Term.Scoped, IsType, HasType, a, b, table, x, u, tBox, tObj]⟩

theorem stack_noLoops : stackTree.NoLoops := by
  refine ⟨⟨fun _ p => if p = n!"on" then 1 else 0, ?_⟩, ⟨fun _ => 0, ?_⟩⟩
  · intro op ho ha sign p ht
    simp only [stackTree, List.mem_cons, List.not_mem_nil, or_false] at ho
    rcases ho with rfl | rfl
    · simp [stackOp] at ha
    · simp [movedAx, Eff.Touches, FList.Touches, CList.Touches, ListsPred] at ht
      obtain ⟨-, rfl⟩ := ht
      simp [movedAx, Op.ctxPred]
  · intro d hd p n hm hh
    simp only [stackTree, List.mem_singleton] at hd
    subst hd
    obtain ⟨d, hd, rfl⟩ := hh
    simp only [stackTree, List.mem_singleton] at hd
    subst hd
    simp [tallDrv, Goal.Mentions, Goal.MentionsL] at hm

theorem stack_contexts : stackTree.ContextsClosed := by
  intro ax hm ha c hc
  simp only [stackTree, List.mem_cons, List.not_mem_nil, or_false] at hm
  rcases hm with rfl | rfl
  · simp [stackOp] at ha
  · simp [movedAx, Goal.HasConst] at hc

theorem stack_underived : stackTree.AxiomsUnderived := by
  rintro ax hop ha p hp ⟨d, hd, rfl⟩
  simp only [stackTree, List.mem_cons, List.not_mem_nil, or_false] at hop hd
  subst hd
  rcases hop with rfl | rfl
  · simp [stackOp] at ha
  · simp [movedAx, tallDrv, Goal.Mentions, Eff.Touches, FList.Touches, CList.Touches, ListsPred, Eff.Reads, FList.Reads,
      CList.Reads] at hp

theorem stack_checked : stackTree.TypeChecked demoUp where
  hier := demo_checked.hier
  names := by decide
  objects o ho := demo_objects ho
  predNames := by decide
  preds := by
    intro d hd p hp
    simp only [stackTree, List.mem_cons, List.not_mem_nil, or_false] at hd
    rcases hd with rfl | rfl | rfl | rfl <;> simp only [List.mem_cons, List.not_mem_nil, or_false] at hp
    · rcases hp with rfl | rfl <;> exact Or.inr (by decide)
    all_goals subst hp; exact Or.inr (by decide)
  ops := by
    intro op hop
    simp only [stackTree, List.mem_cons, List.not_mem_nil, or_false] at hop
    rcases hop with rfl | rfl
    · refine ⟨by decide, ?_, ?_, ?_, ?_, by simp [stackOp]⟩
      · simp [stackOp, Obj.Fits, x, y, demoUp, Obj.typeName, tBox, tObj]
      · simp [stackOp, Eff.Formed, FList.Formed, CList.Formed, AtomLits, Goal.WF, Term.Scoped, IsType, HasType, stackTree,
          a, b, table, tBox, tObj]
      · simp [stackOp, Eff.Fresh, FList.Fresh, CList.Fresh]
      · simp [stackOp, Eff.Checked, FList.Checked, CList.Checked, LitsChecked, Term.IsA, stackTree, HasType, x, y, Obj.typeName,
          tBox, tObj]
    · refine ⟨by decide, ?_, ?_, ?_, ?_, fun _ => ⟨by simp [movedAx], ?_, ?_, ?_⟩⟩
      · simp [movedAx, Obj.Fits, x, y, demoUp, Obj.typeName, tBox, tObj]
      · simp [movedAx, Eff.Formed, FList.Formed, CList.Formed, AtomLits, Goal.WF, Term.Scoped, IsType, HasType, stackTree,
          a, b, table, tBox, tObj]
      · simp [movedAx, Eff.Fresh, FList.Fresh, CList.Fresh]
      · simp [movedAx, Eff.Checked, FList.Checked, CList.Checked, LitsChecked, Term.IsA, stackTree, HasType, x, y, Obj.typeName,
          tBox, tObj]
      · simp [movedAx, Goal.WF, Term.Scoped, IsType, HasType, a, b, table, tBox, tObj, stackTree]
      · constructor <;> simp [movedAx, Op.ctx, Term.Scoped, varNames, x, y]
      · refine ⟨⟨n!"on", [x, y]⟩, by simp [stackTree], rfl, .cons ?_ (.cons ?_ .nil)⟩ <;>
          simp [movedAx, HasType, x, y, Obj.typeName, tBox, tObj]
  drvs := by
    intro r hr
    simp only [stackTree, List.mem_cons, List.not_mem_nil, or_false] at hr
    subst hr
    refine ⟨?_, ⟨n!"tall", [x]⟩, by simp [stackTree], rfl, .cons ?_ .nil⟩
    · simp [tallDrv, Obj.Fits, x, demoUp, Obj.typeName, tBox]
    · simp [HasType, x, Obj.typeName, tBox]
  init := by simp [stackTree]

def movedA (p : Obj) : Atom := ⟨n!"moved", [p.name]⟩
def tallA (p : Obj) : Atom := ⟨n!"tall", [p.name]⟩

/-- `stack(b, table)`, `stack(a, b)` is a plan from the empty State, hence from every valid State in which nothing is fixed. -/
example : ∃ F, ∀ fuel, F ≤ fuel → ∀ s : State, (∀ x ∈ s, ¬ stackNeg x.pred) → stackP.isValidState fuel s = .ok true →
    Pddl.isValidPlan { stackP with initial := s } fuel [n!"stack(b, table)", n!"stack(a, b)"] = .ok true := by
  obtain ⟨F, h⟩ := C102_plan_partial true 5 stackP_made demoUp stack_checked stack_wellFormed stack_contexts stack_noLoops
    stack_underived stack_deleteFree
  have hp : Pddl.isValidPlan { stackP with initial := State.empty } 5 [n!"stack(b, table)", n!"stack(a, b)"] = .ok true := by
    decide +kernel
  refine ⟨F + 5, fun fuel hn s hs hv => h fuel (by omega) _ State.empty s ⟨fun x hx => ?_, fun x hx hx' => ?_⟩ hv ?_⟩
  · simp at hx
  · exact absurd hx (hs x hx')
  · exact isValidPlan_mono _ (by omega : 5 ≤ fuel) hp

/-- A larger State leads to a larger State. -/
example : stackP.isValidState 5 (State.ofList [on b table, movedA b]) = .ok true ∧
    stackP.nextState 5 State.empty n!"stack(a, b)" = .ok (State.ofList [on a b, movedA a]) ∧
    stackP.nextState 5 (State.ofList [on b table, movedA b]) n!"stack(a, b)" =
      .ok (State.ofList [on b table, movedA b, on a b, movedA a, tallA b]) := by decide +kernel

/-- **C102, refuted** for States that are not valid: `stack(a, table)` reaches the goal from the empty State, but not from the
State `{on(a, table)}`, which violates the axiom. The action changes nothing there, so that the axiom is not triggered. -/
theorem C102_invalid_refuted : Pddl.make stackTree true 5 = .ok stackP ∧ stackTree.DeleteFree stackNeg ∧
    ∃ s s' : State, SubState stackNeg (· ∈ s) (· ∈ s') ∧
      stackP.isValidState 5 s = .ok true ∧ stackP.isValidState 5 s' = .ok false ∧
      Pddl.isValidPlan { stackP with initial := s } 5 [n!"stack(a, table)"] = .ok true ∧
      Pddl.isValidPlan { stackP with initial := s' } 5 [n!"stack(a, table)"] = .ok false := by
  refine ⟨stackP_made, stack_deleteFree, State.empty, State.ofList [on a table], ⟨fun x hx => by simp at hx, fun x hn hx => ?_⟩,
    by decide +kernel, by decide +kernel, by decide +kernel, by decide +kernel⟩
  simp only [State.mem_ofList, List.mem_singleton] at hx
  subst hx
  rcases hn with hn | hn <;> exact absurd hn (by decide)

end

end Symbolic
