import Verif.Props.SearchBuf
import Verif.Props.Plans

/-!
# C35, C36: with the argument buffers

`ApplyActions`, `IsValidTuple` and `IsValidPlan` in terms of `NextState` right after construction, with the buffers of
Model/ActionBuf.lean and after any calls; for any axioms, also those that trigger themselves.
-/

namespace Symbolic

section
variable [StrHash] (P : Pddl) (ids : Name → Nat) (fuel : Nat)

/-- `NextState` right after construction. -/
def Pddl.nextFresh (s : State) (call : Name) : Res State := (P.nextStateB ids fuel s call Store.init).1

theorem nextStateB_fresh (s : State) (call : Name) : ByValue (P.nextStateB ids fuel s call) (P.nextFresh ids fuel s call) :=
  (nextStateB_det P ids fuel s call).byValue

theorem applyOpB_fresh {s : State} {call : Name} {a : Op × List Obj} (h : P.parseAction call = .ok a) :
    ByValue (P.applyOpB ids fuel a.1 a.2 s) (P.nextFresh ids fuel s call) := by
  have := nextStateB_fresh P ids fuel s call
  unfold Pddl.nextStateB at this
  rw [h] at this
  exact this

/-- When the call does not parse, `NextState` throws what the parser throws. -/
theorem nextFresh_parse (s : State) (call : Name) : P.nextFresh ids fuel s call =
    (P.parseAction call >>= fun a => (P.applyOpB ids fuel a.1 a.2 s Store.init).1) := by
  unfold Pddl.nextFresh Pddl.nextStateB
  cases P.parseAction call <;> rfl

theorem applyActionsB_fresh : ∀ (calls : List Name) (s : State),
    ByValue (P.applyActionsB ids fuel s calls) (calls.foldlM (P.nextFresh ids fuel) s)
  | [], s => .pure s
  | c :: cs, s => by
    rw [Pddl.applyActionsB, List.foldlM_cons]
    have h := (ByValue.lift (P.parseAction c)).bind fun oa => ((applyOpB_det P ids fuel oa.1 oa.2 s).byValue).bind fun s' =>
      applyActionsB_fresh cs s'
    rw [nextFresh_parse]
    intro st hi
    refine ⟨((h st hi).1).trans ?_, (h st hi).2⟩
    cases P.parseAction c <;> rfl

/-- The checks of a plan, one after the other. -/
def Pddl.validFresh : State → List Name → Res Bool
  | s, [] => P.isGoalSatisfied s
  | s, c :: cs => do
    let b ← P.isValidAction s c
    if b then do
      let s' ← P.nextFresh ids fuel s c
      Pddl.validFresh s' cs
    else pure false

theorem validPlanFromB_fresh : ∀ (calls : List Name) (s : State),
    ByValue (P.validPlanFromB ids fuel s calls) (P.validFresh ids fuel s calls)
  | [], s => by rw [Pddl.validPlanFromB, Pddl.validFresh]; exact .lift _
  | c :: cs, s => by
    rw [Pddl.validPlanFromB, Pddl.validFresh]
    simp only [Pddl.isValidAction]
    cases h : P.parseAction c with
    | ok a =>
      refine (ByValue.lift (.ok a)).andThen ?_
      refine (ByValue.lift (a.1.isValid P.omap s a.2)).bind fun b => ?_
      split
      · exact (applyOpB_fresh P ids fuel h).bind fun s' => validPlanFromB_fresh cs s'
      · exact .pure _
    | exc e => exact fun st hi => ⟨rfl, hi⟩
    | ub => exact fun st hi => ⟨rfl, hi⟩
    | fuel => exact fun st hi => ⟨rfl, hi⟩

theorem validFresh_iff : ∀ (calls : List Name) (s : State), P.validFresh ids fuel s calls = .ok true ↔
    Achieves (fun s a => P.isValidAction s a = .ok true) (fun s a s' => P.nextFresh ids fuel s a = .ok s')
      (fun s => P.isGoalSatisfied s = .ok true) s calls
  | [], s => ⟨fun h => .done h, fun h => by cases h with | done h => exact h⟩
  | c :: cs, s => by
    rw [Pddl.validFresh]
    constructor
    · intro h
      obtain ⟨b, h1, h⟩ := Res.bind_eq_ok.1 h
      cases b with
      | false => simp at h
      | true =>
        simp only [if_true] at h
        obtain ⟨s', h2, h⟩ := Res.bind_eq_ok.1 h
        exact .step h1 h2 ((validFresh_iff cs s').1 h)
    · intro h
      cases h with
      | step h1 h2 h3 =>
        simp only [h1, Res.bind_ok, if_true, h2]
        exact (validFresh_iff cs _).2 h3

variable (before : List Pddl.AnyCall)

/-- **C35 (buffers).** After any calls `ApplyActions` is iterated `NextState`, each as right after construction, with the same
exceptions. -/
theorem C35_buffers (s : State) (calls : List Name) :
    (P.applyActionsB ids fuel s calls (P.runAny ids fuel before Store.init)).1 =
      calls.foldlM (fun s call => (P.nextStateB ids fuel s call Store.init).1) s :=
  (applyActionsB_fresh P ids fuel calls s _ (runAny_inv P ids fuel before BufInv.init)).1

/-- **C36 (buffers).** After any calls `IsValidPlan(plan)` is true iff there is a chain of states from `initial_state()` in which every
action is valid and `NextState` leads to the next state, and the last state satisfies the goal. -/
theorem C36_buffers_plan (plan : List Name) :
    (P.isValidPlanB ids fuel plan (P.runAny ids fuel before Store.init)).1 = .ok true ↔
      Achieves (fun s a => P.isValidAction s a = .ok true) (fun s a s' => (P.nextStateB ids fuel s a Store.init).1 = .ok s')
        (fun s => P.isGoalSatisfied s = .ok true) P.initial plan := by
  have h := (validPlanFromB_fresh P ids fuel plan P.initial _ (runAny_inv P ids fuel before BufInv.init)).1
  show (P.validPlanFromB ids fuel P.initial plan _).1 = _ ↔ _
  rw [h]
  exact validFresh_iff P ids fuel plan P.initial

/-- **C36 (buffers).** After any calls `IsValidTuple(s, a, s')` is true iff the action is valid in `s` and `NextState(s, a)` returns
`s'`. -/
theorem C36_buffers_tuple (s s' : State) (call : Name) :
    (P.isValidTupleB ids fuel s call s' (P.runAny ids fuel before Store.init)).1 = .ok true ↔
      P.isValidAction s call = .ok true ∧ (P.nextStateB ids fuel s call Store.init).1 = .ok s' := by
  have hi := runAny_inv P ids fuel before BufInv.init
  have hv : ByValue (P.isValidTupleB ids fuel s call s') (do
      let b ← P.isValidAction s call
      if b then do
        let t ← P.nextFresh ids fuel s call
        pure (t.beq s')
      else pure false) := by
    unfold Pddl.isValidTupleB Pddl.isValidAction
    cases h : P.parseAction call with
    | ok a =>
      refine (ByValue.lift (.ok a)).andThen ?_
      refine (ByValue.lift (a.1.isValid P.omap s a.2)).bind fun b => ?_
      split
      · exact (applyOpB_fresh P ids fuel h).bind fun s' => .pure _
      · exact .pure _
    | exc e => exact fun st hi => ⟨rfl, hi⟩
    | ub => exact fun st hi => ⟨rfl, hi⟩
    | fuel => exact fun st hi => ⟨rfl, hi⟩
  rw [(hv _ hi).1]
  show _ ↔ _ ∧ P.nextFresh ids fuel s call = _
  cases P.isValidAction s call with
  | ok b =>
    cases b with
    | false => simp
    | true =>
      simp only [Res.bind_ok, if_true]
      cases P.nextFresh ids fuel s call with
      | ok t => simp [State.beq_iff]
      | exc e => simp
      | ub => simp
      | fuel => simp
  | exc e => simp
  | ub => simp
  | fuel => simp
end

namespace Buffers
open Demo
attribute [local instance] lenHash

/-- The plan of the domain whose axiom triggers itself: its one step leads to the goal. -/
example : Achieves (fun s a => swirlP.isValidAction s a = .ok true)
    (fun s a s' => (swirlP.nextStateB (fun _ => 7) 30 s a Store.init).1 = .ok s')
    (fun s => swirlP.isGoalSatisfied s = .ok true) swirlP.initial [n!"put(a, b, a)"] :=
  (C36_buffers_plan swirlP (fun _ => 7) 30 [] _).1 C55_planner_refuted.2.1

/-- A tuple with the state of that step, after the calls of `someCalls` on another domain. -/
example : (P.isValidTupleB (fun _ => 7) 5 P.initial n!"pick(a)" (State.ofList [inhand a, on b table, busyA a])
    (P.runAny (fun _ => 7) 5 someCalls Store.init)).1 = .ok true :=
  (C36_buffers_tuple P (fun _ => 7) 5 someCalls _ _ _).2 (by decide +kernel)
end Buffers

end Symbolic
