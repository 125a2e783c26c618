import Verif.Model.Pddl
import Verif.Model.ActionBuf

/-!
# The API with the argument buffers of actions

`NextState`, `ApplyActions` and `IsValidPlan` as in Model/Pddl.lean, with the buffers of Model/ActionBuf.lean. The `Pddl` object
owns the actions and axioms and with them the buffers, so the buffers pass from call to call. Preconditions, the goal and bodies
of rules are formulas and evaluated without buffers (`C18_formula_history_independent`). `ids` numbers the operators.
-/

namespace Symbolic
namespace Pddl
variable [StrHash]

/-- pddl.cc:231-237, 239-244: apply an action, then the derived predicates. -/
def applyOpB (P : Pddl) (ids : Name → Nat) (fuel : Nat) (op : Op) (args : List Obj) (s : State) : BufM State := do
  let r ← op.run P.omap P.axioms fuel (ids op.name) args s
  let r' ← BufM.lift (drvsFix P.omap fuel P.drvs fuel r.2)
  pure r'.2

/-- pddl.cc:322-331. -/
def nextStateB (P : Pddl) (ids : Name → Nat) (fuel : Nat) (s : State) (call : Name) : BufM State := do
  let oa ← BufM.lift (P.parseAction call)
  P.applyOpB ids fuel oa.1 oa.2 s

/-- pddl.cc:341-353. -/
def applyActionsB (P : Pddl) (ids : Name → Nat) (fuel : Nat) : State → List Name → BufM State
  | s, [] => pure s
  | s, call :: calls => do
    let oa ← BufM.lift (P.parseAction call)
    let s' ← P.applyOpB ids fuel oa.1 oa.2 s
    applyActionsB P ids fuel s' calls

/-- pddl.cc:456-469: the loop over the plan. -/
def validPlanFromB (P : Pddl) (ids : Name → Nat) (fuel : Nat) : State → List Name → BufM Bool
  | s, [] => BufM.lift (P.isGoalSatisfied s)
  | s, call :: calls => do
    let oa ← BufM.lift (P.parseAction call)
    let b ← BufM.lift (oa.1.isValid P.omap s oa.2)
    if b then do
      let s' ← P.applyOpB ids fuel oa.1 oa.2 s
      validPlanFromB P ids fuel s' calls
    else pure false

/-- pddl.cc:456-469. -/
def isValidPlanB (P : Pddl) (ids : Name → Nat) (fuel : Nat) (plan : List Name) : BufM Bool := P.validPlanFromB ids fuel P.initial plan

/-- Calls that apply actions. -/
inductive ApiCall where
  | next (s : State) (call : Name)
  | apply (s : State) (calls : List Name)
  | plan (plan : List Name)

/-- The buffers after some calls, whether they returned or threw. -/
def runApi (P : Pddl) (ids : Name → Nat) (fuel : Nat) : List ApiCall → Store → Store
  | [], st => st
  | .next s call :: cs, st => runApi P ids fuel cs (P.nextStateB ids fuel s call st).2
  | .apply s calls :: cs, st => runApi P ids fuel cs (P.applyActionsB ids fuel s calls st).2
  | .plan plan :: cs, st => runApi P ids fuel cs (P.isValidPlanB ids fuel plan st).2

end Pddl
end Symbolic
