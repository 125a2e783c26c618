import Verif.Model.State

/-!
# Specification: chains of states

`valid s a` says that action `a` may be taken in `s`, `step s a s'` that it leads to `s'`.
-/

namespace Symbolic

variable [StrHash]

/-- From `s`, every action of the list is valid where it is taken, and the last state satisfies `goal`. -/
inductive Achieves (valid : State → Name → Prop) (step : State → Name → State → Prop) (goal : State → Prop) :
    State → List Name → Prop
  | done {s : State} : goal s → Achieves valid step goal s []
  | step {s s' : State} {a : Name} {as : List Name} : valid s a → step s a s' → Achieves valid step goal s' as →
      Achieves valid step goal s (a :: as)

end Symbolic
