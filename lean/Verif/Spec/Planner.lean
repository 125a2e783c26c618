import Verif.Model.Planner
import Verif.Spec.Product

/-!
# Specification: the children of a node

`Offspring valid step seen as cs`: going through the action instances `as` in order, `cs` are those instances that are
valid and lead to a state that was not seen, with that state.
-/

namespace Symbolic

/-- The instances that count as children, in order. -/
inductive Offspring {α : Type} [StrHash] (valid invalid : α → Prop) (step : α → State → Prop) (seen : State → Prop) :
    List α → List (α × State) → Prop
  | nil : Offspring valid invalid step seen [] []
  | skip {a as cs} : invalid a → Offspring valid invalid step seen as cs → Offspring valid invalid step seen (a :: as) cs
  | repeated {a s as cs} : valid a → step a s → seen s → Offspring valid invalid step seen as cs →
      Offspring valid invalid step seen (a :: as) cs
  | child {a s as cs} : valid a → step a s → ¬ seen s → Offspring valid invalid step seen as cs →
      Offspring valid invalid step seen (a :: as) ((a, s) :: cs)

/-- All argument lists of an action, leftmost argument slowest. An action without parameters has none. -/
def tuples (options : List (List Obj)) : List (List Obj) := if options = [] then [] else cartesian options

/-- Action instances in the order of the actions, then of the arguments. -/
def instances [StrHash] (P : Pddl) (ops : List Op) : List (Op × List Obj) :=
  ops.flatMap fun op => (tuples (paramTypes P.omap op.params)).map fun as => (op, as)

end Symbolic
