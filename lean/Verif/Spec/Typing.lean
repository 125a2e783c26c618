import Verif.Model.Object
import Mathlib.Data.List.Forall2

/-!
# Specification: typing of objects
-/

namespace Symbolic

/-- `o` has type `t`: `t` is the root type `object` or lies on the declared chain of `o`. -/
def HasType (o : Obj) (t : Name) : Prop := t = n!"object" ∨ t ∈ o.types

/-- `args` is a well-typed argument list for `params` over the declared objects. -/
def WellTyped (objects params args : List Obj) : Prop :=
  List.Forall₂ (fun p a => a ∈ objects ∧ HasType a p.typeName) params args

end Symbolic
