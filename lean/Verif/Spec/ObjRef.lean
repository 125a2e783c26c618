import Verif.Model.ObjRef
import Verif.Spec.Objects

/-!
# Specification: the number of objects during a history
-/

namespace Symbolic.PddlHeap

/-- There are never more than `cap` objects when one was just added. -/
def Fits (cap : Nat) : List Name → List Call → Prop
  | _, [] => True
  | ns, .add n _ :: rest => ns.length < cap ∧ Fits cap (ns ++ [n]) rest
  | ns, .remove n :: rest => Fits cap (ns.erase n) rest

end Symbolic.PddlHeap
