import Verif.Model.Heap

/-!
# Specification: adding and removing objects

The names that should be known after a history of calls, independent of pointers.
-/

namespace Symbolic.PddlHeap

/-- The symbol at this address has been freed (or never existed). -/
def Dangling (h : PddlHeap) (a : Nat) : Prop := h.deref a = .ub

/-- The names of the objects after a history, from the names before. -/
def namesAfter : List Name → List Call → List Name
  | ns, [] => ns
  | ns, .add n _ :: rest => namesAfter (ns ++ [n]) rest
  | ns, .remove n :: rest => namesAfter (ns.erase n) rest

/-- Only new names are added and no constant of the domain is removed. -/
def Careful (consts : List Name) : List Name → List Call → Prop
  | _, [] => True
  | ns, .add n _ :: rest => n ∉ ns ∧ Careful consts (ns ++ [n]) rest
  | ns, .remove n :: rest => n ∉ consts ∧ Careful consts (ns.erase n) rest

end Symbolic.PddlHeap
