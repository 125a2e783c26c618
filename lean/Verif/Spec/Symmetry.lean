import Verif.Spec.Rename

/-!
# Specification: interchangeable objects

A permutation of the objects is a symmetry of the domain and problem if exchanging the objects turns every declaration into
itself: objects become objects of the same types, and no operator, rule or predicate mentions an object that is exchanged for
another one.
-/

namespace Symbolic

/-- Exchange objects; predicates, types and operators keep their names. -/
def Renaming.objects (π : Name → Name) : Renaming := ⟨π, fun n => n, fun n => n⟩

/-- `π` exchanges objects that nothing but the initial state and the goal can tell apart. -/
structure Ptree.Symmetry (t : Ptree) (π : Name → Name) : Prop where
  inj : ∀ x y, π x = π y → x = y
  objects : ∀ o ∈ t.constants ++ t.objects, o.rename (.objects π) ∈ t.constants ++ t.objects
  ops : ∀ op ∈ t.ops, op.rename (.objects π) = op
  drvs : ∀ d ∈ t.drvs, d.rename (.objects π) = d
  preds : ∀ p ∈ t.preds, p.rename (.objects π) = p

end Symbolic
