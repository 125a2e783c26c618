import Verif.Spec.Strings

/-!
# Specification: a domain with more actions
-/

namespace Symbolic

/-- The second problem has the objects, axioms, rules and goal of the first one, and all its operators: under every name that
the first problem uses, the same operator is found. It may have more actions. Declarations of predicates may differ. -/
structure MoreActions (t t' : Ptree) : Prop where
  constants : t'.constants = t.constants
  objects : t'.objects = t.objects
  named : ∀ n op, NamedOp t.ops n op → NamedOp t'.ops n op
  axioms : t'.ops.filter (fun op => op.isAxiom) = t.ops.filter fun op => op.isAxiom
  actions : (t.ops.filter fun op => !op.isAxiom).Sublist (t'.ops.filter fun op => !op.isAxiom)
  drvs : t'.drvs = t.drvs
  goal : t'.goal = t.goal

/-- The operator that the call names is an operator of the problem. -/
def CallsOf (t : Ptree) (call : Name) : Prop := ∃ op, ∃ args, CallShape call op.name args ∧ op ∈ t.ops

end Symbolic
