import Verif.Spec.Propagate

/-!
# Specification: domains in which axioms do not build on each other
-/

namespace Symbolic

/-- No axiom implies a literal about the predicate of the context of an axiom, with the sign of that context. -/
def Ptree.FlatAxioms (t : Ptree) : Prop :=
  ∀ op ∈ t.ops, op.isAxiom = true → ∀ ax ∈ t.ops, ax.isAxiom = true → ¬ op.eff.Touches ax.ctxSign ax.ctxPred

end Symbolic
