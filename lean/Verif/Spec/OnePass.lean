import Verif.Spec.Least
import Verif.Spec.WellFormed

/-!
# Specification: axioms that need to be applied once only
-/

namespace Symbolic

/-- Conditions of effects of axioms are not about predicates that axioms change. -/
def Ptree.StaticConds (t : Ptree) : Prop :=
  ∀ ax ∈ t.ops, ax.isAxiom = true → ∀ p, ax.eff.Reads p → ∀ sign, ¬ AxiomTouches t.ops sign p

/-- Contexts of axioms mention declared constants only. -/
def Ptree.ContextsClosed (t : Ptree) : Prop :=
  ∀ ax ∈ t.ops, ax.isAxiom = true → ∀ c, ax.pre.HasConst c → c ∈ t.constants ++ t.objects

end Symbolic
