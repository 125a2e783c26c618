import Verif.Spec.Partial
import Verif.Spec.Derived

/-!
# Specification: well-formed domains without loops
-/

namespace Symbolic

/-- The sign of the context literal. -/
def Op.ctxSign (op : Op) : Bool :=
  match op.pre with
  | .atom _ _ => true
  | _ => false

/-- Formulas and effects use declared variables, their quantifiers bind at least one variable, effects are about
predicates that are neither `=` nor types, and objects and derived predicates are named apart. -/
structure Ptree.WellFormed (t : Ptree) : Prop where
  names : ((t.constants ++ t.objects).map Obj.name).Nodup
  pre : ∀ op ∈ t.ops, op.pre.WF (t.constants ++ t.objects) (op.params.map Obj.name)
  eff : ∀ op ∈ t.ops, op.eff.WF (t.constants ++ t.objects) (op.params.map Obj.name)
  goal : t.goal.WF (t.constants ++ t.objects) []
  drvs : ∀ d ∈ t.drvs, d.WF (t.constants ++ t.objects)
  heads : (t.drvs.map Drv.head).Nodup

/-- No axiom triggers itself through others and no derived predicate depends on itself. -/
structure Ptree.NoLoops (t : Ptree) : Prop where
  axioms : ∃ rank : Bool → Name → Nat, ∀ op ∈ t.ops, op.isAxiom = true → ∀ sign p, op.eff.Touches sign p →
    rank sign p < rank op.ctxSign op.ctxPred
  rules : ∃ rank : Name → Nat, Acyclic rank t.drvs

/-- No predicate is added by one axiom and deleted by one. -/
def Ptree.NoUndoing (t : Ptree) : Prop :=
  ∀ p, ¬ ((∃ op ∈ t.ops, op.isAxiom = true ∧ op.eff.Touches true p) ∧
    ∃ op ∈ t.ops, op.isAxiom = true ∧ op.eff.Touches false p)

end Symbolic
