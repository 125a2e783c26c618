import Verif.Spec.Cascade
import Verif.Spec.Derived
import Verif.Spec.Least

/-!
# Specification: actions and axioms that contradict each other
-/

namespace Symbolic

/-- An axiom with a context that is true in `S` implies the opposite of one of the literals `W`. -/
def Ptree.Contradicted (t : Ptree) (S : Atom → Prop) (W : Bool → Atom → Prop) : Prop :=
  ∃ ax ∈ t.ops, ax.isAxiom = true ∧ ∃ as, WellTyped (t.constants ++ t.objects) ax.params as ∧
    Sat (t.constants ++ t.objects) S (Env.none.bind ax.params as) ax.pre ∧
    ∃ sign y, Makes (t.constants ++ t.objects) S sign (Env.none.bind ax.params as) ax.eff y ∧ W (!sign) y

/-- No operator adds and deletes a predicate, none adds what axioms delete or deletes what axioms add, conditions of its
effects are neither about what it changes nor about what axioms change, and conditions of effects of axioms are about nothing
that operators change. -/
structure Ptree.NoContradictions (t : Ptree) : Prop where
  own : ∀ op ∈ t.ops, ∀ p, op.eff.Touches true p → ¬ op.eff.Touches false p
  axioms : ∀ op ∈ t.ops, ∀ sign p, op.eff.Touches sign p → ¬ AxiomTouches t.ops (!sign) p
  conds : ∀ op ∈ t.ops, ∀ p, op.eff.Reads p → ∀ sign, ¬ op.eff.Touches sign p ∧ ¬ AxiomTouches t.ops sign p
  reads : ∀ ax ∈ t.ops, ax.isAxiom = true → ∀ p, ax.eff.Reads p → ∀ op ∈ t.ops, ∀ sign, ¬ op.eff.Touches sign p

/-- Axioms are not about derived predicates. -/
def Ptree.AxiomsUnderived (t : Ptree) : Prop :=
  ∀ ax ∈ t.ops, ax.isAxiom = true → ∀ p, ((∃ n, ax.pre.Mentions p n) ∨ (∃ sign, ax.eff.Touches sign p) ∨ ax.eff.Reads p) →
    ¬ IsHead t.drvs p

end Symbolic
