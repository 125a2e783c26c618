import Verif.Spec.Axioms
import Verif.Spec.Frame

/-!
# Specification: the least change that makes the axioms hold

A domain is *persistent* if no axiom undoes what makes an axiom apply: a predicate that occurs positively in the context of
an axiom, or in a condition of its implication, is deleted by no axiom, and one that occurs negatively is added by none. Then
the axioms are rules that only ever ask for more changes.
-/

namespace Symbolic

mutual
/-- The predicate occurs in the formula under an even (`true`) or odd number of negations. -/
def Goal.Occurs : Goal → Bool → Name → Prop
  | .atom pred _, b, p => b = true ∧ p = pred
  | .conj gs, b, p => Goal.OccursL gs b p
  | .disj gs, b, p => Goal.OccursL gs b p
  | .neg g, b, p => Goal.Occurs g (!b) p
  | .all _ g, b, p => Goal.Occurs g b p
  | .ex _ g, b, p => Goal.Occurs g b p
  | .other, _, _ => False
def Goal.OccursL : List Goal → Bool → Name → Prop
  | [], _, _ => False
  | g :: gs, b, p => Goal.Occurs g b p ∨ Goal.OccursL gs b p
end

mutual
/-- The predicate occurs with this sign in a condition of a conditional effect. -/
def Eff.Tests : Eff → Bool → Name → Prop
  | .mk fs _ _ cs, b, p => FList.Tests fs b p ∨ CList.Tests cs b p
def FList.Tests : FList → Bool → Name → Prop
  | .nil, _, _ => False
  | .cons _ e rest, b, p => Eff.Tests e b p ∨ FList.Tests rest b p
def CList.Tests : CList → Bool → Name → Prop
  | .nil, _, _ => False
  | .cons g e rest, b, p => Goal.Occurs g b p ∨ Eff.Tests e b p ∨ CList.Tests rest b p
end

/-- Some axiom adds (`sign`) or deletes atoms with this predicate. -/
def AxiomTouches (ops : List Op) (sign : Bool) (p : Name) : Prop := ∃ op ∈ ops, op.isAxiom = true ∧ op.eff.Touches sign p

/-- No axiom undoes what makes an axiom apply. -/
def Persistent (ops : List Op) : Prop :=
  ∀ op ∈ ops, op.isAxiom = true → ∀ b p, op.pre.Occurs b p ∨ op.eff.Tests b p → ¬ AxiomTouches ops (!b) p

/-- Every change from `S` to `S'` is also a change from `S` to `T`. -/
def FewerChanges (S S' T : Atom → Prop) : Prop := ∀ x, (¬ S x → S' x → T x) ∧ (S x → ¬ S' x → ¬ T x)

/-- `S'` is the result of the least change to `S` after which the axioms hold: they hold in `S'`, only what axioms may add or
delete was changed, and every such change after which they hold includes this one. -/
structure LeastChange (objects : List Obj) (ops : List Op) (S S' : Atom → Prop) : Prop where
  holds : AxiomsHold objects ops S'
  within : ChangesWithin (fun sign x => AxiomTouches ops sign x.pred) S S'
  least : ∀ T, AxiomsHold objects ops T → ChangesWithin (fun sign x => AxiomTouches ops sign x.pred) S T → FewerChanges S S' T

end Symbolic
