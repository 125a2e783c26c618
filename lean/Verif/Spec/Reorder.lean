import Verif.Spec.Least
import Verif.Spec.WellFormed

/-!
# Specification: the same declarations in another order
-/

namespace Symbolic

/-- The two problems have the same objects, operators and rules. -/
structure SameDomain (t₁ t₂ : Ptree) : Prop where
  objects : ∀ o, o ∈ t₁.constants ++ t₁.objects ↔ o ∈ t₂.constants ++ t₂.objects
  ops : ∀ op, op ∈ t₁.ops ↔ op ∈ t₂.ops
  drvs : ∀ d, d ∈ t₁.drvs ↔ d ∈ t₂.drvs

/-- The two problems declare the same: objects and constants, operators, rules and initial atoms may be listed in another
order, several times, and objects may be constants of the domain in one and objects of the problem in the other. -/
structure SameDeclarations (t₁ t₂ : Ptree) : Prop extends SameDomain t₁ t₂ where
  init : ∀ x, x ∈ t₁.init ↔ x ∈ t₂.init
  goal : t₁.goal = t₂.goal

/-- At most one operator has this name. -/
def OneNamed (ops : List Op) (name : Name) : Prop :=
  ∀ op ∈ ops, ∀ op' ∈ ops, op.name = name → op'.name = name → op = op'

/-- The instances of a universal effect with this body do not interfere: no predicate is both added and deleted, or changed
and read by a condition. -/
def Eff.NoClash (e : Eff) : Prop :=
  ∀ p, ¬ (e.Touches true p ∧ e.Touches false p) ∧ ∀ sign, e.Touches sign p → ¬ e.Reads p

mutual
/-- No universal effect in it interferes with itself. -/
def Eff.Uniform : Eff → Prop
  | .mk fs _ _ cs => FList.Uniform fs ∧ CList.Uniform cs
def FList.Uniform : FList → Prop
  | .nil => True
  | .cons _ e rest => e.NoClash ∧ FList.Uniform rest
def CList.Uniform : CList → Prop
  | .nil => True
  | .cons _ e rest => Eff.Uniform e ∧ CList.Uniform rest
end

/-- No axiom among the operators is about something this effect does. -/
def Untriggered (ops : List Op) (e : Eff) : Prop :=
  ∀ ax ∈ ops, ax.isAxiom = true → ¬ e.Touches ax.ctxSign ax.ctxPred

end Symbolic
