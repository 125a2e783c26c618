import Verif.Spec.Frame

/-!
# Specification: predicates that matter
-/

namespace Symbolic

/-- The predicate of `R` is touched by the effect. -/
def Eff.TouchesIn (R : Name → Prop) (e : Eff) : Prop := ∃ sign p, e.Touches sign p ∧ R p

mutual
/-- Whether effects on predicates of `R` happen depends on predicates of `R` only. -/
def Eff.Relevant (R : Name → Prop) : Eff → Prop
  | .mk fs _ _ cs => FList.Relevant R fs ∧ CList.Relevant R cs
def FList.Relevant (R : Name → Prop) : FList → Prop
  | .nil => True
  | .cons _ e rest => Eff.Relevant R e ∧ FList.Relevant R rest
def CList.Relevant (R : Name → Prop) : CList → Prop
  | .nil => True
  | .cons g e rest => (e.TouchesIn R → ∀ p n, g.Mentions p n → R p) ∧ Eff.Relevant R e ∧ CList.Relevant R rest
end

/-- `R` contains what preconditions and the goal are about and, with each predicate, what its value is computed from. -/
structure Ptree.Relevant (t : Ptree) (R : Name → Prop) : Prop where
  pre : ∀ op ∈ t.ops, op.isAxiom = false → ∀ p n, op.pre.Mentions p n → R p
  goal : ∀ p n, t.goal.Mentions p n → R p
  eff : ∀ op ∈ t.ops, op.eff.Relevant R
  axioms : ∀ ax ∈ t.ops, ax.isAxiom = true → ax.eff.TouchesIn R → R ax.ctxPred
  rules : ∀ d ∈ t.drvs, R d.head → ∀ p n, d.body.Mentions p n → R p

/-- The same atoms of the predicates `R`. -/
def SameOn (R : Name → Prop) (S T : Atom → Prop) : Prop := ∀ x : Atom, R x.pred → (S x ↔ T x)

end Symbolic
