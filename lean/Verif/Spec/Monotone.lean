import Verif.Spec.KeepAxioms

/-!
# Specification: domains in which more facts never hurt
-/

namespace Symbolic

/-- `T` has all atoms of `S`, and the same atoms of the predicates `neg`. -/
structure SubState (neg : Name → Prop) (S T : Atom → Prop) : Prop where
  sub : ∀ x, S x → T x
  same : ∀ x : Atom, neg x.pred → T x → S x

mutual
/-- Only the predicates `neg` occur negatively in conditions of the effect. -/
def Eff.CondsPolar (neg : Name → Prop) : Eff → Prop
  | .mk fs _ _ cs => FList.CondsPolar neg fs ∧ CList.CondsPolar neg cs
def FList.CondsPolar (neg : Name → Prop) : FList → Prop
  | .nil => True
  | .cons _ e rest => Eff.CondsPolar neg e ∧ FList.CondsPolar neg rest
def CList.CondsPolar (neg : Name → Prop) : CList → Prop
  | .nil => True
  | .cons g e rest => g.Polar (fun _ => True) neg ∧ Eff.CondsPolar neg e ∧ CList.CondsPolar neg rest
end

/-- Nothing is ever deleted. Only the predicates `neg` occur negatively in preconditions, contexts of axioms, conditions, rules
and the goal, and these are neither added nor derived. Conditions of effects are about nothing that is added. -/
structure Ptree.DeleteFree (t : Ptree) (neg : Name → Prop) : Prop where
  deletes : ∀ op ∈ t.ops, ∀ p, ¬ op.eff.Touches false p
  adds : ∀ op ∈ t.ops, ∀ p, op.eff.Touches true p → ¬ neg p
  heads : ∀ p, IsHead t.drvs p → ¬ neg p
  pre : ∀ op ∈ t.ops, op.pre.Polar (fun _ => True) neg
  conds : ∀ op ∈ t.ops, op.eff.CondsPolar neg
  reads : ∀ op ∈ t.ops, ∀ p, op.eff.Reads p → ∀ op' ∈ t.ops, ¬ op'.eff.Touches true p
  rules : ∀ d ∈ t.drvs, d.body.Polar (fun _ => True) neg
  goal : t.goal.Polar (fun _ => True) neg

end Symbolic
