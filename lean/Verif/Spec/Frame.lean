import Verif.Spec.WellFormed

/-!
# Specification: what an action may write
-/

namespace Symbolic

/-- The action may add (`true`) or delete (`false`) atoms of the predicate: it has such an effect, or something it may
write triggers an axiom that has such an effect. -/
inductive Ptree.MayWrite (t : Ptree) (op : Op) : Bool → Name → Prop
  | own {sign : Bool} {p : Name} : op.eff.Touches sign p → MayWrite t op sign p
  | triggered {ax : Op} {sign : Bool} {p : Name} : ax ∈ t.ops → ax.isAxiom = true → MayWrite t op ax.ctxSign ax.ctxPred →
      ax.eff.Touches sign p → MayWrite t op sign p

/-- Written by the action or by axioms it triggers, or a well-typed instance of a derived predicate. -/
def Ptree.MayChange (t : Ptree) (op : Op) (sign : Bool) (x : Atom) : Prop :=
  t.MayWrite op sign x.pred ∨ IsDerived (t.constants ++ t.objects) t.drvs x

/-- The atoms added are in `A true`, the atoms deleted in `A false`. -/
def ChangesWithin (A : Bool → Atom → Prop) (s t : Atom → Prop) : Prop :=
  ∀ x, (t x → ¬ s x → A true x) ∧ (s x → ¬ t x → A false x)

end Symbolic
