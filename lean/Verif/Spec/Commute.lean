import Verif.Spec.Cascade
import Verif.Spec.Derived

/-!
# Specification: actions that do not interfere
-/

namespace Symbolic

/-- What one of two actions causes. -/
def Either (W V : Bool → Atom → Prop) (sign : Bool) (x : Atom) : Prop := W sign x ∨ V sign x

/-- The atoms after an action that causes `W` from a state `S`. -/
def After (S : Atom → Prop) (W : Bool → Atom → Prop) (x : Atom) : Prop := W true x ∨ (S x ∧ ¬ W false x)

/-- Nothing one of the two actions causes is the opposite of something one of them causes, and no condition of an effect is
about it. -/
structure Ptree.Independent (t : Ptree) (op₁ op₂ : Op) (W V : Bool → Atom → Prop) : Prop where
  free : NoConflict (Either W V)
  read₁ : t.NotRead op₁ (Either W V)
  read₂ : t.NotRead op₂ (Either W V)

mutual
/-- The formula is about the atom: an instance of one of its atoms is. -/
def Goal.About (objects : List Obj) : Env → Goal → Atom → Prop
  | env, .atom pred ts, x => ∃ os, List.Forall₂ (Denotes env) ts os ∧ x = ⟨pred, os.map Obj.name⟩
  | env, .conj gs, x => Goal.AboutL objects env gs x
  | env, .disj gs, x => Goal.AboutL objects env gs x
  | env, .neg g, x => Goal.About objects env g x
  | env, .all vars g, x => ∃ os, WellTyped objects vars os ∧ Goal.About objects (env.bind vars os) g x
  | env, .ex vars g, x => ∃ os, WellTyped objects vars os ∧ Goal.About objects (env.bind vars os) g x
  | _, .other, _ => False
def Goal.AboutL (objects : List Obj) : Env → List Goal → Atom → Prop
  | _, [], _ => False
  | env, g :: gs, x => Goal.About objects env g x ∨ Goal.AboutL objects env gs x
end

/-- Effects and their conditions are not about derived predicates. -/
def Ptree.EffectsUnderived (t : Ptree) : Prop :=
  ∀ op ∈ t.ops, ∀ p, (∃ sign, op.eff.Touches sign p) ∨ op.eff.Reads p → ¬ IsHead t.drvs p

end Symbolic
