import Verif.Model.Pddl
import Verif.Spec.KeepAxioms

/-!
# Specification: plans for PartialStates
-/

namespace Symbolic

variable [StrHash]

/-- What the action causes, as far as is known. -/
abbrev Ptree.KnownCauses (t : Ptree) (K : PartialState) (op : Op) (args : List Obj) : Bool → Atom → Prop :=
  t.Causes (· ∈ K.pos) (Known (· ∈ K.pos) (· ∈ K.neg)) op args

/-- Conditions of effects are about known atoms, nothing is caused to be true as well as false, conditions are not about what is
caused, and nothing that is caused is the opposite of what an axiom implies, in any State that is possible afterwards. -/
structure Ptree.SafeStep (t : Ptree) (K : PartialState) (op : Op) (args : List Obj) (K' : PartialState) : Prop where
  closed : t.AllCondsClosed op
  knows : Knows (t.constants ++ t.objects) (· ∈ K.pos) (· ∈ K.neg) (t.MayAsk op)
  free : NoConflict (t.KnownCauses K op args)
  unread : t.NotRead op (t.KnownCauses K op args)
  keeps : ∀ S : State, Compatible (· ∈ K'.pos) (· ∈ K'.neg) (· ∈ S) → ¬ t.Contradicted (· ∈ S) (t.KnownCauses K op args)

/-- Every call of the list is known to be valid when it is its turn, and applying all of them leads from `K` to `K'`. -/
inductive Ptree.KnownPlan (t : Ptree) (P : Pddl) (fuel : Nat) : PartialState → List Name → PartialState → Prop
  | nil {K : PartialState} : KnownPlan t P fuel K [] K
  | cons {K K₁ K' : PartialState} {call : Name} {op : Op} {args : List Obj} {i : Nat} {calls : List Name} :
      P.parseAction call = .ok (op, args) → op.isValid P.omap K args = .ok true →
      op.apply P.omap P.axioms fuel args K = .ok (i, K₁) → t.SafeStep K op args K₁ → KnownPlan t P fuel K₁ calls K' →
      KnownPlan t P fuel K (call :: calls) K'

/-- The PartialState says nothing about derived predicates. -/
def SilentOn (drvs : List Drv) (K : PartialState) : Prop := ∀ x : Atom, x ∈ K.pos ∨ x ∈ K.neg → ¬ IsHead drvs x.pred

end Symbolic
