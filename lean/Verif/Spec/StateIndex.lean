import Verif.Model.StateIndex
import Verif.Spec.Typing
import Verif.Spec.Strings

/-!
# Specification: indexed propositions
-/

namespace Symbolic

variable [StrHash]

omit [StrHash] in
/-- `a` is an instance, over the declared objects, of a declared predicate with at least one parameter. -/
def TypeCorrect (objects : List Obj) (preds : List PredDecl) (a : Atom) : Prop :=
  ∃ d ∈ preds, d.params ≠ [] ∧ ∃ os, WellTyped objects d.params os ∧ a = Atom.ofObjs d.name os

/-- Names as PDDL allows them, each declared once. -/
structure Signature (objects : List Obj) (preds : List PredDecl) : Prop where
  objNames : (objects.map Obj.name).Nodup
  chains : ∀ o ∈ objects, o.listTypes.Nodup
  predNames : (preds.map PredDecl.name).Nodup
  cleanArgs : ∀ o ∈ objects, CleanArg o.name
  cleanHeads : ∀ p ∈ preds, CleanHead p.name

namespace StateIndex

/-- The propositions in a query have printable names. -/
def Query.Clean : Query → Prop
  | .proposition _ => True
  | .index a => CleanHead a.pred ∧ ∀ n ∈ a.args, CleanArg n
  | .state _ => True
  | .indexed s => ∀ a ∈ s, CleanHead a.pred ∧ ∀ n ∈ a.args, CleanArg n

/-- The caches after some history of queries. -/
def Reached (I : StateIndex) (c : IndexCache) : Prop :=
  ∃ qs : List Query, (∀ q ∈ qs, q.Clean) ∧ c = (I.askAll .empty qs).2

end StateIndex
end Symbolic
