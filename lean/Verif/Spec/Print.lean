import Verif.Spec.Strings
import Verif.Model.Print

/-!
# Specification: names that can be printed
-/

namespace Symbolic

/-- A name as PDDL has them: not empty, without brackets, commas and white space. -/
def PlainName (n : Name) : Prop := n ≠ [] ∧ ∀ c ∈ n, ¬ IsSep c ∧ c ≠ '(' ∧ c ≠ ')'

/-- A proposition over such names. -/
def Atom.PlainText (a : Atom) : Prop := PlainName a.pred ∧ ∀ n ∈ a.args, PlainName n

variable [StrHash]

/-- A partial state over plain names. -/
def PartialState.Plain (s : PartialState) : Prop := (∀ a ∈ s.pos, a.PlainText) ∧ ∀ a ∈ s.neg, a.PlainText

/-- A search node as the planner makes them: the root has no action, the others a call. -/
def PNode.Plain (n : PNode) : Prop :=
  (∀ a ∈ n.state, a.PlainText) ∧
    ((n.depth = 0 ∧ n.action = []) ∨ (0 < n.depth ∧ ∃ a : Atom, a.PlainText ∧ n.action = a.toString))

end Symbolic
