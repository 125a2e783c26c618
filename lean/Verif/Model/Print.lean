import Verif.Model.Parse
import Verif.Model.Axiom
import Verif.Model.Planner

/-!
# Printing

The `operator<<` of states, partial states, normal forms, axioms and search nodes. Propositions are printed by
`Atom.toString` (Model/Parse). `std::endl` is a line feed.
-/

namespace Symbolic

/-- Inserting a string into a sorted list. -/
def insertName (a : Name) : List Name → List Name
  | [] => [a]
  | b :: l => if nameLt b a then b :: insertName a l else a :: b :: l

/-- `std::sort` on strings. Equal strings cannot be told apart, so that every algorithm gives this result. -/
def sortNames : List Name → List Name
  | [] => []
  | a :: l => insertName a (sortNames l)

section
variable [StrHash]

/-- state.cc:64-81. -/
def State.print (s : State) : Name :=
  n!"{ " ++ joinArgs (sortNames (s.elems.map Atom.toString)) ++ n!" }"

/-- One proposition per line, after `pre`. -/
def printLines (pre : Name) (l : List Atom) : Name := l.flatMap fun a => pre ++ a.toString ++ ['\n']

/-- state.cc:130-140. -/
def PartialState.print (s : PartialState) : Name :=
  n!"(and\n" ++ printLines n!"\t" s.pos.elems ++ printLines n!"\tnot " s.neg.elems ++ n!")\n"

/-- normal_form.cc:566-576: one conjunction. -/
def printConj (s : PartialState) : Name :=
  n!"    (and\n" ++ printLines n!"        " s.pos.elems ++ printLines n!"        not " s.neg.elems ++ n!"    )\n"

/-- normal_form.cc:564-578. -/
def Dnf.print (d : Dnf) : Name := n!"(or\n" ++ d.flatMap printConj ++ n!")\n"

/-- normal_form.cc:581-590: one disjunction. -/
def printDisj (s : PartialState) : Name :=
  n!"    (or\n" ++ printLines n!"        " s.pos.elems ++ printLines n!"        not " s.neg.elems ++ n!"    )\n"

/-- normal_form.cc:579-593. A `ConjunctiveFormula` is a vector of disjunctions, each a PartialState (normal_form.h). -/
def printCnf (d : List PartialState) : Name := n!"(and\n" ++ d.flatMap printDisj ++ n!")\n"

/-- axiom.cc:54-59, 61-66: what is printed for one side of an axiom; see `printed` in Model/Axiom. -/
def printedText (r : Res (Option Dnf)) : Res Name :=
  match r with
  | .ok (some d) => .ok (Dnf.print d)
  | .ok none => .ub
  | .exc _ => .ok n!"false"
  | .ub => .ub
  | .fuel => .fuel

/-- axiom.cc:50-68: `StringifyFormula`. -/
def stringifyText (c : NfCtx) (op : Op) : Res Name := do
  let pre ← printedText (op.pre.dnf { c with vars := op.params } op.params op.params)
  let eff ← printedText (op.eff.dnf { c with vars := op.params } op.params op.params)
  pure (pre ++ n!" => " ++ eff)

/-- axiom.cc:225-234, once the axiom is constructed. -/
def Axm.print (c : NfCtx) (op : Op) : Res Name := do
  let formula ← stringifyText c op
  pure (n!"axiom(" ++ joinArgs (op.params.map Obj.name) ++ n!"): " ++ formula)

omit [StrHash] in
/-- action.cc:414-423, and action.cc:363-367: `Action::to_string()`. -/
def Op.print (op : Op) : Name := callString op.name (op.params.map Obj.name)

omit [StrHash] in
/-- predicate.cc:44-53, and predicate.cc:26-30: `Predicate::to_string()`. -/
def PredDecl.print (d : PredDecl) : Name := callString d.name (d.params.map Obj.name)

/-- planner.cc:127-140. -/
def PNode.print (n : PNode) : Name :=
  n!"\x1b[1m" ++ List.replicate n.depth '-' ++ (if n.depth > 0 then n!" " else []) ++ n.action ++ n!" -> " ++ n!"\x1b[0m" ++
    n.state.print

end
end Symbolic
