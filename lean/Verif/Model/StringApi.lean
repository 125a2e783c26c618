import Verif.Model.Pddl

/-!
# The functions on sets of strings

The overloads of src/pddl.cc that take `std::set<std::string>` and the functions of the Python module
(src/python/symbolic.cc:35-42, 133-332). A set of strings is a list; the order and repetitions of an argument are those of
an arbitrary iteration, and only membership in a result is meaningful.
-/

namespace Symbolic

variable [StrHash]

namespace Pddl

/-- python/symbolic.cc:133-138: `next_state`. -/
def nextStateStr (P : Pddl) (fuel : Nat) (strings : List Name) (call : Name) : Res (List Name) := do
  let s ← parseState P.symbols strings
  let s' ← P.nextState fuel s call
  pure s'.stringify

/-- python/symbolic.cc:160-165: `apply_actions`. -/
def applyActionsStr (P : Pddl) (fuel : Nat) (strings : List Name) (calls : List Name) : Res (List Name) := do
  let s ← parseState P.symbols strings
  let s' ← P.applyActions fuel s calls
  pure s'.stringify

/-- python/symbolic.cc:180-185: `derived_state`. -/
def derivedStateStr (P : Pddl) (fuel : Nat) (strings : List Name) : Res (List Name) := do
  let s ← parseState P.symbols strings
  let s' ← P.derivedState fuel s
  pure s'.stringify

/-- python/symbolic.cc:186-190: `consistent_state` on one set. -/
def consistentStateStr (P : Pddl) (fuel : Nat) (strings : List Name) : Res (List Name) := do
  let s ← parseState P.symbols strings
  let s' ← P.consistentState fuel s
  pure s'.stringify

/-- python/symbolic.cc:220-225: `is_valid_action`. -/
def isValidActionStr (P : Pddl) (strings : List Name) (call : Name) : Res Bool := do
  let s ← parseState P.symbols strings
  P.isValidAction s call

/-- python/symbolic.cc:245-249: `is_valid_state` on one set. -/
def isValidStateStr (P : Pddl) (fuel : Nat) (strings : List Name) : Res Bool := do
  let s ← parseState P.symbols strings
  P.isValidState fuel s

/-- state.h:149-151: `PartialState(pddl, pos, neg)`. -/
def parsePartial (P : Pddl) (pos neg : List Name) : Res PartialState := do
  let p ← parseState P.symbols pos
  let n ← parseState P.symbols neg
  pure ⟨p, n⟩

/-- python/symbolic.cc:201-207: `consistent_state` on two sets. -/
def consistentStatePStr (P : Pddl) (fuel : Nat) (pos neg : List Name) : Res (List Name × List Name) := do
  let s ← P.parsePartial pos neg
  let s' ← P.consistentStateP fuel s
  pure (s'.pos.stringify, s'.neg.stringify)

/-- python/symbolic.cc:260-264: `is_valid_state` on two sets. -/
def isValidStatePStr (P : Pddl) (fuel : Nat) (pos neg : List Name) : Res Bool := do
  let s ← P.parsePartial pos neg
  P.isValidStateP fuel s

/-- pddl.cc:440-447: `IsValidTuple` on sets of strings. -/
def isValidTupleStr (P : Pddl) (fuel : Nat) (strings : List Name) (call : Name) (next : List Name) : Res Bool := do
  let s ← parseState P.symbols strings
  let s' ← parseState P.symbols next
  P.isValidTuple fuel s call s'

/-- pddl.cc:449-454: `IsGoalSatisfied` on a set of strings. -/
def isGoalSatisfiedStr (P : Pddl) (strings : List Name) : Res Bool := do
  let s ← parseState P.symbols strings
  P.isGoalSatisfied s

/-- pddl.cc:480-489: `ListValidArguments` on a set of strings and the name of an action (action.cc:342-343: the text
before the first bracket), with `Stringify` (pddl.cc:568-582). -/
def listValidArgumentsStr (P : Pddl) (strings : List Name) (name : Name) : Res (List (List Name)) := do
  let s ← parseState P.symbols strings
  let op ← P.getOp (parseHead name)
  op.create P.omap P.axioms
  let argss ← P.listValidArguments s op
  pure (argss.map fun as => as.map Obj.name)

/-- pddl.cc:511-514: `ListValidActions` on a set of strings. -/
def listValidActionsStr (P : Pddl) (strings : List Name) : Res (List Name) := do
  let s ← parseState P.symbols strings
  P.listValidActions s

/-- python/symbolic.cc:284-289: assignment to `initial_state` (pddl.h:226). -/
def setInitialStr (P : Pddl) (strings : List Name) : Res Pddl := do
  let s ← parseState P.symbols strings
  pure { P with initial := s }

/-- python/symbolic.cc:324-332: pickling keeps the paths of the domain and the problem, unpickling calls the
constructor with them and the default `apply_axioms`; `t` is what VAL reads from the two files. -/
def pickled (t : Ptree) (fuel : Nat) : Res Pddl := Pddl.make t true fuel

end Pddl

end Symbolic
