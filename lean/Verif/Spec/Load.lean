import Verif.Model.Load

/-!
# Specification: a domain with an empty problem
-/

namespace Symbolic

variable [StrHash]

/-- The domain with a problem that has no objects, no propositions and a goal that is always true. -/
def Ptree.emptyProblem (t : Ptree) : Ptree := { t with objects := [], init := [], goal := .conj [] }

/-- The functions of a Pddl that do not read the problem give the same answers. -/
structure SameAnswers (P Q : Pddl) : Prop where
  objects : P.objects = Q.objects
  objectMap : P.omap = Q.omap
  nextState : ∀ k s call, P.nextState k s call = Q.nextState k s call
  applyActions : ∀ k s calls, P.applyActions k s calls = Q.applyActions k s calls
  derivedState : ∀ k s, P.derivedState k s = Q.derivedState k s
  consistentState : ∀ k s, P.consistentState k s = Q.consistentState k s
  consistentStateP : ∀ k s, P.consistentStateP k s = Q.consistentStateP k s
  isValidAction : ∀ s call, P.isValidAction s call = Q.isValidAction s call
  isValidState : ∀ k s, P.isValidState k s = Q.isValidState k s
  isValidStateP : ∀ k s, P.isValidStateP k s = Q.isValidStateP k s
  isValidTuple : ∀ k s call s', P.isValidTuple k s call s' = Q.isValidTuple k s call s'
  listValidArguments : ∀ s op, P.listValidArguments s op = Q.listValidArguments s op
  listValidActions : ∀ s, P.listValidActions s = Q.listValidActions s
  normalizeConditions : ∀ k call b, P.normalizeConditions k call b = Q.normalizeConditions k call b
  parseState : ∀ strings, parseState P.symbols strings = parseState Q.symbols strings

end Symbolic
