import Verif.Model.Parse

/-!
# The Python module symbolic/problem.py

Strings are lists of characters; `none` is a raised ValueError. A `Formula` of the module is a string or a sequence of
formulas (problem.py:17); lists and tuples are not told apart, which the module never does either.
-/

namespace Symbolic.Py

/-- problem.py:17. -/
inductive Formula where
  | str (s : Name)
  | seq (l : List Formula)

/-- problem.py:9-10: `Object.__repr__`. -/
def objRepr (name type : Name) : Name := if type = [] then name else name ++ n!" - " ++ type

/-- problem.py:13-14. -/
def inlineGroup (name token : Name) : Name := ['('] ++ name ++ [' '] ++ token ++ [')']

/-- problem.py:20-21. -/
def group (name : Name) (tokens : Formula) : Formula := .seq [.str ('(' :: name), tokens, .str [')']]

/-- `" ".join(l)`. -/
def joinBlank : List Name → Name
  | [] => []
  | [a] => a
  | a :: b :: rest => a ++ [' '] ++ joinBlank (b :: rest)

/-- problem.py:24-25: `_P`. -/
def prop (pred : Name) (args : List Name) : Name := inlineGroup pred (joinBlank args)

/-- problem.py:28-29: `_and`. -/
def conj (l : List Formula) : Formula := group n!"and" (.seq l)

/-- problem.py:32-33: `_or`. -/
def disj (l : List Formula) : Formula := group n!"or" (.seq l)

/-- problem.py:36-39: `_not`. -/
def neg : Formula → Formula
  | .str s => .str (inlineGroup n!"not" s)
  | f => group n!"not" f

/-- problem.py:42-44: `_forall`. -/
def all (var type : Name) (f : Formula) : Formula := group (n!"forall " ++ objRepr ('?' :: var) type) f

/-- problem.py:47-49: `_exists`. -/
def ex (var type : Name) (f : Formula) : Formula := group (n!"exists " ++ objRepr ('?' :: var) type) f

/-- problem.py:52-53: `_when`. -/
def when (condition implies : Formula) : Formula := group n!"when" (.seq [condition, implies])

/-- `s.split(",")`; `cur` is the piece read so far. -/
def splitComma : Name → Name → List Name
  | [], cur => [cur]
  | c :: cs, cur => if c = ',' then cur :: splitComma cs [] else splitComma cs (cur ++ [c])

/-- problem.py:56-68: `parse_proposition`. The regular expression takes everything before the first `(`, and after it
everything before the first `)`, or all of it. -/
def parseProposition (s : Name) : Option (Name × List Name) :=
  match findFirst '(' s with
  | none => none
  | some i => some (s.take i,
      splitComma (((s.drop (i + 1)).takeWhile (fun c => decide (c ≠ ')'))).filter (fun c => decide (c ≠ ' '))) [])

/-- problem.py:71-79: `parse_head`. -/
def parseHead (s : Name) : Option Name := (findFirst '(' s).map (s.take ·)

/-- problem.py:82-90: `parse_args`. -/
def parseArgs (s : Name) : Option (List Name) :=
  (findFirst '(' s).map fun i =>
    splitComma (((s.drop (i + 1)).takeWhile (fun c => decide (c ≠ ')'))).filter (fun c => decide (c ≠ ' '))) []

mutual
/-- problem.py:93-96: `pprint_formula`; a negative repetition of a string is empty. -/
def pprint : Formula → Nat → Name
  | .str s, indent => List.replicate (indent - 1) '\t' ++ s ++ ['\n']
  | .seq l, indent => pprintAll l (indent + 1)
def pprintAll : List Formula → Nat → Name
  | [], _ => []
  | f :: fs, indent => pprint f indent ++ pprintAll fs indent
end

/-- problem.py:99-106: `Problem`. -/
structure Problem where
  name : Name
  domain : Name
  objects : List (Name × Name)
  init : List Name
  goal : Formula

namespace Problem

/-- problem.py:100-106. -/
def new (name domain : Name) : Problem := ⟨name, domain, [], [], .str n!"(and)"⟩

/-- problem.py:108-109. -/
def addObject (p : Problem) (name type : Name) : Problem := { p with objects := p.objects ++ [(name, type)] }

/-- problem.py:111-115. -/
def addInitialProp (p : Problem) (s : Name) : Option Problem :=
  if s ≠ [] ∧ s.head? ≠ some '(' then
    match parseProposition s with
    | none => none
    | some (head, args) => some { p with init := p.init ++ [prop head args] }
  else some { p with init := p.init ++ [s] }

/-- problem.py:117-119; the strings in the order in which the set is enumerated. -/
def setInitialState (p : Problem) : List Name → Option Problem
  | [] => some p
  | s :: l =>
    match p.addInitialProp s with
    | none => none
    | some p' => setInitialState p' l

/-- problem.py:121-122. -/
def setGoal (p : Problem) (goal : Formula) : Problem := { p with goal := goal }

/-- problem.py:140-144. -/
def goalLines (p : Problem) : List Formula :=
  match p.goal with
  | .str s => [.str (inlineGroup n!":goal" s)]
  | f => [.str n!"(:goal", f, .str [')']]

/-- problem.py:146-151: `definition`, with 124-138. -/
def definition (p : Problem) : Formula :=
  group (n!"define " ++ inlineGroup n!"problem" p.name) (.seq
    ([.str (inlineGroup n!":domain" p.domain)] ++
      [.str n!"(:objects", .seq (p.objects.map fun o => .str (objRepr o.1 o.2)), .str [')']] ++
      [.str n!"(:init", .seq (p.init.map .str), .str [')']] ++ p.goalLines))

/-- problem.py:153-154: `__repr__`. -/
def repr (p : Problem) : Name := pprint p.definition 0

end Problem

end Symbolic.Py
