import Verif.Model.State

/-!
# Strings of propositions and action calls

Transcription of the string handling in src/object.cc:38-72, 129-138, include/symbolic/proposition.h:36-38,
src/proposition.cc:54-63, src/action.cc:369-379 and src/state.cc:47-62.
-/

namespace Symbolic

/-- `isspace` in the C locale, the separators of `std::stringstream >> std::string`. -/
def isSpace (c : Char) : Bool := c = ' ' || c = '\t' || c = '\n' || c = '\x0b' || c = '\x0c' || c = '\r'

/-- `find_first_of(c)`; `none` is `npos`. -/
def findFirst (c : Char) : Name → Option Nat
  | [] => none
  | x :: xs => if x = c then some 0 else (findFirst c xs).map (· + 1)

/-- `find_last_of(c)`; `none` is `npos`. -/
def findLast (c : Char) : Name → Option Nat
  | [] => none
  | x :: xs =>
    match findLast c xs with
    | some i => some (i + 1)
    | none => if x = c then some 0 else none

/-- The loop `while (ss >> arg) args.emplace_back(arg)`; `cur` is the word read so far. -/
def wordsGo : Name → Name → List Name
  | [], cur => if cur = [] then [] else [cur]
  | c :: cs, cur =>
    if isSpace c then (if cur = [] then wordsGo cs [] else cur :: wordsGo cs [])
    else wordsGo cs (cur ++ [c])

def words (s : Name) : List Name := wordsGo s []

/-- object.cc:58-72: `TokenizeArguments`. `idx_end` is a size_t difference: when the last `)` precedes the
start it wraps around to a huge count and `substr` takes everything. -/
def tokenizeArguments (s : Name) : List Name :=
  let start := match findFirst '(' s with
    | some i => i + 1
    | none => 0
  let stop := match findLast ')' s with
    | some i => min s.length i
    | none => s.length
  let sub := if stop < start then s.drop start else (s.drop start).take (stop - start)
  words (sub.map (fun c => if c = ',' then ' ' else c))

/-- proposition.h:36-38: `ParseHead`. -/
def parseHead (s : Name) : Name :=
  match findFirst '(' s with
  | some i => s.take i
  | none => s

/-- object.cc:38-56: `GetSymbol`, over the domain constants followed by the problem objects. -/
def lookupObject (objects : List Obj) (name : Name) : Res Obj :=
  match objects.find? (fun o => decide (o.name = name)) with
  | some o => .ok o
  | none => .exc .runtimeError

/-- object.cc:129-138: `Object::ParseArguments`. -/
def lookupAll (objects : List Obj) : List Name → Res (List Obj)
  | [] => .ok []
  | n :: ns => do
    let o ← lookupObject objects n
    let os ← lookupAll objects ns
    pure (o :: os)

def parseArguments (objects : List Obj) (s : Name) : Res (List Obj) :=
  lookupAll objects (tokenizeArguments s)

/-- The arguments printed with separators (proposition.cc:56-61, action.cc:372-376). -/
def joinArgs : List Name → Name
  | [] => []
  | [a] => a
  | a :: b :: rest => a ++ n!", " ++ joinArgs (b :: rest)

/-- `name(arg, arg, ...)` (proposition.cc:54-63, action.cc:369-379). -/
def callString (name : Name) (args : List Name) : Name := name ++ ['('] ++ joinArgs args ++ [')']

/-- `Proposition::to_string` (proposition.cc:38-42). -/
def Atom.toString (a : Atom) : Name := callString a.pred a.args

/-- `Proposition(pddl, str)` (proposition.h:83-87). -/
def parseAtom (objects : List Obj) (s : Name) : Res Atom := do
  let args ← parseArguments objects s
  pure (Atom.ofObjs (parseHead s) args)

/-- The loop of `State(pddl, strings)` (state.cc:47-53); `strings` in the iteration order of the set. -/
def insertParsed [StrHash] (objects : List Obj) (s : State) : List Name → Res State
  | [] => .ok s
  | str :: strs => do
    let a ← parseAtom objects str
    insertParsed objects (s.insert a).2 strs

/-- state.cc:47-53: `State(pddl, strings)`. -/
def parseState [StrHash] (objects : List Obj) (strings : List Name) : Res State :=
  insertParsed objects State.empty strings

/-- state.cc:55-62: `Stringify`; an unordered_set, so only membership is meaningful. -/
def State.stringify [StrHash] (s : State) : List Name := s.elems.map Atom.toString

end Symbolic
