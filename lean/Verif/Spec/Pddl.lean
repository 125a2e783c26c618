import Verif.Model.Syntax

/-!
# Specification: reading PDDL goal descriptions

A reader for the goal descriptions of the PDDL grammar: text to tokens to bracketed expressions to formulas.
-/

namespace Symbolic

/-- Brackets and words. -/
inductive Tok where
  | lp
  | rp
  | word (w : Name)
  deriving DecidableEq

def isBlank (c : Char) : Bool := c = ' ' || c = '\t' || c = '\n' || c = '\r'

/-- The word read so far, if any. -/
def flush (cur : Name) : List Tok := if cur = [] then [] else [.word cur]

/-- The tokens of a text; `cur` is the word read so far. -/
def lex : Name → Name → List Tok
  | [], cur => flush cur
  | c :: cs, cur =>
    if c = '(' then flush cur ++ .lp :: lex cs []
    else if c = ')' then flush cur ++ .rp :: lex cs []
    else if isBlank c then flush cur ++ lex cs []
    else lex cs (cur ++ [c])

/-- Bracketed expressions. -/
inductive Sexp where
  | word (w : Name)
  | list (es : List Sexp)

/-- Read expressions; the stack holds the (reversed) lists that are not closed yet. -/
def bracket : List Tok → List (List Sexp) → Option (List Sexp)
  | [], [top] => some top.reverse
  | [], _ => none
  | .lp :: ts, st => bracket ts ([] :: st)
  | .rp :: ts, top :: next :: st => bracket ts ((.list top.reverse :: next) :: st)
  | .rp :: _, _ => none
  | .word w :: ts, top :: st => bracket ts ((.word w :: top) :: st)
  | .word _ :: _, [] => none

/-- What words mean: as an argument, as a type. -/
structure Symbols where
  term : Name → Option Term
  type : Name → Option (List Name)

/-- Quantified variables are written with a question mark. -/
def Symbols.bind (S : Symbols) (vars : List Obj) : Symbols :=
  { S with term := fun w =>
      match vars.find? (fun v => decide ('?' :: v.name = w)) with
      | some v => some (.var v)
      | none => S.term w }

/-- `?x ?y - type ...`; `acc` are the variables still without a type. -/
def readVars (S : Symbols) : List Sexp → List Name → Option (List Obj)
  | [], acc => some (acc.map fun v => ⟨v, []⟩)
  | .word ['-'] :: .word t :: es, acc => do
    let ty ← S.type t
    let rest ← readVars S es []
    some (acc.map (fun v => ⟨v, ty⟩) ++ rest)
  | .word ('?' :: v) :: es, acc => readVars S es (acc ++ [v])
  | _, _ => none

def readTerms (S : Symbols) : List Sexp → Option (List Term)
  | [] => some []
  | .word w :: es => do
    let t ← S.term w
    let ts ← readTerms S es
    some (t :: ts)
  | .list _ :: _ => none

mutual
/-- A goal description. -/
def readGoal : Symbols → Sexp → Option Goal
  | _, .word _ => none
  | S, .list es => readList S es

/-- The contents of the brackets. -/
def readList : Symbols → List Sexp → Option Goal
  | _, [] => none
  | _, .list _ :: _ => none
  | S, .word w :: es =>
    if w = n!"and" then (readGoals S es).map .conj
    else if w = n!"or" then (readGoals S es).map .disj
    else if w = n!"not" then
      match es with
      | [e] => (readGoal S e).map .neg
      | _ => none
    else if w = n!"forall" then
      match es with
      | [.list vs, e] => do
        let vars ← readVars S vs []
        let g ← readGoal (S.bind vars) e
        some (.all vars g)
      | _ => none
    else if w = n!"exists" then
      match es with
      | [.list vs, e] => do
        let vars ← readVars S vs []
        let g ← readGoal (S.bind vars) e
        some (.ex vars g)
      | _ => none
    else (readTerms S es).map (.atom w)

def readGoals : Symbols → List Sexp → Option (List Goal)
  | _, [] => some []
  | S, e :: es => do
    let g ← readGoal S e
    let gs ← readGoals S es
    some (g :: gs)
end

/-- A text that is one goal description. -/
def readPddl (S : Symbols) (s : Name) : Option Goal :=
  match bracket (lex s []) [[]] with
  | some [e] => readGoal S e
  | _ => none

/-- The symbols of a domain: `?v` for the parameters in scope, other words are objects. -/
def Symbols.pddl (objects : List Obj) (params : List Obj) (type : Name → Option (List Name)) : Symbols where
  term
    | '?' :: v => (params.find? (fun o => decide (o.name = v))).map .var
    | w => (objects.find? (fun o => decide (o.name = w))).map .const
  type := type

/-- A word that is read as one token. -/
def CleanWord (w : Name) : Prop := w ≠ [] ∧ ∀ c ∈ w, c ≠ '(' ∧ c ≠ ')' ∧ isBlank c = false

/-- The words with a meaning in goal descriptions. -/
def keywords : List Name := [n!"and", n!"or", n!"not", n!"forall", n!"exists"]

mutual
/-- No quantifiers, predicates and arguments that can be written, arguments that the reader knows. -/
def Goal.Writable (S : Symbols) : Goal → Prop
  | .atom pred ts => CleanWord pred ∧ pred ∉ keywords ∧ ∀ t ∈ ts, CleanWord t.obj.name ∧ S.term t.obj.name = some t
  | .conj gs => Goal.WritableAll S gs
  | .disj gs => Goal.WritableAll S gs
  | .neg g => Goal.Writable S g
  | .all _ _ => False
  | .ex _ _ => False
  | .other => False
def Goal.WritableAll (S : Symbols) : List Goal → Prop
  | [] => True
  | g :: gs => Goal.Writable S g ∧ Goal.WritableAll S gs
end

def NoBracket (w : Name) : Prop := '(' ∉ w ∧ ')' ∉ w

mutual
/-- Somewhere in the formula there is a quantifier. -/
def Goal.Quantified : Goal → Prop
  | .conj gs => Goal.QuantifiedAny gs
  | .disj gs => Goal.QuantifiedAny gs
  | .neg g => Goal.Quantified g
  | .all _ _ => True
  | .ex _ _ => True
  | _ => False
def Goal.QuantifiedAny : List Goal → Prop
  | [] => False
  | g :: gs => Goal.Quantified g ∨ Goal.QuantifiedAny gs
end

mutual
/-- No name in the formula has brackets in it. -/
def Goal.Named : Goal → Prop
  | .atom pred ts => NoBracket pred ∧ ∀ t ∈ ts, NoBracket t.obj.name
  | .conj gs => Goal.NamedAll gs
  | .disj gs => Goal.NamedAll gs
  | .neg g => Goal.Named g
  | .all vars g => (∀ v ∈ vars, NoBracket v.name ∧ NoBracket v.typeName) ∧ Goal.Named g
  | .ex vars g => (∀ v ∈ vars, NoBracket v.name ∧ NoBracket v.typeName) ∧ Goal.Named g
  | .other => True
def Goal.NamedAll : List Goal → Prop
  | [] => True
  | g :: gs => Goal.Named g ∧ Goal.NamedAll gs
end

end Symbolic
