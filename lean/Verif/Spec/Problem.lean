import Verif.Spec.Pddl
import Verif.Model.Problem

/-!
# Specification: reading PDDL problems

A reader for the problems of the PDDL grammar, on top of the reader of goal descriptions, and how a user of
symbolic/problem.py writes a formula.
-/

namespace Symbolic

/-- `a b - type c ...`: names are collected until a type follows; names at the end have no type (empty). -/
def readTyped : List Sexp → List Name → Option (List (Name × Name))
  | [], acc => some (acc.map fun n => (n, []))
  | .word ['-'] :: .word t :: es, acc => do
    let rest ← readTyped es []
    some (acc.map (fun n => (n, t)) ++ rest)
  | .word w :: es, acc => if w = ['-'] then none else readTyped es (acc ++ [w])
  | .list _ :: _, _ => none

def readWords : List Sexp → Option (List Name)
  | [] => some []
  | .word w :: es => do
    let ws ← readWords es
    some (w :: ws)
  | .list _ :: _ => none

/-- `(pred arg ...) ...`. -/
def readAtoms : List Sexp → Option (List Atom)
  | [] => some []
  | .list (.word p :: es) :: rest => do
    let ws ← readWords es
    let l ← readAtoms rest
    some (⟨p, ws⟩ :: l)
  | _ => none

/-- A problem as text. -/
structure ProblemText where
  name : Name
  domain : Name
  objects : List (Name × Name)
  init : List Atom
  goal : Goal

/-- The text of one problem. -/
def readProblem (S : Symbols) (s : Name) : Option ProblemText :=
  match bracket (lex s []) [[]] with
  | some [.list [.word d, .list [.word p, .word name], .list [.word dom, .word domain], .list (.word os :: objs),
      .list (.word i :: atoms), .list [.word g, goal]]] =>
    if d = n!"define" ∧ p = n!"problem" ∧ dom = n!":domain" ∧ os = n!":objects" ∧ i = n!":init" ∧ g = n!":goal" then do
      let objects ← readTyped objs []
      let init ← readAtoms atoms
      let goal ← readGoal S goal
      some ⟨name, domain, objects, init, goal⟩
    else none
  | _ => none

mutual
/-- How a formula is written with the functions of the module; `sp` says how terms are spelled. Several variables are
written as nested quantifiers. -/
def Goal.py (sp : Term → Name) : Goal → Py.Formula
  | .atom pred ts => .str (Py.prop pred (ts.map sp))
  | .conj gs => Py.conj (Goal.pys sp gs)
  | .disj gs => Py.disj (Goal.pys sp gs)
  | .neg g => Py.neg (Goal.py sp g)
  | .all vars g => vars.foldr (fun v f => Py.all v.name v.typeName f) (Goal.py sp g)
  | .ex vars g => vars.foldr (fun v f => Py.ex v.name v.typeName f) (Goal.py sp g)
  | .other => .seq []
def Goal.pys (sp : Term → Name) : List Goal → List Py.Formula
  | [] => []
  | g :: gs => Goal.py sp g :: Goal.pys sp gs
end

mutual
/-- No quantifiers; words that can be written, and spelled as the reader reads them. -/
def Goal.Spelled (S : Symbols) (sp : Term → Name) : Goal → Prop
  | .atom pred ts => CleanWord pred ∧ pred ∉ keywords ∧ ∀ t ∈ ts, CleanWord (sp t) ∧ S.term (sp t) = some t
  | .conj gs => Goal.SpelledAll S sp gs
  | .disj gs => Goal.SpelledAll S sp gs
  | .neg g => Goal.Spelled S sp g
  | .all _ _ => False
  | .ex _ _ => False
  | .other => False
def Goal.SpelledAll (S : Symbols) (sp : Term → Name) : List Goal → Prop
  | [] => True
  | g :: gs => Goal.Spelled S sp g ∧ Goal.SpelledAll S sp gs
end

mutual
/-- All words can be written; every quantifier binds something. -/
def Goal.Wordly (sp : Term → Name) : Goal → Prop
  | .atom pred ts => CleanWord pred ∧ ∀ t ∈ ts, CleanWord (sp t)
  | .conj gs => Goal.WordlyAll sp gs
  | .disj gs => Goal.WordlyAll sp gs
  | .neg g => Goal.Wordly sp g
  | .all vars g => vars ≠ [] ∧ (∀ v ∈ vars, CleanWord v.name ∧ CleanWord v.typeName) ∧ Goal.Wordly sp g
  | .ex vars g => vars ≠ [] ∧ (∀ v ∈ vars, CleanWord v.name ∧ CleanWord v.typeName) ∧ Goal.Wordly sp g
  | .other => False
def Goal.WordlyAll (sp : Term → Name) : List Goal → Prop
  | [] => True
  | g :: gs => Goal.Wordly sp g ∧ Goal.WordlyAll sp gs
end

/-- The type that follows in a list of objects: that of the first one with a type. -/
def nextType : List (Name × Name) → Name
  | [] => []
  | (_, t) :: rest => if t = [] then nextType rest else t

/-- Objects without a type take the type of the next object that has one. -/
def borrowTypes : List (Name × Name) → List (Name × Name)
  | [] => []
  | (n, t) :: rest => (n, nextType ((n, t) :: rest)) :: borrowTypes rest

end Symbolic
