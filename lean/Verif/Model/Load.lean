import Verif.Model.Normalize
import Verif.Model.StringApi

/-!
# Loading a Pddl: where the problem comes from, and domains without a problem

pddl.cc:55-101 decides whether the second argument of the constructor is empty, the text of a problem or a path.
pddl.cc:282-302 is the constructor without a problem.
-/

namespace Symbolic

/-! ## The second argument -/

/-- The characters of pddl.cc:79. -/
def isPddlSpace (c : Char) : Bool := c = ' ' || c = '\t' || c = '\n' || c = '\r'

/-- What `ParsePddl` takes its second argument for. -/
inductive ProblemSource where
  /-- nothing is read -/
  | absent
  /-- the argument itself is read -/
  | text
  /-- the file of that name is read -/
  | file
  deriving DecidableEq, Repr

/-- pddl.cc:76-90. `find_last_not_of` is the last character that is no space. -/
def problemSource (problem : Name) : ProblemSource :=
  if problem = [] then .absent
  else match problem.reverse.find? (fun c => !isPddlSpace c) with
    | some c => if c = ')' then .text else .file
    | none => .file

/-- pddl.cc:76-101: what is read. `parse` is VAL on a text, `files` the contents of the files; a file that does not exist
reads as empty. `none` means that no problem was read. -/
def readSource (parse : Name → Option β) (files : Name → Name) (problem : Name) : Res (Option β) :=
  match problemSource problem with
  | .absent => .ok none
  | .text => match parse problem with
    | some p => .ok (some p)
    | none => .exc .runtimeError
  | .file => match parse (files problem) with
    | some p => .ok (some p)
    | none => .exc .runtimeError

variable [StrHash]

/-! ## A domain without a problem -/

/-- A `Pddl` made from a domain alone. `pddl` has the members; there is no problem in the parse tree (the fields `objects`,
`init` and `goal` of the tree are empty and not read), and `goal_` is default constructed (formula.h:38). -/
structure DomainPddl where
  pddl : Pddl

namespace DomainPddl

/-- pddl.cc:282-302. `constants_` is not initialized from the domain, unlike pddl.cc:255. -/
def make (t : Ptree) : Res DomainPddl := do
  let m := ObjMap.create t.constants
  let c : NfCtx := ⟨t.constants, m, []⟩
  let axs0 ← Pddl.makeAxioms c [] (t.ops.filter (·.isAxiom))
  Pddl.createPreds m t.preds
  Pddl.createDrvs m t.drvs
  if t.preds.isEmpty then .ub else do
  let axs ← Pddl.makeAxioms c axs0 (t.ops.filter (·.isAxiom))
  let actions := t.ops.filter (!·.isAxiom)
  Pddl.createOps m axs actions
  pure ⟨⟨{ t with objects := [], init := [], goal := .other }, [], t.constants, m, axs, actions, State.empty⟩⟩

/-- pddl.h:179: the goal is an empty `std::function`. -/
def isGoalSatisfied (_ : DomainPddl) (_ : State) : Res Bool := .exc .badFunctionCall

/-- pddl.cc:449-454. -/
def isGoalSatisfiedStr (D : DomainPddl) (strings : List Name) : Res Bool := do
  let s ← parseState D.pddl.symbols strings
  D.isGoalSatisfied s

/-- pddl.cc:456-469. -/
def validPlanFrom (D : DomainPddl) (fuel : Nat) : State → List Name → Res Bool
  | s, [] => D.isGoalSatisfied s
  | s, call :: calls => do
    let oa ← D.pddl.parseAction call
    let b ← oa.1.isValid D.pddl.omap s oa.2
    if b then do
      let s' ← D.pddl.applyOp fuel oa.1 oa.2 s
      validPlanFrom D fuel s' calls
    else pure false

def isValidPlan (D : DomainPddl) (fuel : Nat) (plan : List Name) : Res Bool :=
  D.validPlanFrom fuel D.pddl.initial plan

/-- pddl.cc:516-525: `the_problem` is null. -/
def addObject (_ : DomainPddl) (_ _ : Name) : Res DomainPddl := .ub

/-- pddl.cc:527-543: likewise, once an object of that name is found. -/
def removeObject (D : DomainPddl) (name : Name) : Res DomainPddl :=
  if D.pddl.objects.any (fun o => decide (o.name = name)) then .ub else .ok D

end DomainPddl

/-- pddl.cc:250-264 for an empty second argument: the members are made in order until `*the_problem` is read, which is
null. -/
def Pddl.makeAbsent (t : Ptree) : Res Pddl := do
  let m := ObjMap.create t.constants
  let _ ← makeAxioms ⟨t.constants, m, []⟩ [] (t.ops.filter (·.isAxiom))
  createPreds m t.preds
  createDrvs m t.drvs
  .ub

/-- python/symbolic.cc:85-86: `Pddl(domain, problem, apply_axioms)`. `domain` is the domain VAL reads (its problem part is
ignored), `parse` gives objects, initial state and goal. -/
def Pddl.load (domain : Ptree) (parse : Name → Option (List Obj × List Atom × Goal)) (files : Name → Name) (problem : Name)
    (applyAxioms : Bool) (fuel : Nat) : Res Pddl := do
  let p ← readSource parse files problem
  match p with
  | none => Pddl.makeAbsent domain
  | some (objects, init, goal) => Pddl.make { domain with objects, init, goal } applyAxioms fuel

/-- python/symbolic.cc:324-332: `pickle.loads(pickle.dumps(Pddl(domain)))`: `problem_pddl_` is empty (pddl.cc:282-285) and
the constructor with two paths is called. -/
def DomainPddl.pickled (domain : Ptree) (parse : Name → Option (List Obj × List Atom × Goal)) (files : Name → Name)
    (fuel : Nat) : Res Pddl := Pddl.load domain parse files [] true fuel

end Symbolic
