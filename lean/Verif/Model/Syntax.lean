import Verif.Model.State

/-!
# The parse tree

The part of VAL's parse tree that the library reads (`VAL/ptree.h`): goals, effects, operators, derivation
rules, predicate declarations, constants, objects, initial state and goal. VAL itself (lexer, parser, type
checker) is not modelled: this is the input of the model. A `Term` remembers whether the symbol is a
variable or a constant; the library never asks (VAL drops the `?`), it is only used by specifications.
-/

namespace Symbolic

/-- An argument of a proposition: `VAL::var_symbol` or `VAL::const_symbol`, already turned into an `Object`
by `Object::CreateList` (object.h:113-128). -/
inductive Term where
  | var (o : Obj)
  | const (o : Obj)
  deriving DecidableEq, Repr

/-- The `Object` the library makes of it. -/
def Term.obj : Term → Obj
  | .var o => o
  | .const o => o

/-- `VAL::goal` as distinguished by the dynamic casts in formula.cc:303-341. -/
inductive Goal where
  /-- `simple_goal` -/
  | atom (pred : Name) (args : List Term)
  /-- `conj_goal` -/
  | conj (gs : List Goal)
  /-- `disj_goal` -/
  | disj (gs : List Goal)
  /-- `neg_goal` -/
  | neg (g : Goal)
  /-- `qfied_goal` with `E_FORALL` -/
  | all (vars : List Obj) (g : Goal)
  /-- `qfied_goal` with `E_EXISTS` -/
  | ex (vars : List Obj) (g : Goal)
  /-- any other kind of goal (implications, timed goals, comparisons, a null pointer) -/
  | other

mutual
/-- `VAL::effect_lists` with the four kinds of effects the library reads. -/
inductive Eff where
  | mk (foralls : FList) (adds dels : List (Name × List Term)) (conds : CList)
/-- The list of `forall_effect`s. -/
inductive FList where
  | nil
  | cons (vars : List Obj) (e : Eff) (rest : FList)
/-- The list of `cond_effect`s. -/
inductive CList where
  | nil
  | cons (cond : Goal) (e : Eff) (rest : CList)
end

/-- `VAL::operator_`: an `action` or an `axiom`. -/
structure Op where
  name : Name
  params : List Obj
  pre : Goal
  eff : Eff
  isAxiom : Bool := false

/-- `VAL::pred_decl`. -/
structure PredDecl where
  name : Name
  params : List Obj

/-- `VAL::derivation_rule`. -/
structure Drv where
  head : Name
  params : List Obj
  body : Goal

/-- `VAL::analysis`: domain and problem. -/
structure Ptree where
  /-- `the_domain->types`: for each declared type the names from itself to its root; `none` is a null list -/
  types : Option (List (List Name)) := none
  constants : List Obj
  objects : List Obj
  ops : List Op
  preds : List PredDecl
  drvs : List Drv
  /-- add effects of the initial state -/
  init : List Atom
  goal : Goal

end Symbolic
