import Verif.Model.Formula

/-!
# Formula::to_string

The strings that formula.cc builds beside the compiled formulas. Both instantiations of the templates (for `State` and
`PartialState`) build the same strings; `Formula` keeps the second (formula.cc:350-354).
-/

namespace Symbolic

/-- `PropositionBase::to_pddl` (proposition.cc:44-52). The arguments print as their names, variables without `?`. -/
def pddlAtom (pred : Name) (args : List Obj) : Name :=
  ['('] ++ pred ++ args.flatMap (fun o => ' ' :: o.name) ++ [')']

/-- The loop formula.cc:252-255 (291-294): `?name - type`, separated by blanks. -/
def pddlParams : List Obj → Name
  | [] => []
  | [o] => ['?'] ++ o.name ++ n!" - " ++ o.typeName
  | o :: os => ['?'] ++ o.name ++ n!" - " ++ o.typeName ++ [' '] ++ pddlParams os

/-- The contents of `std::stringstream ss(init)` after `ss << written`: without `std::ios::ate` writing begins at the
front. -/
def overwrite (init written : Name) : Name := written ++ init.drop written.length

/-- formula.cc:252-258 (289-296); `params` are the parameters outside of the quantifier. -/
def pddlQuantified (init : Name) (params : List Obj) (body : Name) : Name :=
  overwrite init (pddlParams params ++ [')'] ++ ['\n'] ++ body ++ ['\n'] ++ [')'])

mutual
/-- The second component of `CreateFormula` (formula.cc:302-341). -/
def Goal.str : Goal → List Obj → Name
  | .atom pred ts, _ => pddlAtom pred (ts.map Term.obj)
  | .conj gs, params => n!"(and" ++ Goal.strs gs params ++ [')']
  | .disj gs, params => n!"(or" ++ Goal.strs gs params ++ [')']
  | .neg g, params => n!"(not " ++ Goal.str g params ++ [')']
  | .all vars g, params => pddlQuantified n!"(forall (" params (Goal.str g (params ++ vars))
  | .ex vars g, params => pddlQuantified n!"(exists (" params (Goal.str g (params ++ vars))
  | .other, _ => []

/-- The loops formula.cc:107-112, 137-142. -/
def Goal.strs : List Goal → List Obj → Name
  | [], _ => []
  | g :: gs, params => ' ' :: Goal.str g params ++ Goal.strs gs params
end

/-- `Formula::to_string` (formula.h:60). -/
def Formula.toString (F : Formula) : Name := F.goal.str F.params

end Symbolic
