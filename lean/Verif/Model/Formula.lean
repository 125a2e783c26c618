import Verif.Model.Syntax

/-!
# Formulas

Transcription of src/formula.cc. A `Formula` object consists of closures built once from the parse tree, the
parameter list and the Pddl's object map; the model keeps (goal, parameters, object map) and interprets them
at each call. The closures share argument buffers between calls; this file uses a fresh buffer for each
call, `Model/FormulaBuf.lean` keeps the buffers and `Props/Formulas.lean` (C18) proves that it makes no
difference.
-/

namespace Symbolic

/-- The `(prop parameter index, action parameter index)` pairs (formula.cc:385-392). -/
def idxParams (params propParams : List Obj) : List (Nat × Nat) :=
  (List.range propParams.length).flatMap fun i =>
    (List.range params.length).filterMap fun j =>
      match propParams[i]?, params[j]? with
      | some p, some q => if p.same q then some (i, j) else none
      | _, _ => none

/-- The loop of formula.cc:400-404: overwrite the buffer; `action_args[idx_action]` is unchecked. -/
def applyLoop (args : List Obj) : List (Nat × Nat) → List Obj → Res (List Obj)
  | [], buf => .ok buf
  | (i, j) :: rest, buf => do
    let a ← Res.index args j
    if i < buf.length then applyLoop args rest (buf.set i a) else .ub

/-- formula.cc:379-407: `CreateApplicationFunction(params, propParams)(args)`, with the buffer as the
constructor leaves it. -/
def applyFn (params propParams args : List Obj) : Res (List Obj) :=
  applyLoop args (idxParams params propParams) propParams

/-- What the evaluator and the effects need of `State` and of `PartialState`. -/
class StateLike (σ : Type) where
  /-- `contains` -/
  contains : σ → Atom → Res Bool
  /-- how a negated plain atom is evaluated: `!contains` (formula.cc:157-172) for State, `does_not_contain`
  (formula.cc:173-206) for PartialState -/
  lacks : σ → Atom → Res Bool
  /-- `insert` -/
  insert : σ → Atom → Nat × σ
  /-- `erase` -/
  erase : σ → Atom → Nat × σ
  /-- action.cc:256-260 with formula.cc:357-364: the value of a condition of a conditional effect -/
  cond : Res Bool → Res Bool

/-- State: bool results, converted to int by the caller (action.cc:144, 233). -/
instance [StrHash] : StateLike State where
  contains s a := .ok (s.contains a)
  lacks s a := .ok (!s.contains a)
  insert s a := let r := s.insert a; (if r.1 then 1 else 0, r.2)
  erase s a := let r := s.erase a; (if r.1 then 1 else 0, r.2)
  cond r := r

/-- `std::optional<bool> Formula::operator()(PartialState)` (formula.cc:357-364): an unknown evaluation
becomes `none`. -/
def optionalOf (r : Res Bool) : Res (Option Bool) :=
  match r with
  | .ok b => .ok (some b)
  | .exc .unknownEvaluation => .ok none
  | .exc e => .exc e
  | .ub => .ub
  | .fuel => .fuel

/-- action.cc:258-260: unknown counts as false. -/
def condOf (r : Res (Option Bool)) : Res Bool :=
  match r with
  | .ok (some b) => .ok b
  | .ok none => .ok false
  | .exc e => .exc e
  | .ub => .ub
  | .fuel => .fuel

instance [StrHash] : StateLike PartialState where
  contains s a := s.contains a
  lacks s a := s.doesNotContain a
  insert s a := s.insert a
  erase s a := s.erase a
  cond r := condOf (optionalOf r)

/-- What an atom is (formula.cc:56-95, action.cc:88-119): `=`, a type of some object, or a plain atom. -/
inductive AtomKind where
  | eq
  | type
  | plain
  deriving DecidableEq

def atomKind (m : ObjMap) (pred : Name) : AtomKind :=
  if pred = n!"=" then .eq else if m.has pred then .type else .plain

variable {σ : Type} [StateLike σ]

/-- formula.cc:46-95: `CreateProposition`. -/
def evalAtom (m : ObjMap) (params : List Obj) (pred : Name) (ts : List Term) (s : σ) (args : List Obj) :
    Res Bool := do
  let os ← applyFn params (ts.map Term.obj) args
  match atomKind m pred with
  | .eq => do
    let a ← Res.index os 0
    let b ← Res.index os 1
    pure (a.same b)
  | .type => do
    let a ← Res.index os 0
    pure (a.isSubtype pred)
  | .plain => StateLike.contains s (Atom.ofObjs pred os)

/-- formula.cc:157-222: negation. A plain atom is tested with `lacks`, anything else is evaluated (`inner`) and
negated. -/
def evalNeg (m : ObjMap) (params : List Obj) (g : Goal) (s : σ) (args : List Obj) (inner : Res Bool) :
    Res Bool :=
  match g with
  | .atom pred ts =>
    match atomKind m pred with
    | .plain => do
      let os ← applyFn params (ts.map Term.obj) args
      StateLike.lacks s (Atom.ofObjs pred os)
    | _ => do
      let b ← inner
      pure (!b)
  | _ => do
    let b ← inner
    pure (!b)

/-- `for (objs : gen) if (!P(objs)) return false; return true;` -/
def loopAll (f : List Obj → Res Bool) : List (List Obj) → Res Bool
  | [] => .ok true
  | os :: rest => do
    let b ← f os
    if b then loopAll f rest else pure false

/-- `for (objs : gen) if (P(objs)) return true; return false;` -/
def loopAny (f : List Obj → Res Bool) : List (List Obj) → Res Bool
  | [] => .ok false
  | os :: rest => do
    let b ← f os
    if b then pure true else loopAny f rest

mutual
/-- The closure made by `CreateFormula` (formula.cc:302-341), called with `args`. `other` has no closure: the
constructor throws (`Goal.create`). -/
def Goal.eval : Goal → ObjMap → List Obj → σ → List Obj → Res Bool
  | .atom pred ts, m, params, s, args => evalAtom m params pred ts s args
  | .conj gs, m, params, s, args => Goal.evalAll gs m params s args
  | .disj gs, m, params, s, args => Goal.evalAny gs m params s args
  | .neg g, m, params, s, args => evalNeg m params g s args (Goal.eval g m params s args)
  | .all vars g, m, params, s, args => do
    let tuples ← genLoop (paramTypes m vars)
    loopAll (fun os => Goal.eval g m (params ++ vars) s (args ++ os)) tuples
  | .ex vars g, m, params, s, args => do
    let tuples ← genLoop (paramTypes m vars)
    loopAny (fun os => Goal.eval g m (params ++ vars) s (args ++ os)) tuples
  | .other, _, _, _, _ => .exc .runtimeError

/-- formula.cc:115-122. -/
def Goal.evalAll : List Goal → ObjMap → List Obj → σ → List Obj → Res Bool
  | [], _, _, _, _ => .ok true
  | g :: gs, m, params, s, args => do
    let b ← Goal.eval g m params s args
    if b then Goal.evalAll gs m params s args else pure false

/-- formula.cc:145-152. -/
def Goal.evalAny : List Goal → ObjMap → List Obj → σ → List Obj → Res Bool
  | [], _, _, _, _ => .ok false
  | g :: gs, m, params, s, args => do
    let b ← Goal.eval g m params s args
    if b then pure true else Goal.evalAny gs m params s args
end

mutual
/-- The constructor (formula.cc:347-355): which goals are rejected. -/
def Goal.create : Goal → ObjMap → Res Unit
  | .atom _ _, _ => .ok ()
  | .conj gs, m => Goal.createAll gs m
  | .disj gs, m => Goal.createAll gs m
  | .neg g, m => Goal.create g m
  | .all vars g, m => do
    Goal.create g m
    let _ ← paramGen m vars
    pure ()
  | .ex vars g, m => do
    Goal.create g m
    let _ ← paramGen m vars
    pure ()
  | .other, _ => .exc .runtimeError

def Goal.createAll : List Goal → ObjMap → Res Unit
  | [], _ => .ok ()
  | g :: gs, m => do
    Goal.create g m
    Goal.createAll gs m
end

/-- `Formula`: symbol, parameters, and the object map at construction. -/
structure Formula where
  goal : Goal
  params : List Obj
  omap : ObjMap

namespace Formula

/-- formula.cc:347-355. -/
def make (m : ObjMap) (g : Goal) (params : List Obj) : Res Formula := do
  Goal.create g m
  pure ⟨g, params, m⟩

/-- formula.h:48-51: evaluation on a State. -/
def evalState [StrHash] (F : Formula) (s : State) (args : List Obj) : Res Bool :=
  F.goal.eval F.omap F.params s args

/-- formula.cc:357-364: evaluation on a PartialState. -/
def evalPartial [StrHash] (F : Formula) (s : PartialState) (args : List Obj) : Res (Option Bool) :=
  optionalOf (F.goal.eval F.omap F.params s args)

end Formula

end Symbolic
