import Verif.Model.Formula

/-!
# Formulas with their argument buffers

`CreateApplicationFunction` (formula.cc:379-407) allocates one vector per atomic subformula when the formula is built.
Every evaluation overwrites parts of it, and copies of the formula share it (`shared_ptr`). Here the buffers are
explicit: a tree of the shape of the formula with one vector at every atom, threaded through the evaluation. Buffers
stay overwritten when an evaluation ends with an exception.
-/

namespace Symbolic

/-- The buffers of a formula, in the shape of the formula. -/
inductive Bufs where
  | leaf (buf : List Obj)
  | node (l : List Bufs)

variable {σ : Type} [StateLike σ]

mutual
/-- formula.cc:382: at construction every buffer holds the arguments written in the formula. -/
def Goal.bufs : Goal → Bufs
  | .atom _ ts => .leaf (ts.map Term.obj)
  | .conj gs => .node (Goal.bufsL gs)
  | .disj gs => .node (Goal.bufsL gs)
  | .neg g => .node [Goal.bufs g]
  | .all _ g => .node [Goal.bufs g]
  | .ex _ g => .node [Goal.bufs g]
  | .other => .node []
def Goal.bufsL : List Goal → List Bufs
  | [] => []
  | g :: gs => Goal.bufs g :: Goal.bufsL gs
end

/-- formula.cc:46-95, reading the buffer after writing it: `ask` is what is asked about the arguments. -/
def runAtom (params : List Obj) (ts : List Term) (args : List Obj) (ask : List Obj → Res Bool) :
    Bufs → Res Bool × Bufs
  | .leaf buf =>
    match applyLoop args (idxParams params (ts.map Term.obj)) buf with
    | .ok buf' => (ask buf', .leaf buf')
    | .exc e => (.exc e, .leaf buf)
    | .ub => (.ub, .leaf buf)
    | .fuel => (.fuel, .leaf buf)
  | b => (.ub, b)

/-- What `CreateProposition` asks (formula.cc:56-95). -/
def askPos (m : ObjMap) (pred : Name) (s : σ) (os : List Obj) : Res Bool :=
  match atomKind m pred with
  | .eq => do
    let a ← Res.index os 0
    let b ← Res.index os 1
    pure (a.same b)
  | .type => do
    let a ← Res.index os 0
    pure (a.isSubtype pred)
  | .plain => StateLike.contains s (Atom.ofObjs pred os)

/-- What a negated atom asks (formula.cc:157-222). -/
def askNeg (m : ObjMap) (pred : Name) (s : σ) (os : List Obj) : Res Bool :=
  match atomKind m pred with
  | .plain => StateLike.lacks s (Atom.ofObjs pred os)
  | _ => do
    let b ← askPos m pred s os
    pure (!b)

/-- The quantifier loops with threaded buffers. -/
def runLoopAll (f : List Obj → Bufs → Res Bool × Bufs) : List (List Obj) → Bufs → Res Bool × Bufs
  | [], b => (.ok true, b)
  | os :: rest, b =>
    match f os b with
    | (.ok true, b') => runLoopAll f rest b'
    | r => r

def runLoopAny (f : List Obj → Bufs → Res Bool × Bufs) : List (List Obj) → Bufs → Res Bool × Bufs
  | [], b => (.ok false, b)
  | os :: rest, b =>
    match f os b with
    | (.ok false, b') => runLoopAny f rest b'
    | r => r

/-- `!r` -/
def notRes (r : Res Bool) : Res Bool := do
  let b ← r
  pure (!b)

mutual
/-- Evaluation with buffers: outcome and the buffers afterwards. -/
def Goal.run : Goal → ObjMap → List Obj → σ → List Obj → Bufs → Res Bool × Bufs
  | .atom pred ts, m, params, s, args, b => runAtom params ts args (askPos m pred s) b
  | .conj gs, m, params, s, args, .node bs => let r := Goal.runAll gs m params s args bs; (r.1, .node r.2)
  | .disj gs, m, params, s, args, .node bs => let r := Goal.runAny gs m params s args bs; (r.1, .node r.2)
  | .neg (.atom pred ts), m, params, s, args, .node [b] =>
    let r := runAtom params ts args (askNeg m pred s) b
    (r.1, .node [r.2])
  | .neg g, m, params, s, args, .node [b] =>
    let r := Goal.run g m params s args b
    (notRes r.1, .node [r.2])
  | .all vars g, m, params, s, args, .node [b] =>
    match genLoop (paramTypes m vars) with
    | .ok tuples =>
      let r := runLoopAll (fun os b => Goal.run g m (params ++ vars) s (args ++ os) b) tuples b
      (r.1, .node [r.2])
    | .exc e => (.exc e, .node [b])
    | .ub => (.ub, .node [b])
    | .fuel => (.fuel, .node [b])
  | .ex vars g, m, params, s, args, .node [b] =>
    match genLoop (paramTypes m vars) with
    | .ok tuples =>
      let r := runLoopAny (fun os b => Goal.run g m (params ++ vars) s (args ++ os) b) tuples b
      (r.1, .node [r.2])
    | .exc e => (.exc e, .node [b])
    | .ub => (.ub, .node [b])
    | .fuel => (.fuel, .node [b])
  | .other, _, _, _, _, b => (.exc .runtimeError, b)
  | _, _, _, _, _, b => (.ub, b)

def Goal.runAll : List Goal → ObjMap → List Obj → σ → List Obj → List Bufs → Res Bool × List Bufs
  | [], _, _, _, _, bs => (.ok true, bs)
  | g :: gs, m, params, s, args, b :: bs =>
    match Goal.run g m params s args b with
    | (.ok true, b') => let r := Goal.runAll gs m params s args bs; (r.1, b' :: r.2)
    | (r, b') => (r, b' :: bs)
  | _ :: _, _, _, _, _, [] => (.ub, [])

def Goal.runAny : List Goal → ObjMap → List Obj → σ → List Obj → List Bufs → Res Bool × List Bufs
  | [], _, _, _, _, bs => (.ok false, bs)
  | g :: gs, m, params, s, args, b :: bs =>
    match Goal.run g m params s args b with
    | (.ok false, b') => let r := Goal.runAny gs m params s args bs; (r.1, b' :: r.2)
    | (r, b') => (r, b' :: bs)
  | _ :: _, _, _, _, _, [] => (.ub, [])
end

/-- A call of a Formula object: on a State, or on a PartialState. -/
inductive FormulaCall [StrHash] where
  | onState (s : State) (args : List Obj)
  | onPartial (s : PartialState) (args : List Obj)

/-- The shared buffers of a Formula: `P_` and `PP_` (formula.cc:347-355) have separate ones. -/
structure FormulaBufs where
  onState : Bufs
  onPartial : Bufs

namespace Formula
variable [StrHash]

def bufs (F : Formula) : FormulaBufs := ⟨F.goal.bufs, F.goal.bufs⟩

/-- One call on a Formula or any copy of it: the answer and the buffers afterwards. The answer on a State is wrapped
in an optional to give both kinds of calls one type. -/
def call (F : Formula) (bs : FormulaBufs) : FormulaCall → Res (Option Bool) × FormulaBufs
  | .onState s args =>
    let r := F.goal.run F.omap F.params s args bs.onState
    (some <$> r.1, { bs with onState := r.2 })
  | .onPartial s args =>
    let r := F.goal.run F.omap F.params s args bs.onPartial
    (optionalOf r.1, { bs with onPartial := r.2 })

/-- A history of calls: the answers and the buffers afterwards. -/
def calls (F : Formula) : FormulaBufs → List FormulaCall → List (Res (Option Bool)) × FormulaBufs
  | bs, [] => ([], bs)
  | bs, c :: cs =>
    let r := F.call bs c
    let r' := F.calls r.2 cs
    (r.1 :: r'.1, r'.2)

/-- The answer the same call gives on a freshly made Formula. -/
def fresh (F : Formula) : FormulaCall → Res (Option Bool)
  | .onState s args => some <$> F.evalState s args
  | .onPartial s args => F.evalPartial s args

end Formula

end Symbolic
