import Verif.Model.Formula

/-!
# Actions: applying effects

Transcription of src/action.cc:48-313 and of `Axiom::CreateApplicationFunction` (src/axiom.cc:236-302).

Argument lists are passed by value. In the code an axiom fired by an effect receives a reference to a buffer owned
by that effect (action.cc:153-160, axiom.cc:294-300), which is overwritten when the same effect
fires again further down the recursion; `Model/ActionBuf.lean` keeps the buffers.
-/

namespace Symbolic

/-- An axiom (include/symbolic/axiom.h): operator, signed context proposition, argument lists that were kept at
construction. -/
structure Ax where
  op : Op
  /-- `context().is_pos()` -/
  pos : Bool
  /-- `context().name()` -/
  pred : Name
  /-- `context().arguments()` -/
  ctxArgs : List Obj
  /-- `arguments_` -/
  arguments : List (List Obj)

/-- First index of a parameter equal to `o` (the loops axiom.cc:252-254, 260-262). -/
def firstIdx (o : Obj) : List Obj → Option Nat
  | [] => none
  | p :: ps => if p.same o then some 0 else (firstIdx o ps).map (· + 1)

/-- What `CreateApplicationFunction` captures (axiom.cc:281-283). -/
structure AxMatch where
  /-- `axiom_args` -/
  args : List Obj
  /-- `idx_params`: (axiom parameter, action parameter) -/
  idx : List (Nat × Nat)
  /-- `future_action_args` -/
  future : List (Nat × Obj)

/-- The loop axiom.cc:248-278 over the arguments of the effect and of the axiom's context. `none` is
`return {}`. With fewer context arguments than effect arguments `axiom_prop_params[idx]` is out of bounds. -/
def axMatchLoop (actionParams axiomParams : List Obj) :
    List Obj → List Obj → AxMatch → Res (Option AxMatch)
  | [], _, acc => .ok (some acc)
  | _ :: _, [], _ => .ub
  | p :: ps, q :: qs, acc =>
    match firstIdx q axiomParams, firstIdx p actionParams with
    | none, none => if q.same p then axMatchLoop actionParams axiomParams ps qs acc else .ok none
    | none, some j =>
      axMatchLoop actionParams axiomParams ps qs { acc with future := acc.future ++ [(j, q)] }
    | some i, none =>
      axMatchLoop actionParams axiomParams ps qs { acc with args := acc.args.set i p }
    | some i, some j =>
      axMatchLoop actionParams axiomParams ps qs { acc with idx := acc.idx ++ [(i, j)] }

/-- axiom.cc:236-279. -/
def axMatch (actionParams effParams axiomParams ctxArgs : List Obj) : Res (Option AxMatch) :=
  axMatchLoop actionParams axiomParams effParams ctxArgs ⟨axiomParams, [], []⟩

/-- axiom.cc:287-291: all expected arguments present? -/
def futureOk (args : List Obj) : List (Nat × Obj) → Res Bool
  | [] => .ok true
  | (j, o) :: rest => do
    let a ← Res.index args j
    if a.same o then futureOk args rest else pure false

/-- axiom.cc:284-301: the application function itself; `none` is `nullptr`. -/
def AxMatch.apply (mt : AxMatch) (args : List Obj) : Res (Option (List Obj)) := do
  let ok ← futureOk args mt.future
  if ok then do
    let r ← applyLoop args mt.idx mt.args
    pure (some r)
  else pure none

variable {σ : Type} [StateLike σ]

/-- What happens after an effect on a plain atom changed the state: sign, predicate, parameters in scope,
parameters of the effect, arguments in scope. -/
abbrev Fire (σ : Type) := Bool → Name → List Obj → List Obj → List Obj → σ → Res σ

/-- action.cc:78-165 (`sign = true`), 167-254 (`sign = false`): one add or delete effect. -/
def applySimple (m : ObjMap) (fire : Fire σ) (sign : Bool) (pred : Name) (ts : List Term) (params args : List Obj)
    (s : σ) : Res (Nat × σ) := do
  let os ← applyFn params (ts.map Term.obj) args
  match atomKind m pred with
  | .eq => do
    let a ← Res.index os 0
    let b ← Res.index os 1
    if a.same b = sign then pure (0, s) else .exc .runtimeError
  | .type => do
    let a ← Res.index os 0
    if a.isSubtype pred = sign then pure (0, s) else .exc .runtimeError
  | .plain => do
    let r := if sign then StateLike.insert s (Atom.ofObjs pred os) else StateLike.erase s (Atom.ofObjs pred os)
    if r.1 = 0 then pure r
    else do
      let s' ← fire sign pred params (ts.map Term.obj) args r.2
      pure (r.1, s')

/-- The add (or delete) effects in order, with the maximum of the change codes (action.cc:307-311). -/
def applySimples (m : ObjMap) (fire : Fire σ) (sign : Bool) (params args : List Obj) :
    List (Name × List Term) → σ → Res (Nat × σ)
  | [], s => .ok (0, s)
  | (pred, ts) :: rest, s => do
    let r ← applySimple m fire sign pred ts params args s
    let r' ← applySimples m fire sign params args rest r.2
    pure (max r.1 r'.1, r'.2)

/-- The loop over the arguments of a forall effect (action.cc:62-75). -/
def loopEff (f : List Obj → σ → Res (Nat × σ)) : List (List Obj) → σ → Res (Nat × σ)
  | [], s => .ok (0, s)
  | os :: rest, s => do
    let r ← f os s
    let r' ← loopEff f rest r.2
    pure (max r.1 r'.1, r'.2)

mutual
/-- action.cc:280-313: the closure made by `CreateEffectsFunction`. -/
def Eff.apply (m : ObjMap) (fire : Fire σ) : Eff → List Obj → List Obj → σ → Res (Nat × σ)
  | .mk fs adds dels cs, params, args, s => do
    let r1 ← FList.apply m fire fs params args s
    let r2 ← applySimples m fire true params args adds r1.2
    let r3 ← applySimples m fire false params args dels r2.2
    let r4 ← CList.apply m fire cs params args r3.2
    pure (max (max r1.1 r2.1) (max r3.1 r4.1), r4.2)

/-- action.cc:48-76. -/
def FList.apply (m : ObjMap) (fire : Fire σ) : FList → List Obj → List Obj → σ → Res (Nat × σ)
  | .nil, _, _, s => .ok (0, s)
  | .cons vars e rest, params, args, s => do
    let tuples ← genLoop (paramTypes m vars)
    let r ← loopEff (fun os s => Eff.apply m fire e (params ++ vars) (args ++ os) s) tuples s
    let r' ← FList.apply m fire rest params args r.2
    pure (max r.1 r'.1, r'.2)

/-- action.cc:262-278. -/
def CList.apply (m : ObjMap) (fire : Fire σ) : CList → List Obj → List Obj → σ → Res (Nat × σ)
  | .nil, _, _, s => .ok (0, s)
  | .cons g e rest, params, args, s => do
    let b ← StateLike.cond (σ := σ) (Goal.eval g m params s args)
    let r ← (if b then Eff.apply m fire e params args s else pure (0, s))
    let r' ← CList.apply m fire rest params args r.2
    pure (max r.1 r'.1, r'.2)
end

/-- action.cc:121-137, 149-162 (210-226, 238-251): fire the axioms whose context has this sign and predicate. -/
def fireLoop (run : Ax → List Obj → σ → Res (Nat × σ)) (sign : Bool) (pred : Name)
    (params effParams args : List Obj) : List Ax → σ → Res σ
  | [], s => .ok s
  | ax :: rest, s =>
    if ax.pos = sign ∧ ax.pred = pred then do
      let mt ← axMatch params effParams ax.op.params ax.ctxArgs
      match mt with
      | none => fireLoop run sign pred params effParams args rest s
      | some mt => do
        let as ← mt.apply args
        match as with
        | none => fireLoop run sign pred params effParams args rest s
        | some as => do
          let r ← run ax as s
          fireLoop run sign pred params effParams args rest r.2
    else fireLoop run sign pred params effParams args rest s

/-- Firing with a bounded nesting depth of `axiom.Action::Apply` calls. -/
def fireN (m : ObjMap) (axs : List Ax) : Nat → Fire σ
  | 0 => fun sign pred params effParams args s =>
    fireLoop (fun _ _ _ => .fuel) sign pred params effParams args axs s
  | n + 1 => fun sign pred params effParams args s =>
    fireLoop (fun ax as s => ax.op.eff.apply m (fireN m axs n) ax.op.params as s)
      sign pred params effParams args axs s

/-- `Action::Apply(args, &state)` (action.h:56-69): change code and new state. -/
def Op.apply (m : ObjMap) (axs : List Ax) (fuel : Nat) (op : Op) (args : List Obj) (s : σ) :
    Res (Nat × σ) :=
  op.eff.apply m (fireN m axs fuel) op.params args s

/-- `Action::IsValid(state, args)` (action.h:45-52). -/
def Op.isValid (m : ObjMap) (op : Op) (s : σ) (args : List Obj) : Res Bool := op.pre.eval m op.params s args

/-! ## Construction -/

/-- The closures prepared for one effect (action.cc:125-137): only an arity mismatch is observable. -/
def createSimple (m : ObjMap) (axs : List Ax) (sign : Bool) (params : List Obj) :
    List (Name × List Term) → Res Unit
  | [] => .ok ()
  | (pred, ts) :: rest => do
    match atomKind m pred with
    | .plain => loop pred (ts.map Term.obj) axs
    | _ => pure ()
    createSimple m axs sign params rest
where
  loop (pred : Name) (effParams : List Obj) : List Ax → Res Unit
    | [] => .ok ()
    | ax :: rest => do
      if ax.pos = sign ∧ ax.pred = pred then do
        let _ ← axMatch params effParams ax.op.params ax.ctxArgs
        pure ()
      loop pred effParams rest

mutual
/-- action.cc:280-303: construction of the effects function. -/
def Eff.create (m : ObjMap) (axs : List Ax) : Eff → List Obj → Res Unit
  | .mk fs adds dels cs, params => do
    FList.create m axs fs params
    createSimple m axs true params adds
    createSimple m axs false params dels
    CList.create m axs cs params

def FList.create (m : ObjMap) (axs : List Ax) : FList → List Obj → Res Unit
  | .nil, _ => .ok ()
  | .cons vars e rest, params => do
    Eff.create m axs e (params ++ vars)
    let _ ← paramGen m vars
    FList.create m axs rest params

def CList.create (m : ObjMap) (axs : List Ax) : CList → List Obj → Res Unit
  | .nil, _ => .ok ()
  | .cons g e rest, params => do
    Goal.create g m
    Eff.create m axs e params
    CList.create m axs rest params
end

/-- action.cc:331-340: the constructor of `Action`. -/
def Op.create (m : ObjMap) (axs : List Ax) (op : Op) : Res Unit := do
  let _ ← paramGen m op.params
  Goal.create op.pre m
  Eff.create m axs op.eff op.params

end Symbolic
