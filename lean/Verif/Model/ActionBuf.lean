import Verif.Model.Action

/-!
# Actions with their argument buffers

`Action::Apply` works with vectors that are allocated when the action is constructed: one per effect for the arguments
of its proposition (formula.cc:379-407) and one per effect and axiom for the arguments of the axiom it may
trigger (axiom.cc:246, 294-300). All copies of the action share them. A triggered axiom is applied to a *reference* to
such a vector (action.cc:153-160), so the vector may be overwritten while it is in use.

Here the buffers are explicit. A location names a buffer by the closure that owns it; the store maps locations to
their current contents; arguments are references. Conditions of conditional effects are evaluated without buffers:
they are formulas, and `C18_formula_history_independent` shows that their buffers do not matter.
-/

namespace Symbolic

/-- A buffer. `op` and `path` identify the effect: operator (axioms are numbered by their position) and position in its
effects; `ax` is the position of the triggered axiom, none for the arguments of the proposition itself.
The other components are fixed by these: sign, predicate, parameters in scope and arguments of the effect, parameters
and context arguments of the axiom. -/
structure Loc where
  op : Nat
  path : List Nat
  sign : Bool
  pred : Name
  params : List Obj
  eff : List Obj
  ax : Option (Nat × List Obj × List Obj)
  deriving DecidableEq

/-- What the buffer holds at construction (formula.cc:382, axiom.cc:246-274). -/
def Loc.init (l : Loc) : List Obj :=
  match l.ax with
  | none => l.eff
  | some (_, ps, cs) =>
    match axMatch l.params l.eff ps cs with
    | .ok (some mt) => mt.args
    | _ => []

/-- Which positions are assigned from which arguments (formula.cc:385-392, axiom.cc:276). -/
def Loc.idx (l : Loc) : List (Nat × Nat) :=
  match l.ax with
  | none => idxParams l.params l.eff
  | some (_, ps, cs) =>
    match axMatch l.params l.eff ps cs with
    | .ok (some mt) => mt.idx
    | _ => []

/-- Contents of all buffers. -/
abbrev Store := Loc → List Obj

/-- After construction. -/
def Store.init : Store := Loc.init

def Store.set (st : Store) (l : Loc) (v : List Obj) : Store := fun l' => if l' = l then v else st l'

/-- `const std::vector<Object>&`: a vector nobody else writes, or a buffer. -/
inductive Ref where
  | val (v : List Obj)
  | buf (l : Loc)

def Ref.read (st : Store) : Ref → List Obj
  | .val v => v
  | .buf l => st l

/-- Computations that read and write buffers. Buffers stay overwritten when an exception is thrown. -/
def BufM (α : Type) := Store → Res α × Store

namespace BufM

def ret (a : α) : BufM α := fun st => (.ok a, st)

def bind (x : BufM α) (f : α → BufM β) : BufM β := fun st =>
  match x st with
  | (.ok a, st') => f a st'
  | (.exc e, st') => (.exc e, st')
  | (.ub, st') => (.ub, st')
  | (.fuel, st') => (.fuel, st')

instance : Monad BufM where
  pure := ret
  bind := bind

def lift (r : Res α) : BufM α := fun st => (r, st)

def read (r : Ref) : BufM (List Obj) := fun st => (.ok (r.read st), st)

end BufM

/-- formula.cc:400-404, axiom.cc:295-299: assign the positions one after the other; source and target may be the same
vector. -/
def assignLoop (r : Ref) (l : Loc) : List (Nat × Nat) → BufM Unit
  | [], st => (.ok (), st)
  | (i, j) :: rest, st =>
    match Res.index (r.read st) j with
    | .ok a => if i < (st l).length then assignLoop r l rest (st.set l ((st l).set i a)) else (.ub, st)
    | .exc e => (.exc e, st)
    | .ub => (.ub, st)
    | .fuel => (.fuel, st)

variable {σ : Type} [StateLike σ]

/-- What happens after an effect changed the state: the effect (by its buffer), the arguments in scope. -/
abbrev FireB (σ : Type) := Loc → Ref → σ → BufM σ

/-- action.cc:78-165, 167-254: one add or delete effect. -/
def runSimple (m : ObjMap) (fire : FireB σ) (l : Loc) (r : Ref) (s : σ) : BufM (Nat × σ) := do
  assignLoop r l l.idx
  let os ← BufM.read (.buf l)
  match atomKind m l.pred with
  | .eq => do
    let a ← BufM.lift (Res.index os 0)
    let b ← BufM.lift (Res.index os 1)
    if a.same b = l.sign then pure (0, s) else BufM.lift (.exc .runtimeError)
  | .type => do
    let a ← BufM.lift (Res.index os 0)
    if a.isSubtype l.pred = l.sign then pure (0, s) else BufM.lift (.exc .runtimeError)
  | .plain => do
    let q := if l.sign then StateLike.insert s (Atom.ofObjs l.pred os) else StateLike.erase s (Atom.ofObjs l.pred os)
    if q.1 = 0 then pure q
    else do
      let s' ← fire l r q.2
      pure (q.1, s')

/-- The add (or delete) effects in order; `k` numbers them. -/
def runSimples (m : ObjMap) (fire : FireB σ) (op : Nat) (path : List Nat) (sign : Bool) (params : List Obj) (r : Ref) :
    Nat → List (Name × List Term) → σ → BufM (Nat × σ)
  | _, [], s => pure (0, s)
  | k, (pred, ts) :: rest, s => do
    let q ← runSimple m fire ⟨op, path ++ [if sign then 1 else 2, k], sign, pred, params, ts.map Term.obj, none⟩ r s
    let q' ← runSimples m fire op path sign params r (k + 1) rest q.2
    pure (max q.1 q'.1, q'.2)

/-- The loop over the arguments of a forall effect (action.cc:62-75). -/
def runLoop (f : List Obj → σ → BufM (Nat × σ)) : List (List Obj) → σ → BufM (Nat × σ)
  | [], s => pure (0, s)
  | os :: rest, s => do
    let q ← f os s
    let q' ← runLoop f rest q.2
    pure (max q.1 q'.1, q'.2)

mutual
/-- action.cc:280-313: the closure made by `CreateEffectsFunction`; all effects receive the same reference. -/
def Eff.run (m : ObjMap) (fire : FireB σ) (op : Nat) : Eff → List Nat → List Obj → Ref → σ → BufM (Nat × σ)
  | .mk fs adds dels cs, path, params, r, s => do
    let r1 ← FList.run m fire op fs path 0 params r s
    let r2 ← runSimples m fire op path true params r 0 adds r1.2
    let r3 ← runSimples m fire op path false params r 0 dels r2.2
    let r4 ← CList.run m fire op cs path 0 params r r3.2
    pure (max (max r1.1 r2.1) (max r3.1 r4.1), r4.2)

/-- action.cc:48-76: `forall_args` is a local copy of the arguments. -/
def FList.run (m : ObjMap) (fire : FireB σ) (op : Nat) : FList → List Nat → Nat → List Obj → Ref → σ → BufM (Nat × σ)
  | .nil, _, _, _, _, s => pure (0, s)
  | .cons vars e rest, path, k, params, r, s => do
    let tuples ← BufM.lift (genLoop (paramTypes m vars))
    let q ← runLoop (fun os s => do
      let args ← BufM.read r
      Eff.run m fire op e (path ++ [0, k]) (params ++ vars) (.val (args ++ os)) s) tuples s
    let q' ← FList.run m fire op rest path (k + 1) params r q.2
    pure (max q.1 q'.1, q'.2)

/-- action.cc:262-278. -/
def CList.run (m : ObjMap) (fire : FireB σ) (op : Nat) : CList → List Nat → Nat → List Obj → Ref → σ → BufM (Nat × σ)
  | .nil, _, _, _, _, s => pure (0, s)
  | .cons g e rest, path, k, params, r, s => do
    let args ← BufM.read r
    let b ← BufM.lift (StateLike.cond (σ := σ) (Goal.eval g m params s args))
    let q ← (if b then Eff.run m fire op e (path ++ [3, k]) params r s else pure (0, s))
    let q' ← CList.run m fire op rest path (k + 1) params r q.2
    pure (max q.1 q'.1, q'.2)
end

/-- action.cc:149-162 (238-251): apply the axioms whose context matches, to a reference to the buffer of this effect
and axiom; `k` numbers the axioms. -/
def runFire (run : Nat → Ax → Ref → σ → BufM (Nat × σ)) (l : Loc) (r : Ref) : Nat → List Ax → σ → BufM σ
  | _, [], s => pure s
  | k, ax :: rest, s =>
    if ax.pos = l.sign ∧ ax.pred = l.pred then do
      let mt ← BufM.lift (axMatch l.params l.eff ax.op.params ax.ctxArgs)
      match mt with
      | none => runFire run l r (k + 1) rest s
      | some mt => do
        let args ← BufM.read r
        let b ← BufM.lift (futureOk args mt.future)
        if b then do
          let l' : Loc := { l with ax := some (k, ax.op.params, ax.ctxArgs) }
          let q ← (do
            assignLoop r l' l'.idx
            run k ax (.buf l') s)
          runFire run l r (k + 1) rest q.2
        else runFire run l r (k + 1) rest s
    else runFire run l r (k + 1) rest s

/-- Firing with a bounded nesting depth. -/
def fireB (m : ObjMap) (axs : List Ax) : Nat → FireB σ
  | 0 => fun l r s => runFire (fun _ _ _ _ => BufM.lift .fuel) l r 0 axs s
  | n + 1 => fun l r s => runFire (fun k ax r s => ax.op.eff.run m (fireB m axs n) k [] ax.op.params r s) l r 0 axs s

/-- `Action::Apply(args, &state)`; `id` is the number of the operator. -/
def Op.run (m : ObjMap) (axs : List Ax) (fuel : Nat) (id : Nat) (op : Op) (args : List Obj) (s : σ) :
    BufM (Nat × σ) :=
  op.eff.run m (fireB m axs fuel) id [] op.params (.val args) s

/-- A call of `Action::Apply`. -/
structure ActionCall (σ : Type) where
  id : Nat
  op : Op
  args : List Obj
  state : σ

/-- The buffers after some calls. -/
def runCalls (m : ObjMap) (axs : List Ax) (fuel : Nat) : List (ActionCall σ) → Store → Store
  | [], st => st
  | c :: cs, st => runCalls m axs fuel cs (c.op.run m axs fuel c.id c.args c.state st).2

end Symbolic
