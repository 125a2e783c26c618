import Verif.Model.Action
import Verif.Model.NormalForm

/-!
# Axioms and derived predicates

Transcription of src/axiom.cc and src/derived_predicate.cc. Loops that need not terminate get a budget.
-/

namespace Symbolic

variable [StrHash]

/-- axiom.cc:73-103: `ExtractContextPredicate`. -/
def contextOf : Goal → Res (Bool × Name × List Obj)
  | .atom pred ts => .ok (true, pred, ts.map Term.obj)
  | .neg (.atom pred ts) => .ok (false, pred, ts.map Term.obj)
  | _ => .exc .domainError

/-- axiom.cc:34-45: `PrepareArguments`. -/
def prepareLoop (c : NfCtx) (pre : Goal) (params : List Obj) : List (List Obj) → Res (List (List Obj))
  | [] => .ok []
  | as :: rest => do
    let d ← pre.dnf c params as
    let r ← prepareLoop c pre params rest
    pure (match d with
      | none => r
      | some _ => as :: r)

/-- axiom.cc:54-59, 61-66: `try { ss << *dnf; } catch (...) { ss << "false"; }`. An empty optional is dereferenced, which
no handler catches. -/
def printed (r : Res (Option Dnf)) : Res Unit :=
  match r with
  | .ok (some _) => .ok ()
  | .ok none => .ub
  | .exc _ => .ok ()
  | .ub => .ub
  | .fuel => .fuel

/-- axiom.cc:50-68: `StringifyFormula`, without the string: the normal forms of the condition and of the effects for the
parameters themselves as arguments. -/
def stringify (c : NfCtx) (op : Op) : Res Unit := do
  printed (op.pre.dnf { c with vars := op.params } op.params op.params)
  printed (op.eff.dnf { c with vars := op.params } op.params op.params)

/-- axiom.cc:112-118: the constructor of `Axiom`; `axs` are the axioms in the Pddl's axiom map at that time.
The readable string `formula_` (axiom.cc:50-68) is not kept, but computing it may be undefined. -/
def Ax.make (c : NfCtx) (axs : List Ax) (op : Op) : Res Ax := do
  op.create c.omap axs
  let tuples ← genLoop (paramTypes c.omap op.params)
  let arguments ← prepareLoop c op.pre op.params tuples
  let ctx ← contextOf op.pre
  stringify c op
  pure ⟨op, ctx.1, ctx.2.1, ctx.2.2, arguments⟩

/-- `try { ... } catch (const std::exception&) { return false; }` around `Action::Apply`. -/
def catchExc (r : Res α) : Res (Option α) :=
  match r with
  | .ok a => .ok (some a)
  | .exc _ => .ok none
  | .ub => .ub
  | .fuel => .fuel

/-- The loop axiom.cc:122-133: context tested on the given state, implications applied to the copy. -/
def consistentLoop (m : ObjMap) (axs : List Ax) (fuel : Nat) (ax : Ax) (state : State) :
    List (List Obj) → State → Res Bool
  | [], _ => .ok true
  | as :: rest, test => do
    let b ← ax.op.isValid m state as
    if b then do
      let r ← catchExc (ax.op.apply m axs fuel as test)
      match r with
      | none => pure false
      | some (n, test') => if n ≠ 0 then pure false else consistentLoop m axs fuel ax state rest test'
    else consistentLoop m axs fuel ax state rest test

/-- axiom.cc:120-135: `IsConsistent(const State&)`. -/
def Ax.isConsistent (m : ObjMap) (axs : List Ax) (fuel : Nat) (ax : Ax) (state : State) : Res Bool :=
  consistentLoop m axs fuel ax state ax.arguments state

/-- axiom.cc:194-204: `Apply(State*)`. -/
def axApplyLoop (m : ObjMap) (axs : List Ax) (fuel : Nat) (ax : Ax) : List (List Obj) → State → Res (Bool × State)
  | [], s => .ok (false, s)
  | as :: rest, s => do
    let b ← ax.op.isValid m s as
    let r ← (if b then ax.op.apply m axs fuel as s else pure (0, s))
    let r' ← axApplyLoop m axs fuel ax rest r.2
    pure (decide (r.1 ≠ 0) || r'.1, r'.2)

def Ax.apply (m : ObjMap) (axs : List Ax) (fuel : Nat) (ax : Ax) (s : State) : Res (Bool × State) :=
  axApplyLoop m axs fuel ax ax.arguments s

/-- axiom.cc:137-159: `IsConsistent(PartialState*, bool*)`: verdict, change flag, state. -/
def consistentPLoop (m : ObjMap) (axs : List Ax) (fuel : Nat) (ax : Ax) :
    List (List Obj) → PartialState → Bool → Res (Bool × Bool × PartialState)
  | [], s, changed => .ok (true, changed, s)
  | as :: rest, s, changed => do
    let v ← optionalOf (ax.op.isValid m s as)
    match v with
    | some true => do
      let r ← catchExc (ax.op.apply m axs fuel as s)
      match r with
      | none => pure (false, changed, s)
      | some (n, s') =>
        if n > 1 then pure (false, changed, s')
        else consistentPLoop m axs fuel ax rest s' (changed || decide (n > 0))
    | _ => consistentPLoop m axs fuel ax rest s changed

/-- One pass over all axioms (axiom.cc:181-183). -/
def consistentPPass (m : ObjMap) (axs : List Ax) (fuel : Nat) :
    List Ax → PartialState → Bool → Res (Bool × Bool × PartialState)
  | [], s, changed => .ok (true, changed, s)
  | ax :: rest, s, changed => do
    let r ← consistentPLoop m axs fuel ax ax.arguments s changed
    if r.1 then consistentPPass m axs fuel rest r.2.2 r.2.1 else pure r

/-- axiom.cc:177-185: repeat until nothing changes. The first argument bounds the number of passes. -/
def consistentPFix (m : ObjMap) (axs : List Ax) (fuel : Nat) : Nat → PartialState → Res Bool
  | 0, _ => .fuel
  | k + 1, s => do
    let r ← consistentPPass m axs fuel axs s false
    if r.1 then (if r.2.1 then consistentPFix m axs fuel k r.2.2 else pure true) else pure false

/-- axiom.cc:212-223: `Apply(PartialState*)`. -/
def axApplyPLoop (m : ObjMap) (axs : List Ax) (fuel : Nat) (ax : Ax) :
    List (List Obj) → PartialState → Res (Nat × PartialState)
  | [], s => .ok (0, s)
  | as :: rest, s => do
    let v ← optionalOf (ax.op.isValid m s as)
    let r ← (if v = some true then ax.op.apply m axs fuel as s else pure (0, s))
    let r' ← axApplyPLoop m axs fuel ax rest r.2
    pure (max r.1 r'.1, r'.2)

def Ax.applyP (m : ObjMap) (axs : List Ax) (fuel : Nat) (ax : Ax) (s : PartialState) : Res (Nat × PartialState) :=
  axApplyPLoop m axs fuel ax ax.arguments s

/-! ## Derived predicates -/

/-- One pass of derived_predicate.cc:33-37. `|=` evaluates both sides. -/
def drvPass (m : ObjMap) (d : Drv) : List (List Obj) → State → Res (Bool × State)
  | [], s => .ok (false, s)
  | as :: rest, s => do
    let b ← d.body.eval m d.params s as
    let r := if b then s.insert (Atom.ofObjs d.head as) else s.erase (Atom.ofObjs d.head as)
    let r' ← drvPass m d rest r.2
    pure (r.1 || r'.1, r'.2)

/-- derived_predicate.cc:30-39: repeat until a pass changes nothing. -/
def drvFix (m : ObjMap) (d : Drv) (tuples : List (List Obj)) : Nat → State → Res (Bool × State)
  | 0, _ => .fuel
  | k + 1, s => do
    let r ← drvPass m d tuples s
    if r.1 then do
      let r' ← drvFix m d tuples k r.2
      pure (true, r'.2)
    else pure r

/-- derived_predicate.cc:27-41: `Apply(State*)`. -/
def Drv.apply (m : ObjMap) (fuel : Nat) (d : Drv) (s : State) : Res (Bool × State) := do
  let tuples ← genLoop (paramTypes m d.params)
  drvFix m d tuples fuel s

/-- derived_predicate.cc:50-52. -/
def drvsPass (m : ObjMap) (fuel : Nat) : List Drv → State → Res (Bool × State)
  | [], s => .ok (false, s)
  | d :: ds, s => do
    let r ← d.apply m fuel s
    let r' ← drvsPass m fuel ds r.2
    pure (r.1 || r'.1, r'.2)

/-- derived_predicate.cc:43-56: the static `Apply(predicates, State*)`. -/
def drvsFix (m : ObjMap) (fuel : Nat) (ds : List Drv) : Nat → State → Res (Bool × State)
  | 0, _ => .fuel
  | k + 1, s => do
    let r ← drvsPass m fuel ds s
    if r.1 then do
      let r' ← drvsFix m fuel ds k r.2
      pure (true, r'.2)
    else pure r

end Symbolic
