import Verif.Model.Axiom
import Verif.Model.Parse

/-!
# The Pddl class

Transcription of src/pddl.cc. Everything built by the constructor uses the object map made there; `AddObject` and
`RemoveObject` never update it. A `Pddl` keeps that map, the axioms, and the (mutable) parse tree.
`fuel` bounds the number of iterations of every loop that need not terminate and the nesting of axioms.
-/

namespace Symbolic

variable [StrHash]

/-- include/symbolic/pddl.h:252-272. -/
structure Pddl where
  /-- `analysis_` -/
  tree : Ptree
  /-- `constants_` -/
  constants : List Obj
  /-- `objects_` -/
  objects : List Obj
  /-- `object_map_` -/
  omap : ObjMap
  /-- `axioms_`; the axiom map (pddl.cc:194-203) lists those with a given sign and name, in this order -/
  axioms : List Ax
  /-- `actions_` -/
  actions : List Op
  /-- `initial_state_` -/
  initial : State

namespace Pddl

def ctx (P : Pddl) : NfCtx := ⟨P.objects, P.omap, []⟩

/-- The symbols searched by object.cc:38-56. -/
def symbols (P : Pddl) : List Obj := P.tree.constants ++ P.tree.objects

/-- `derived_predicates()` (pddl.cc:205-213). -/
def drvs (P : Pddl) : List Drv := P.tree.drvs

/-- action.cc:315-325: `GetSymbol`; the first operator (action or axiom) of that name. -/
def getOp (P : Pddl) (name : Name) : Res Op :=
  match P.tree.ops.find? (fun op => decide (op.name = name)) with
  | some op => .ok op
  | none => .exc .runtimeError

/-- action.cc:398-409: the type check. -/
def checkTypes : List Obj → List Obj → Res Unit
  | [], _ => .ok ()
  | _ :: _, [] => .ub
  | p :: ps, a :: as => if a.isSubtype p.typeName then checkTypes ps as else .exc .invalidArgument

/-- action.cc:381-412: `Action::Parse`. -/
def parseAction (P : Pddl) (call : Name) : Res (Op × List Obj) := do
  let op ← P.getOp (parseHead call)
  op.create P.omap P.axioms
  let args ← parseArguments P.symbols call
  if op.params.length ≠ args.length then .exc .invalidArgument
  else do
    checkTypes op.params args
    pure (op, args)

/-- `Action::to_string(args)` (action.cc:369-379). -/
def callOf (op : Op) (args : List Obj) : Name := callString op.name (args.map Obj.name)

/-- pddl.cc:231-237, 239-244: apply an action, then the derived predicates. -/
def applyOp (P : Pddl) (fuel : Nat) (op : Op) (args : List Obj) (s : State) : Res State := do
  let r ← op.apply P.omap P.axioms fuel args s
  let r' ← drvsFix P.omap fuel P.drvs fuel r.2
  pure r'.2

/-- pddl.cc:322-331. -/
def nextState (P : Pddl) (fuel : Nat) (s : State) (call : Name) : Res State := do
  let oa ← P.parseAction call
  P.applyOp fuel oa.1 oa.2 s

/-- pddl.cc:341-353. -/
def applyActions (P : Pddl) (fuel : Nat) : State → List Name → Res State
  | s, [] => .ok s
  | s, call :: calls => do
    let oa ← P.parseAction call
    let s' ← P.applyOp fuel oa.1 oa.2 s
    applyActions P fuel s' calls

/-- pddl.cc:355-357. -/
def derivedState (P : Pddl) (fuel : Nat) (s : State) : Res State := do
  let r ← drvsFix P.omap fuel P.drvs fuel s
  pure r.2

/-- pddl.cc:364-366. -/
def consistentPass (m : ObjMap) (axs : List Ax) (fuel : Nat) : List Ax → State → Res (Bool × State)
  | [], s => .ok (false, s)
  | ax :: rest, s => do
    let r ← ax.apply m axs fuel s
    let r' ← consistentPass m axs fuel rest r.2
    pure (r.1 || r'.1, r'.2)

/-- pddl.cc:359-369: `ConsistentState(const State&)`. -/
def consistentFix (m : ObjMap) (axs : List Ax) (fuel : Nat) : Nat → State → Res State
  | 0, _ => .fuel
  | k + 1, s => do
    let r ← consistentPass m axs fuel axs s
    if r.1 then consistentFix m axs fuel k r.2 else pure r.2

def consistentState (P : Pddl) (fuel : Nat) (s : State) : Res State :=
  consistentFix P.omap P.axioms fuel fuel s

/-- pddl.cc:379-391. -/
def consistentPassP (m : ObjMap) (axs : List Ax) (fuel : Nat) : List Ax → PartialState → Res (Bool × PartialState)
  | [], s => .ok (false, s)
  | ax :: rest, s => do
    let r ← ax.applyP m axs fuel s
    if r.1 = 2 then .exc .runtimeError
    else do
      let r' ← consistentPassP m axs fuel rest r.2
      pure (decide (r.1 > 0) || r'.1, r'.2)

/-- `kMaxIterations` (pddl.cc:372). -/
def kMaxIterations : Nat := 50

/-- pddl.cc:371-399: the loop; `i` counts passes and stops it, so no budget is needed. -/
def consistentFixP (m : ObjMap) (axs : List Ax) (fuel : Nat) (i : Nat) (s : PartialState) : Res PartialState := do
  let r ← consistentPassP m axs fuel axs s
  if h : i > kMaxIterations then .exc .runtimeError
  else if r.1 then consistentFixP m axs fuel (i + 1) r.2 else pure r.2
termination_by kMaxIterations + 1 - i
decreasing_by simp [kMaxIterations] at h ⊢; omega

def consistentStateP (P : Pddl) (fuel : Nat) (s : PartialState) : Res PartialState :=
  consistentFixP P.omap P.axioms fuel 0 s

/-- pddl.cc:401-410. -/
def isValidAction (P : Pddl) (s : State) (call : Name) : Res Bool := do
  let oa ← P.parseAction call
  oa.1.isValid P.omap s oa.2

/-- pddl.cc:418-423. -/
def validLoop (m : ObjMap) (axs : List Ax) (fuel : Nat) (s : State) : List Ax → Res Bool
  | [] => .ok true
  | ax :: rest => do
    let b ← ax.isConsistent m axs fuel s
    if b then validLoop m axs fuel s rest else pure false

def isValidState (P : Pddl) (fuel : Nat) (s : State) : Res Bool := validLoop P.omap P.axioms fuel s P.axioms

/-- pddl.cc:425-427. -/
def isValidStateP (P : Pddl) (fuel : Nat) (s : PartialState) : Res Bool :=
  consistentPFix P.omap P.axioms fuel fuel s

/-- pddl.cc:429-439. -/
def isValidTuple (P : Pddl) (fuel : Nat) (s : State) (call : Name) (next : State) : Res Bool := do
  let oa ← P.parseAction call
  let b ← oa.1.isValid P.omap s oa.2
  if b then do
    let s' ← P.applyOp fuel oa.1 oa.2 s
    pure (s'.beq next)
  else pure false

/-- pddl.h:179. -/
def isGoalSatisfied (P : Pddl) (s : State) : Res Bool := P.tree.goal.eval P.omap [] s []

/-- pddl.cc:456-469. -/
def validPlanFrom (P : Pddl) (fuel : Nat) : State → List Name → Res Bool
  | s, [] => P.isGoalSatisfied s
  | s, call :: calls => do
    let oa ← P.parseAction call
    let b ← oa.1.isValid P.omap s oa.2
    if b then do
      let s' ← P.applyOp fuel oa.1 oa.2 s
      validPlanFrom P fuel s' calls
    else pure false

def isValidPlan (P : Pddl) (fuel : Nat) (plan : List Name) : Res Bool := P.validPlanFrom fuel P.initial plan

/-- pddl.cc:475-477. -/
def filterValid (P : Pddl) (s : State) (op : Op) : List (List Obj) → Res (List (List Obj))
  | [] => .ok []
  | as :: rest => do
    let b ← op.isValid P.omap s as
    let r ← filterValid P s op rest
    pure (if b then as :: r else r)

/-- pddl.cc:471-479. -/
def listValidArguments (P : Pddl) (s : State) (op : Op) : Res (List (List Obj)) := do
  let _ ← paramGen P.omap op.params
  let tuples ← genLoop (paramTypes P.omap op.params)
  P.filterValid s op tuples

/-- pddl.cc:499-509. -/
def listLoop (P : Pddl) (s : State) : List Op → Res (List Name)
  | [] => .ok []
  | op :: ops => do
    let argss ← P.listValidArguments s op
    let r ← listLoop P s ops
    pure (argss.map (callOf op) ++ r)

def listValidActions (P : Pddl) (s : State) : Res (List Name) := P.listLoop s P.actions

/-! ## Construction -/

def makeAxioms (c : NfCtx) (axs : List Ax) : List Op → Res (List Ax)
  | [] => .ok []
  | op :: ops => do
    let ax ← Ax.make c axs op
    let r ← makeAxioms c axs ops
    pure (ax :: r)

def createOps (m : ObjMap) (axs : List Ax) : List Op → Res Unit
  | [] => .ok ()
  | op :: ops => do
    op.create m axs
    createOps m axs ops

def createPreds (m : ObjMap) : List PredDecl → Res Unit
  | [] => .ok ()
  | p :: ps => do
    let _ ← paramGen m p.params
    createPreds m ps

def createDrvs (m : ObjMap) : List Drv → Res Unit
  | [] => .ok ()
  | d :: ds => do
    let _ ← paramGen m d.params
    Goal.create d.body m
    createDrvs m ds

/-- pddl.cc:250-280: the constructor with a problem. `StateIndex(predicates_)` takes `predicates.front()`
(state.cc:143), so a domain without predicates is undefined behaviour. -/
def make (t : Ptree) (applyAxioms : Bool) (fuel : Nat) : Res Pddl := do
  let objects := t.constants ++ t.objects
  let m := ObjMap.create objects
  let c : NfCtx := ⟨objects, m, []⟩
  let axs0 ← makeAxioms c [] (t.ops.filter (·.isAxiom))
  createPreds m t.preds
  createDrvs m t.drvs
  if t.preds.isEmpty then .ub else do
  Goal.create t.goal m
  let axs ← makeAxioms c axs0 (t.ops.filter (·.isAxiom))
  let actions := t.ops.filter (!·.isAxiom)
  createOps m axs actions
  let init := State.ofList t.init
  let init ← (if applyAxioms then consistentFix m axs fuel fuel init else pure init)
  pure ⟨t, t.constants, objects, m, axs, actions, init⟩

/-! ## Adding and removing objects -/

/-- object.cc:24-36: the type of a symbol without type: the declared root `object` if some chain ends in it. -/
def defaultChain (types : List (List Name)) : List Name :=
  if types.any (fun c => decide (c.getLast? = some kDefaultType)) then [kDefaultType] else []

/-- pddl.cc:516-525: `AddObject`; a null type list is dereferenced. -/
def addObject (P : Pddl) (name type : Name) : Res Pddl :=
  match P.tree.types with
  | none => .ub
  | some types =>
    let chain := match types.find? (fun c => decide (c.head? = some type)) with
      | some c => c
      | none => defaultChain types
    let o : Obj := ⟨name, chain⟩
    .ok { P with tree := { P.tree with objects := P.tree.objects ++ [o] }, objects := P.objects ++ [o] }

end Pddl

end Symbolic
