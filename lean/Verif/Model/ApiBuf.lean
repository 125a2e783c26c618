import Verif.Model.PddlBuf
import Verif.Model.Planner

/-!
# The rest of the API with the argument buffers of actions

Axioms applied on their own (`ConsistentState`, `IsValidState`, both for `State` and `PartialState`), `IsValidTuple`, the
planner's nodes and the three searches over them, with the buffers of Model/ActionBuf.lean. Each definition is that of
Model/Axiom, Model/Pddl, Model/Planner or Model/Search with `Action::Apply` replaced by its buffered version; axioms are numbered by their
position, as in `runFire`. An action has separate buffers for `State` and `PartialState`; here both have the same names, which
makes no difference since a call uses only one kind and what earlier calls left does not matter (`C18_calls_history_independent`).
-/

namespace Symbolic

/-- axiom.cc:127-132, 147-157: `try`/`catch` around `Action::Apply`; the buffers stay as they were when the exception was thrown. -/
def BufM.catchExc (x : BufM α) : BufM (Option α) := fun st => (Symbolic.catchExc (x st).1, (x st).2)

variable [StrHash]

/-- axiom.cc:122-133. -/
def consistentLoopB (m : ObjMap) (axs : List Ax) (fuel id : Nat) (ax : Ax) (state : State) :
    List (List Obj) → State → BufM Bool
  | [], _ => pure true
  | as :: rest, test => do
    let b ← BufM.lift (ax.op.isValid m state as)
    if b then do
      let r ← BufM.catchExc (ax.op.run m axs fuel id as test)
      match r with
      | none => pure false
      | some (n, test') => if n ≠ 0 then pure false else consistentLoopB m axs fuel id ax state rest test'
    else consistentLoopB m axs fuel id ax state rest test

/-- axiom.cc:194-204. -/
def axApplyLoopB (m : ObjMap) (axs : List Ax) (fuel id : Nat) (ax : Ax) : List (List Obj) → State → BufM (Bool × State)
  | [], s => pure (false, s)
  | as :: rest, s => do
    let b ← BufM.lift (ax.op.isValid m s as)
    let r ← (if b then ax.op.run m axs fuel id as s else pure (0, s))
    let r' ← axApplyLoopB m axs fuel id ax rest r.2
    pure (decide (r.1 ≠ 0) || r'.1, r'.2)

/-- axiom.cc:137-159. -/
def consistentPLoopB (m : ObjMap) (axs : List Ax) (fuel id : Nat) (ax : Ax) :
    List (List Obj) → PartialState → Bool → BufM (Bool × Bool × PartialState)
  | [], s, changed => pure (true, changed, s)
  | as :: rest, s, changed => do
    let v ← BufM.lift (optionalOf (ax.op.isValid m s as))
    match v with
    | some true => do
      let r ← BufM.catchExc (ax.op.run m axs fuel id as s)
      match r with
      | none => pure (false, changed, s)
      | some (n, s') =>
        if n > 1 then pure (false, changed, s')
        else consistentPLoopB m axs fuel id ax rest s' (changed || decide (n > 0))
    | _ => consistentPLoopB m axs fuel id ax rest s changed

/-- axiom.cc:181-183; `k` numbers the axioms. -/
def consistentPPassB (m : ObjMap) (axs : List Ax) (fuel : Nat) :
    Nat → List Ax → PartialState → Bool → BufM (Bool × Bool × PartialState)
  | _, [], s, changed => pure (true, changed, s)
  | k, ax :: rest, s, changed => do
    let r ← consistentPLoopB m axs fuel k ax ax.arguments s changed
    if r.1 then consistentPPassB m axs fuel (k + 1) rest r.2.2 r.2.1 else pure r

/-- axiom.cc:177-185. -/
def consistentPFixB (m : ObjMap) (axs : List Ax) (fuel : Nat) : Nat → PartialState → BufM Bool
  | 0, _ => BufM.lift .fuel
  | k + 1, s => do
    let r ← consistentPPassB m axs fuel 0 axs s false
    if r.1 then (if r.2.1 then consistentPFixB m axs fuel k r.2.2 else pure true) else pure false

/-- axiom.cc:212-223. -/
def axApplyPLoopB (m : ObjMap) (axs : List Ax) (fuel id : Nat) (ax : Ax) :
    List (List Obj) → PartialState → BufM (Nat × PartialState)
  | [], s => pure (0, s)
  | as :: rest, s => do
    let v ← BufM.lift (optionalOf (ax.op.isValid m s as))
    let r ← (if v = some true then ax.op.run m axs fuel id as s else pure (0, s))
    let r' ← axApplyPLoopB m axs fuel id ax rest r.2
    pure (max r.1 r'.1, r'.2)

namespace Pddl

/-- pddl.cc:364-366. -/
def consistentPassB (m : ObjMap) (axs : List Ax) (fuel : Nat) : Nat → List Ax → State → BufM (Bool × State)
  | _, [], s => pure (false, s)
  | k, ax :: rest, s => do
    let r ← axApplyLoopB m axs fuel k ax ax.arguments s
    let r' ← consistentPassB m axs fuel (k + 1) rest r.2
    pure (r.1 || r'.1, r'.2)

/-- pddl.cc:359-369. -/
def consistentFixB (m : ObjMap) (axs : List Ax) (fuel : Nat) : Nat → State → BufM State
  | 0, _ => BufM.lift .fuel
  | k + 1, s => do
    let r ← consistentPassB m axs fuel 0 axs s
    if r.1 then consistentFixB m axs fuel k r.2 else pure r.2

def consistentStateB (P : Pddl) (fuel : Nat) (s : State) : BufM State := consistentFixB P.omap P.axioms fuel fuel s

/-- pddl.cc:379-391. -/
def consistentPassPB (m : ObjMap) (axs : List Ax) (fuel : Nat) : Nat → List Ax → PartialState → BufM (Bool × PartialState)
  | _, [], s => pure (false, s)
  | k, ax :: rest, s => do
    let r ← axApplyPLoopB m axs fuel k ax ax.arguments s
    if r.1 = 2 then BufM.lift (.exc .runtimeError)
    else do
      let r' ← consistentPassPB m axs fuel (k + 1) rest r.2
      pure (decide (r.1 > 0) || r'.1, r'.2)

/-- pddl.cc:371-399. -/
def consistentFixPB (m : ObjMap) (axs : List Ax) (fuel : Nat) (i : Nat) (s : PartialState) : BufM PartialState := do
  let r ← consistentPassPB m axs fuel 0 axs s
  if h : i > kMaxIterations then BufM.lift (.exc .runtimeError)
  else if r.1 then consistentFixPB m axs fuel (i + 1) r.2 else pure r.2
termination_by kMaxIterations + 1 - i
decreasing_by simp [kMaxIterations] at h ⊢; omega

def consistentStatePB (P : Pddl) (fuel : Nat) (s : PartialState) : BufM PartialState :=
  consistentFixPB P.omap P.axioms fuel 0 s

/-- pddl.cc:418-423. -/
def validLoopB (m : ObjMap) (axs : List Ax) (fuel : Nat) (s : State) : Nat → List Ax → BufM Bool
  | _, [] => pure true
  | k, ax :: rest => do
    let b ← consistentLoopB m axs fuel k ax s ax.arguments s
    if b then validLoopB m axs fuel s (k + 1) rest else pure false

def isValidStateB (P : Pddl) (fuel : Nat) (s : State) : BufM Bool := validLoopB P.omap P.axioms fuel s 0 P.axioms

/-- pddl.cc:425-427. -/
def isValidStatePB (P : Pddl) (fuel : Nat) (s : PartialState) : BufM Bool :=
  consistentPFixB P.omap P.axioms fuel fuel s

/-- pddl.cc:429-439. -/
def isValidTupleB (P : Pddl) (ids : Name → Nat) (fuel : Nat) (s : State) (call : Name) (next : State) : BufM Bool := do
  let oa ← BufM.lift (P.parseAction call)
  let b ← BufM.lift (oa.1.isValid P.omap s oa.2)
  if b then do
    let s' ← P.applyOpB ids fuel oa.1 oa.2 s
    pure (s'.beq next)
  else pure false

/-- planner.cc:168-180. -/
def tryChildB (P : Pddl) (ids : Name → Nat) (fuel : Nat) (parent : PNode) (it : NodeIt) : BufM (NodeIt × Bool) :=
  match it.acts with
  | [] => BufM.lift .ub
  | op :: _ => do
    let v ← BufM.lift (op.isValid P.omap parent.state it.param.comb)
    if v then do
      let s ← P.applyOpB ids fuel op it.param.comb parent.state
      let child := PNode.make parent it.child s (callOf op it.param.comb)
      pure ({ it with child := some child }, !(PNode.visited child.anc child.state))
    else pure (it, false)

/-- planner.cc:148-183. -/
def nodeNextB (P : Pddl) (ids : Name → Nat) (fuel : Nat) (parent : PNode) : Nat → NodeIt → BufM NodeIt
  | 0, _ => BufM.lift .fuel
  | k + 1, it =>
    match it.acts with
    | [] => pure it
    | op :: ops =>
      if it.param.idx = (Comb.size (P.gen op) : Int) then
        match ops with
        | [] => pure { it with acts := [] }
        | op' :: rest => do
          let b ← BufM.lift (Comb.begin Obj.dflt (P.gen op'))
          if b.idx = (Comb.size (P.gen op') : Int) then nodeNextB P ids fuel parent k ⟨op' :: rest, b, it.child⟩
          else do
            let r ← P.tryChildB ids fuel parent ⟨op' :: rest, b, it.child⟩
            if r.2 then pure r.1 else nodeNextB P ids fuel parent k r.1
      else do
        let q ← BufM.lift (Comb.advance Obj.dflt (P.gen op) it.param 1)
        if q.idx = (Comb.size (P.gen op) : Int) then nodeNextB P ids fuel parent k ⟨op :: ops, q, it.child⟩
        else do
          let r ← P.tryChildB ids fuel parent ⟨op :: ops, q, it.child⟩
          if r.2 then pure r.1 else nodeNextB P ids fuel parent k r.1

/-- planner.cc:79-107. -/
def nodeBeginB (P : Pddl) (ids : Name → Nat) (fuel : Nat) (parent : PNode) (k : Nat) : BufM NodeIt :=
  match P.actions with
  | [] => BufM.lift .ub
  | op :: ops => do
    let b ← BufM.lift (Comb.begin Obj.dflt (P.gen op))
    if b.idx = (Comb.size (P.gen op) : Int) then P.nodeNextB ids fuel parent k ⟨op :: ops, b, none⟩
    else do
      let r ← P.tryChildB ids fuel parent ⟨op :: ops, b, none⟩
      if r.2 then pure r.1 else P.nodeNextB ids fuel parent k r.1

/-- The rest of a range-for over a node's children. -/
def nodeLoopB (P : Pddl) (ids : Name → Nat) (fuel : Nat) (parent : PNode) (k : Nat) : Nat → NodeIt → BufM (List PNode)
  | 0, _ => BufM.lift .fuel
  | m + 1, it =>
    match it.acts with
    | [] => pure []
    | _ :: _ =>
      match it.child with
      | none => BufM.lift .ub
      | some c => do
        let it' ← P.nodeNextB ids fuel parent k it
        let rest ← nodeLoopB P ids fuel parent k m it'
        pure (c :: rest)

/-- `for (const Node& child : node)`. -/
def childrenB (P : Pddl) (ids : Name → Nat) (fuel : Nat) (parent : PNode) : BufM (List PNode) := do
  let it ← P.nodeBeginB ids fuel parent P.nodeBudget
  P.nodeLoopB ids fuel parent P.nodeBudget P.nodeBudget it

/-- planner.h:68, 79-80. -/
def plannerRootB (P : Pddl) (fuel : Nat) (s : State) : BufM PNode := do
  let s' ← P.consistentStateB fuel s
  pure (PNode.root s')

end Pddl

/-- The template argument `NodeT` of the searches, with nodes whose children are computed with buffers. -/
structure SpaceB (N : Type) where
  goal : N → Res Bool
  expand : N → BufM (List N)

variable {N : Type}

/-- breadth_first_search.h:83-141. -/
def Bfs.nextB (sp : SpaceB N) (maxDepth : Nat) (late : Nat → Bool) : Nat → Nat → Bfs.It N → BufM (Bfs.It N)
  | 0, _, _ => BufM.lift .fuel
  | fuel + 1, k, it =>
    match it.queue with
    | [] => pure ⟨[], none⟩
    | (node, ancestors) :: queue =>
      if late k then pure ⟨[], none⟩
      else do
        let g ← BufM.lift (sp.goal node)
        if g then pure ⟨queue, some (ancestors ++ [node])⟩
        else if (ancestors ++ [node]).length > maxDepth then
          Bfs.nextB sp maxDepth late fuel (k + 1) ⟨queue, some (ancestors ++ [node])⟩
        else do
          let children ← sp.expand node
          Bfs.nextB sp maxDepth late fuel (k + 1)
            ⟨queue ++ children.map (fun c => (c, ancestors ++ [node])), some (ancestors ++ [node])⟩

/-- The plans from an iterator on. -/
def Bfs.collectB (sp : SpaceB N) (maxDepth : Nat) (clock : Nat → Nat → Bool) (fuel : Nat) :
    Nat → Nat → Bfs.It N → BufM (List (List N))
  | 0, _, _ => BufM.lift .fuel
  | steps + 1, i, it =>
    if it.finished then pure []
    else match it.cur with
      | none => BufM.lift .ub
      | some path => do
        let it' ← Bfs.nextB sp maxDepth (clock i) fuel 0 it
        let rest ← Bfs.collectB sp maxDepth clock fuel steps (i + 1) it'
        pure (path :: rest)

/-- All plans visited by a range-for over the search. -/
def Bfs.runB (sp : SpaceB N) (maxDepth : Nat) (clock : Nat → Nat → Bool) (fuel : Nat) (root : N) : BufM (List (List N)) := do
  let it ← Bfs.nextB sp maxDepth (clock 0) fuel 0 (Bfs.start root)
  Bfs.collectB sp maxDepth clock fuel fuel 1 it

/-- depth_first_search.h:70-94. -/
def Dfs.nextB (sp : SpaceB N) (maxDepth : Nat) : Nat → Dfs.It N → BufM (Dfs.It N)
  | 0, _ => BufM.lift .fuel
  | fuel + 1, it =>
    match it.stack with
    | [] => pure it
    | (node, ancestors) :: stack => do
      let g ← BufM.lift (sp.goal node)
      if g then pure ⟨stack, ancestors ++ [node]⟩
      else if (ancestors ++ [node]).length > maxDepth then Dfs.nextB sp maxDepth fuel ⟨stack, ancestors ++ [node]⟩
      else do
        let children ← sp.expand node
        Dfs.nextB sp maxDepth fuel ⟨(children.map (fun c => (c, ancestors ++ [node]))).reverse ++ stack, ancestors ++ [node]⟩

def Dfs.collectB (sp : SpaceB N) (maxDepth fuel : Nat) : Nat → Dfs.It N → BufM (List (List N))
  | 0, _ => BufM.lift .fuel
  | steps + 1, it =>
    if it.finished then pure []
    else do
      let it' ← Dfs.nextB sp maxDepth fuel it
      let rest ← Dfs.collectB sp maxDepth fuel steps it'
      pure (it.cur :: rest)

def Dfs.runB (sp : SpaceB N) (maxDepth fuel : Nat) (root : N) : BufM (List (List N)) := do
  let it ← Dfs.nextB sp maxDepth fuel (Dfs.start root)
  Dfs.collectB sp maxDepth fuel fuel it

/-- a_star.h:84-108. -/
def Astar.nextB (sp : SpaceB N) (maxDepth : Nat) (pick : Nat → List (N × List N) → Nat) : Nat → Astar.It N → BufM (Astar.It N)
  | 0, _ => BufM.lift .fuel
  | fuel + 1, it =>
    if it.queue.isEmpty then pure it
    else match Astar.pop pick it.pops it.queue with
    | none => BufM.lift .ub
    | some ((node, ancestors), queue) => do
      let g ← BufM.lift (sp.goal node)
      if g then pure ⟨queue, ancestors ++ [node], it.pops + 1⟩
      else if (ancestors ++ [node]).length > maxDepth then
        Astar.nextB sp maxDepth pick fuel ⟨queue, ancestors ++ [node], it.pops + 1⟩
      else do
        let children ← sp.expand node
        Astar.nextB sp maxDepth pick fuel
          ⟨queue ++ children.map (fun c => (c, ancestors ++ [node])), ancestors ++ [node], it.pops + 1⟩

def Astar.collectB (sp : SpaceB N) (maxDepth : Nat) (pick : Nat → List (N × List N) → Nat) (fuel : Nat) :
    Nat → Astar.It N → BufM (List (List N))
  | 0, _ => BufM.lift .fuel
  | steps + 1, it =>
    if it.finished then pure []
    else do
      let it' ← Astar.nextB sp maxDepth pick fuel it
      let rest ← Astar.collectB sp maxDepth pick fuel steps it'
      pure (it.cur :: rest)

def Astar.runB (sp : SpaceB N) (maxDepth : Nat) (pick : Nat → List (N × List N) → Nat) (fuel : Nat) (root : N) :
    BufM (List (List N)) := do
  let it ← Astar.nextB sp maxDepth pick fuel (Astar.start root)
  Astar.collectB sp maxDepth pick fuel fuel it

namespace Pddl

/-- planner.cc:115-117, 79-107. -/
def spaceB (P : Pddl) (ids : Name → Nat) (fuel : Nat) : SpaceB PNode := ⟨fun n => P.isGoalSatisfied n.state, P.childrenB ids fuel⟩

/-- A planner with breadth-first search: the root, then all plans. -/
def bfsB (P : Pddl) (ids : Name → Nat) (fuel maxDepth : Nat) (clock : Nat → Nat → Bool) (s : State) : BufM (List (List PNode)) := do
  let root ← P.plannerRootB fuel s
  Bfs.runB (P.spaceB ids fuel) maxDepth clock fuel root

def dfsB (P : Pddl) (ids : Name → Nat) (fuel maxDepth : Nat) (s : State) : BufM (List (List PNode)) := do
  let root ← P.plannerRootB fuel s
  Dfs.runB (P.spaceB ids fuel) maxDepth fuel root

def astarB (P : Pddl) (ids : Name → Nat) (fuel maxDepth : Nat) (pick : Nat → List (PNode × List PNode) → Nat) (s : State) :
    BufM (List (List PNode)) := do
  let root ← P.plannerRootB fuel s
  Astar.runB (P.spaceB ids fuel) maxDepth pick fuel root

/-- The calls that apply actions or axioms. -/
inductive AnyCall where
  | next (s : State) (call : Name)
  | apply (s : State) (calls : List Name)
  | plan (plan : List Name)
  | tuple (s : State) (call : Name) (next : State)
  | consistent (s : State)
  | consistentP (s : PartialState)
  | valid (s : State)
  | validP (s : PartialState)
  | bfs (maxDepth : Nat) (clock : Nat → Nat → Bool) (s : State)
  | dfs (maxDepth : Nat) (s : State)
  | astar (maxDepth : Nat) (pick : Nat → List (PNode × List PNode) → Nat) (s : State)

/-- What such a call returns. -/
inductive Answer where
  | state (s : State)
  | partialState (s : PartialState)
  | bool (b : Bool)
  | plans (l : List (List PNode))

/-- A call, with buffers. -/
def answerB (P : Pddl) (ids : Name → Nat) (fuel : Nat) : AnyCall → BufM Answer
  | .next s call => do let r ← P.nextStateB ids fuel s call; pure (.state r)
  | .apply s calls => do let r ← P.applyActionsB ids fuel s calls; pure (.state r)
  | .plan plan => do let r ← P.isValidPlanB ids fuel plan; pure (.bool r)
  | .tuple s call next => do let r ← P.isValidTupleB ids fuel s call next; pure (.bool r)
  | .consistent s => do let r ← P.consistentStateB fuel s; pure (.state r)
  | .consistentP s => do let r ← P.consistentStatePB fuel s; pure (.partialState r)
  | .valid s => do let r ← P.isValidStateB fuel s; pure (.bool r)
  | .validP s => do let r ← P.isValidStatePB fuel s; pure (.bool r)
  | .bfs d clock s => do let r ← P.bfsB ids fuel d clock s; pure (.plans r)
  | .dfs d s => do let r ← P.dfsB ids fuel d s; pure (.plans r)
  | .astar d pick s => do let r ← P.astarB ids fuel d pick s; pure (.plans r)

/-- The buffers after some calls, whether they returned or threw. -/
def runAny (P : Pddl) (ids : Name → Nat) (fuel : Nat) : List AnyCall → Store → Store
  | [], st => st
  | c :: cs, st => runAny P ids fuel cs (P.answerB ids fuel c st).2

end Pddl
end Symbolic
