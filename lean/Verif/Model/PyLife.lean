import Verif.Model.Prelude

/-!
# How long the C++ objects behind Python objects live

Python variables hold references to Python objects, each of which has a C++ object (python/symbolic.cc:84-684). C++ objects
refer to others by plain references and pointers, which keep nothing alive:

* `Planner` and every node refer to the Pddl (planner.cc:46, `const Pddl& pddl_`), whose symbols are read whenever a
  proposition with arguments is printed or an action is tried;
* an iterator over children refers to its parent node (planner.h:101);
* a search refers to its root node (breadth_first_search.h:52) and its iterator to the search (breadth_first_search.h:80).

What keeps objects alive is a count of references, which pybind11 and CPython maintain. pybind11 is not part of the
repository; what is used of it is:

* a property with a C++ getter, like `Planner.root` (573) and `Pddl.actions` (296), has policy `reference_internal`: the new
  object refers to a part of the old one and keeps it alive. The same holds for the elements of `py::make_iterator`;
* `py::keep_alive<0, 1>()` of `PlannerNode.__iter__` (544): the iterator keeps the node alive;
* constructors (533, 553, 561, 592) and functions that return by value (`__iter__` and `__next__` of the search, 594-607)
  make objects that keep nothing alive;
* an object is destroyed at once when its count falls to zero, and gives up what it kept alive.

Two Python objects for the same part are not told apart from one with two references (pybind11 gives the existing one). What
is read from live objects is not modelled here (C71, C85); whether a search or an iteration has another element is an
arbitrary answer. A name that is not bound and an object of the wrong class end the program with an exception. Addresses are
not used again. Lists that hold several nodes are not modelled: `x = next(y)[k]` keeps one of them.
-/

namespace Symbolic.PyLife

/-- The C++ object behind a Python object, with what it refers to. Numbers are positions in the list of all objects. -/
inductive Inst where
  | pddl
  /-- `Planner`; it contains the root node, which refers to the Pddl. -/
  | planner (pddl : Nat)
  /-- A part of a Pddl that was obtained from the object `owner` (the Pddl or another part). -/
  | part (owner pddl : Nat)
  /-- `PlannerNode` for the root in a planner. -/
  | root (planner pddl : Nat)
  /-- `PlannerNode` with a node of its own. -/
  | node (pddl : Nat)
  /-- The iterator over the children of the node in `home`, obtained from the Python object `parent`. -/
  | children (parent home pddl : Nat)
  /-- `PlannerNode` for the node in an iterator. -/
  | child (iter pddl : Nat)
  /-- `BreadthFirstSearch`: the object that contains the root node, the search that its iterator points to (if there is an
  iterator yet), and whether the queue of the iterator is empty. -/
  | search (home pddl : Nat) (begun : Option Nat) (dry : Bool)
  deriving DecidableEq

/-- The object that is kept alive. -/
def Inst.keeps : Inst → Option Nat
  | .part o _ => some o
  | .root p _ => some p
  | .children p _ _ => some p
  | .child i _ => some i
  | _ => none

/-- The object that contains the node of a `PlannerNode`, and the Pddl. -/
def Inst.asNode (self : Nat) : Inst → Option (Nat × Nat)
  | .root pl p => some (pl, p)
  | .node p => some (self, p)
  | .child it p => some (it, p)
  | _ => none

/-- An object with its count. -/
structure Cell where
  inst : Inst
  refs : Nat
  deriving DecidableEq

/-- Variables and objects. -/
structure St where
  vars : List (Nat × Nat)
  cells : List Cell
  deriving DecidableEq

/-- What a call of `next` of a search finds. -/
inductive Answer where
  /-- A plan; whether there is more in the queue. -/
  | plan (more : Bool)
  /-- `StopIteration`. -/
  | stop
  deriving DecidableEq

/-- Expressions over variables. -/
inductive Expr where
  /-- `y` -/
  | var (y : Nat)
  /-- `Pddl(...)` -/
  | pddl
  /-- `Planner(y)` -/
  | planner (y : Nat)
  /-- `y.actions[k]`, `y.state_index`, `y.parameters[k]`, ... -/
  | part (y : Nat)
  /-- `y.root` -/
  | root (y : Nat)
  /-- `PlannerNode(y)` -/
  | copy (y : Nat)
  /-- `iter(y)` for a node -/
  | children (y : Nat)
  /-- `next(y)` for an iterator over children; whether there is a child -/
  | child (y : Nat) (more : Bool)
  /-- `BreadthFirstSearch(y, ...)` -/
  | search (y : Nat)
  /-- `iter(y)` for a search -/
  | again (y : Nat)
  /-- `next(y)[k]` for a search -/
  | plan (y : Nat) (a : Answer)
  deriving DecidableEq

/-- Statements. -/
inductive Cmd where
  /-- `x = e`; on `StopIteration` the variable is left as it was -/
  | set (x : Nat) (e : Expr)
  /-- `del x` -/
  | del (x : Nat)
  /-- `y.state`, `repr(y)` for a node, a call of a function of a Pddl or a part -/
  | look (y : Nat)
  /-- `y.action`, `y.depth` -/
  | label (y : Nat)
  deriving DecidableEq

/-- The value of an expression. -/
inductive Out where
  | fresh (i : Inst)
  | old (i : Nat)
  | nothing
  deriving DecidableEq

/-- Whether an object was not destroyed. -/
def alive (cells : List Cell) (i : Nat) : Bool :=
  match cells[i]? with
  | some c => decide (c.refs ≠ 0)
  | none => false

/-- Reading an object. -/
def touch (cells : List Cell) (i : Nat) : Res Unit :=
  if alive cells i then .ok () else .ub

/-- Taking a reference. -/
def inc (cells : List Cell) (i : Nat) : List Cell :=
  cells.modify i fun c => { c with refs := c.refs + 1 }

/-- Giving up a reference; at zero the object is destroyed and gives up what it kept. The number bounds the chain. -/
def release : Nat → List Cell → Nat → List Cell
  | 0, cells, _ => cells
  | k + 1, cells, i =>
    match cells[i]? with
    | none => cells
    | some c =>
      let cells' := cells.set i { c with refs := c.refs - 1 }
      if c.refs = 1 then
        match c.inst.keeps with
        | some j => release k cells' j
        | none => cells'
      else cells'

/-- The object a variable refers to. -/
def lookup (vars : List (Nat × Nat)) (y : Nat) : Option Nat :=
  (vars.find? fun b => decide (b.1 = y)).map (·.2)

/-- The variables without `x`. -/
def unbind (vars : List (Nat × Nat)) (x : Nat) : List (Nat × Nat) :=
  vars.filter fun b => decide (b.1 ≠ x)

/-- Taking a reference to what a new object keeps. -/
def retain (kept : Option Nat) (cells : List Cell) : List Cell :=
  match kept with
  | some j => inc cells j
  | none => cells

/-- Giving up the old value of `x`. -/
def dropOld (old : Option Nat) (cells : List Cell) : List Cell :=
  match old with
  | some i => release (i + 1) cells i
  | none => cells

namespace St

/-- The object of a variable, with its position. -/
def get (s : St) (y : Nat) : Res (Nat × Inst) :=
  match lookup s.vars y with
  | none => .exc .runtimeError
  | some i =>
    match s.cells[i]? with
    | none => .ub
    | some c => .ok (i, c.inst)

/-- The node of a variable: the object that contains it, and the Pddl. -/
def getNode (s : St) (y : Nat) : Res (Nat × Nat × Nat) := do
  let (i, t) ← s.get y
  match t.asNode i with
  | some (home, p) => pure (i, home, p)
  | none => .exc .runtimeError

/-- The value of an expression, and the objects afterwards (only searches are changed). -/
def eval (s : St) : Expr → Res (Out × List Cell)
  | .var y => do
    let (i, _) ← s.get y
    pure (.old i, s.cells)
  | .pddl => .ok (.fresh .pddl, s.cells)
  | .planner y => do
    -- planner.h:67, 79-80: the constructor calls `initial_state()` and `ConsistentState()`
    let (i, t) ← s.get y
    match t with
    | .pddl => do
      touch s.cells i
      pure (.fresh (.planner i), s.cells)
    | _ => .exc .runtimeError
  | .part y => do
    let (i, t) ← s.get y
    match t with
    | .pddl => do
      touch s.cells i
      pure (.fresh (.part i i), s.cells)
    | .part _ p => do
      touch s.cells p
      pure (.fresh (.part i p), s.cells)
    | _ => .exc .runtimeError
  | .root y => do
    let (i, t) ← s.get y
    match t with
    | .planner p => do
      touch s.cells i
      pure (.fresh (.root i p), s.cells)
    | _ => .exc .runtimeError
  | .copy y => do
    let (_, home, p) ← s.getNode y
    touch s.cells home
    pure (.fresh (.node p), s.cells)
  | .children y => do
    -- planner.cc:90-117: `begin()` tries actions
    let (i, home, p) ← s.getNode y
    touch s.cells home
    touch s.cells p
    pure (.fresh (.children i home p), s.cells)
  | .child y more => do
    -- planner.cc:160-196
    let (i, t) ← s.get y
    match t with
    | .children _ home p => do
      touch s.cells i
      touch s.cells home
      touch s.cells p
      pure (if more then .fresh (.child i p) else .nothing, s.cells)
    | _ => .exc .runtimeError
  | .search y => do
    -- breadth_first_search.h:31-37: nothing is read
    let (_, home, p) ← s.getNode y
    pure (.fresh (.search home p none false), s.cells)
  | .again y => do
    -- python/symbolic.cc:594: a copy, whose iterator points to the same search as before
    let (i, t) ← s.get y
    match t with
    | .search home p begun dry => do
      touch s.cells i
      pure (.fresh (.search home p begun dry), s.cells)
    | _ => .exc .runtimeError
  | .plan y a => do
    -- python/symbolic.cc:595-608, breadth_first_search.h:39-42, 64-66, 88-142
    let (i, t) ← s.get y
    match t with
    | .search home p begun dry => do
      touch s.cells i
      match begun with
      | some j =>
        if dry then pure (.nothing, s.cells)
        else do
          touch s.cells j
          touch s.cells p
          found i home p j a
      | none => do
        touch s.cells home
        touch s.cells p
        found i home p i a
    | _ => .exc .runtimeError
where
  /-- The search after a call that found something or nothing. -/
  found (i home p j : Nat) (a : Answer) : Res (Out × List Cell) :=
    match a with
    | .plan more => .ok (.fresh (.node p), s.cells.modify i fun c => { c with inst := .search home p (some j) (!more) })
    | .stop => .ok (.nothing, s.cells.modify i fun c => { c with inst := .search home p (some j) true })

/-- `x = e` once the value of `e` is known: the new reference is taken before the old one is given up. -/
def assign (s : St) (x : Nat) : Out × List Cell → St
  | (.nothing, cells) => ⟨s.vars, cells⟩
  | (.old i, cells) => ⟨(x, i) :: unbind s.vars x, dropOld (lookup s.vars x) (inc cells i)⟩
  | (.fresh t, cells) =>
    ⟨(x, cells.length) :: unbind s.vars x, dropOld (lookup s.vars x) (retain t.keeps cells ++ [⟨t, 1⟩])⟩

/-- A statement. -/
def step (s : St) : Cmd → Res St
  | .set x e => do
    let r ← s.eval e
    pure (s.assign x r)
  | .del x =>
    match lookup s.vars x with
    | none => .exc .runtimeError
    | some i => .ok ⟨unbind s.vars x, release (i + 1) s.cells i⟩
  | .look y => do
    let (i, t) ← s.get y
    match t with
    | .pddl => do
      touch s.cells i
      pure s
    | .part _ p => do
      touch s.cells p
      pure s
    | _ => do
      let (_, home, p) ← s.getNode y
      touch s.cells home
      touch s.cells p
      pure s
  | .label y => do
    let (_, home, _) ← s.getNode y
    touch s.cells home
    pure s

/-- A program. -/
def run : St → List Cmd → Res St
  | s, [] => .ok s
  | s, c :: cs => do
    let s' ← s.step c
    run s' cs

end St
end Symbolic.PyLife
