import Verif.Model.StringApi
import Verif.Model.StateIndex
import Verif.Model.Search

/-!
# Objects of the Python module

The functions of src/python/symbolic.cc:343-608 that belong to parts of a Pddl (actions, predicates, parameter generators,
the state index) and to a search. Parts look names up through a stored `const Pddl*`; here these pointers are explicit.

A Pddl lives at an address, a position in a list of cells; a destroyed Pddl is `none`; addresses are not reused. Binding a
reference to a null or dangling pointer is allowed, reading through it is undefined behaviour. `Pddl` has no user-written
copy or move (pddl.h:41-272): moving it moves its members, and the pointers inside them keep their values.
-/

namespace Symbolic

variable [StrHash]

/-! ## Pointers to a Pddl -/

/-- `const Pddl*`: null or an address. -/
abbrev PddlPtr := Option Nat

/-- A live Pddl, with the `pddl_` of its actions (action.cc:333, action.h:104): where its constructor ran. -/
structure PyCell where
  pddl : Pddl
  home : Nat

/-- The Pddls of a Python process. -/
structure PyMem where
  cells : List (Option PyCell)

/-- What a program does to its Pddls. -/
inductive PyOp where
  /-- `Pddl(domain, problem, apply_axioms)`; `t` is what VAL reads, `k` bounds the closure under the axioms. -/
  | init (t : Ptree) (applyAxioms : Bool) (k : Nat)
  /-- `pickle.loads(pickle.dumps(pddl))` -/
  | unpickle (t : Ptree) (k : Nat)
  /-- `pddl.add_object(name, type)` -/
  | addObject (a : Nat) (name type : Name)
  /-- `pddl.initial_state = strings` -/
  | setInitial (a : Nat) (strings : List Name)
  /-- The last reference to the Pddl is gone. -/
  | destroy (a : Nat)

namespace PyMem

def empty : PyMem := ⟨[]⟩

/-- Reading the Pddl a Python object or a pointer refers to. -/
def cell (m : PyMem) (a : Nat) : Res PyCell :=
  match m.cells[a]? with
  | some (some c) => .ok c
  | _ => .ub

/-- Reading through a `const Pddl*`. -/
def read (m : PyMem) : PddlPtr → Res Pddl
  | none => .ub
  | some a => do
    let c ← m.cell a
    pure c.pddl

/-- One operation. python/symbolic.cc:85-86: `init` constructs in place. 328-333: `unpickle` constructs a local Pddl, moves
it to the heap and destroys the local one. -/
def step (m : PyMem) : PyOp → Res PyMem
  | .init t b k => do
    let P ← Pddl.make t b k
    pure ⟨m.cells ++ [some ⟨P, m.cells.length⟩]⟩
  | .unpickle t k => do
    let P ← Pddl.pickled t k
    pure ⟨m.cells ++ [none, some ⟨P, m.cells.length⟩]⟩
  | .addObject a name type => do
    let c ← m.cell a
    let P ← c.pddl.addObject name type
    pure ⟨m.cells.set a (some { c with pddl := P })⟩
  | .setInitial a strings => do
    let c ← m.cell a
    let P ← c.pddl.setInitialStr strings
    pure ⟨m.cells.set a (some { c with pddl := P })⟩
  | .destroy a => .ok ⟨m.cells.set a none⟩

/-- A sequence of operations, none of which throws. -/
def run (m : PyMem) : List PyOp → Res PyMem
  | [] => .ok m
  | op :: ops => do
    let m' ← m.step op
    m'.run ops

/-! ## Parts of a Pddl -/

/-- python/symbolic.cc:44-52: `ParseObjects`, and object.cc:145-153: `Object::ParseArguments` on a list: every name is
looked up through the pointer (object.cc:38-56, 117-120). -/
def parseObjects (m : PyMem) (p : PddlPtr) : List Name → Res (List Obj)
  | [] => .ok []
  | n :: ns => do
    let P ← m.read p
    let o ← lookupObject P.symbols n
    let os ← m.parseObjects p ns
    pure (o :: os)

/-- proposition.h:83-86: `Proposition(pddl, str)`. -/
def parseProp (m : PyMem) (p : PddlPtr) (s : Name) : Res Atom := do
  let args ← m.parseObjects p (tokenizeArguments s)
  pure (Atom.ofObjs (parseHead s) args)

/-- python/symbolic.cc:35-42: `ParseState`. -/
def parseStateFrom (m : PyMem) (p : PddlPtr) (s : State) : List Name → Res State
  | [] => .ok s
  | str :: strs => do
    let a ← m.parseProp p str
    m.parseStateFrom p (s.insert a).2 strs

/-- The `i`-th element of a Python list. -/
def item (l : List α) (i : Nat) : Res α :=
  match l[i]? with
  | some x => .ok x
  | none => .exc .outOfRange

/-- python/symbolic.cc:355-359: `pddl.actions[i].to_string(args)`; the pointer is `Action::pddl_`. -/
def actionToString (m : PyMem) (a i : Nat) (args : List Name) : Res Name := do
  let c ← m.cell a
  let op ← item c.pddl.actions i
  let os ← m.parseObjects (some c.home) args
  pure (callString op.name (os.map Obj.name))

/-- `Action::pddl_` of a predicate: a Predicate is an Action (predicate.h:23) made by its default constructor
(predicate.cc:20-24), which leaves the pointer null (action.h:104). -/
def predicatePtr : PddlPtr := none

/-- python/symbolic.cc:387-392: `pddl.predicates[i].to_string(args)`. -/
def predicateToString (m : PyMem) (a i : Nat) (args : List Name) : Res Name := do
  let c ← m.cell a
  let p ← item c.pddl.tree.preds i
  let os ← m.parseObjects predicatePtr args
  pure (callString p.name (os.map Obj.name))

/-- `ParameterGenerator::pddl_` (parameter_generator.h:41): no constructor sets it (parameter_generator.cc:58-72). -/
def generatorPtr : PddlPtr := none

/-- python/symbolic.cc:484-489: `pddl.actions[i].parameter_generator.index(args)`. -/
def actionGenIndex (m : PyMem) (a i : Nat) (args : List Name) : Res Nat := do
  let c ← m.cell a
  let op ← item c.pddl.actions i
  let os ← m.parseObjects generatorPtr args
  Comb.find Obj.same (paramTypes c.pddl.omap op.params) os

/-- python/symbolic.cc:484-489: `pddl.predicates[i].parameter_generator.index(args)`. -/
def predicateGenIndex (m : PyMem) (a i : Nat) (args : List Name) : Res Nat := do
  let c ← m.cell a
  let p ← item c.pddl.tree.preds i
  let os ← m.parseObjects generatorPtr args
  Comb.find Obj.same (paramTypes c.pddl.omap p.params) os

/-- `StateIndex::pddl_`: that of the first predicate (state.cc:143). -/
def indexPtr : PddlPtr := predicatePtr

/-- python/symbolic.cc:498-502: `pddl.state_index.get_proposition_index(str)`. -/
def getPropositionIndex (m : PyMem) (a : Nat) (cache : IndexCache) (str : Name) : Res Nat × IndexCache :=
  match m.cell a with
  | .ok c =>
    match m.parseProp indexPtr str with
    | .ok p => c.pddl.stateIndex.getPropositionIndex cache p
    | .exc e => (.exc e, cache)
    | .ub => (.ub, cache)
    | .fuel => (.fuel, cache)
  | .exc e => (.exc e, cache)
  | .ub => (.ub, cache)
  | .fuel => (.fuel, cache)

/-- python/symbolic.cc:509-513: `pddl.state_index.get_indexed_state(strings)`. -/
def getIndexedState (m : PyMem) (a : Nat) (cache : IndexCache) (strings : List Name) : Res (List Bool) × IndexCache :=
  match m.cell a with
  | .ok c =>
    match m.parseStateFrom indexPtr State.empty strings with
    | .ok s => c.pddl.stateIndex.getIndexedState cache s
    | .exc e => (.exc e, cache)
    | .ub => (.ub, cache)
    | .fuel => (.fuel, cache)
  | .exc e => (.exc e, cache)
  | .ub => (.ub, cache)
  | .fuel => (.fuel, cache)

end PyMem

/-- python/symbolic.cc:493-497: `state_index.get_proposition(i)`. A negative `int` becomes a `size_t` modulo 2^64, and
`idx_proposition + 1` (state.cc:161) wraps for the largest one: then the group before the first is read. -/
def StateIndex.getPropositionPy (I : StateIndex) (cache : IndexCache) (i : Int) : Res Name × IndexCache :=
  match I.size with
  | .ok n =>
    let j := if i < 0 then i + n else i
    let k := if j < 0 then (j + 2 ^ 64).toNat else j.toNat
    if k + 1 = 2 ^ 64 then (.ub, cache)
    else
      match I.getProposition cache k with
      | (.ok a, c') => (.ok a.toString, c')
      | (.exc e, c') => (.exc e, c')
      | (.ub, c') => (.ub, c')
      | (.fuel, c') => (.fuel, c')
  | .exc e => (.exc e, cache)
  | .ub => (.ub, cache)
  | .fuel => (.fuel, cache)

/-! ## Breadth-first search -/

/-- python/symbolic.cc:54-64: the class `BreadthFirstSearch`, its iterator and its flag. -/
structure PyBfs (N : Type) where
  it : Bfs.It N
  initialized : Bool

namespace PyBfs

variable {N : Type}

/-- python/symbolic.cc:61-63: a new search. -/
def new : PyBfs N := ⟨⟨[], none⟩, false⟩

/-- python/symbolic.cc:595-608: `__next__`; `none` is `StopIteration`. `late` is the clock of the call. -/
def next (sp : Space N) (maxDepth : Nat) (late : Nat → Bool) (fuel : Nat) (root : N) (b : PyBfs N) :
    Res (Option (List N) × PyBfs N) := do
  let it ← (if b.initialized then Bfs.next sp maxDepth late fuel 0 b.it else Bfs.begin sp maxDepth late fuel root)
  if it.finished then pure (none, ⟨it, true⟩)
  else match it.cur with
    | none => .ub
    | some path => pure (some path, ⟨it, true⟩)

/-- `next(b)` so many times, each `StopIteration` included. `clock i` is the clock of the `i`-th call. -/
def calls (sp : Space N) (maxDepth : Nat) (clock : Nat → Nat → Bool) (fuel : Nat) (root : N) :
    Nat → Nat → PyBfs N → Res (List (Option (List N)) × PyBfs N)
  | 0, _, b => .ok ([], b)
  | n + 1, i, b => do
    let r ← next sp maxDepth (clock i) fuel root b
    let rs ← calls sp maxDepth clock fuel root n (i + 1) r.2
    pure (r.1 :: rs.1, rs.2)

/-- The loop of `for plan in iterator`, up to `StopIteration`. -/
def drain (sp : Space N) (maxDepth : Nat) (clock : Nat → Nat → Bool) (fuel : Nat) (root : N) :
    Nat → Nat → PyBfs N → Res (List (List N))
  | 0, _, _ => .fuel
  | steps + 1, i, b => do
    let r ← next sp maxDepth (clock i) fuel root b
    match r.1 with
    | none => pure []
    | some p => do
      let rest ← drain sp maxDepth clock fuel root steps (i + 1) r.2
      pure (p :: rest)

/-- `list(b)`: `__iter__` (python/symbolic.cc:594) returns a copy, so `b` itself is left as it was. -/
def list (sp : Space N) (maxDepth : Nat) (clock : Nat → Nat → Bool) (fuel : Nat) (root : N) (b : PyBfs N) :
    Res (List (List N) × PyBfs N) := do
  let l ← drain sp maxDepth clock fuel root (fuel + 1) 0 b
  pure (l, b)

end PyBfs
end Symbolic
