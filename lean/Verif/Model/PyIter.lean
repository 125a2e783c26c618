import Verif.Model.Planner

/-!
# Iterating over a node and over a parameter generator in Python

`__iter__` of `PlannerNode` (python/symbolic.cc:539-544) and of `ParameterGenerator` (478-483) is `py::make_iterator` with its
default policy `reference_internal`. pybind11 is not part of the repository; what is used of it is transcribed here:

* the state of the Python iterator is the C++ iterator, its end and a flag `first_or_done`; `__next__` increments the iterator
  unless the flag is set, and raises `StopIteration` at the end;
* `*it` is passed to Python as a reference that keeps the iterator alive, not as a copy. The elements of a vector are passed
  the same way. `*it` is a part of the iterator for both classes (planner.h:102, combination_generator.h:236), so that the
  object that Python gets shows what is in the iterator when it is looked at;
* `PlannerNode(c)` (python/symbolic.cc:533) copies the node; attributes like `c.action` and `o.name` are new strings.

That combinations stay in the same place is used for generators: `combination_` is resized only if it is empty
(combination_generator.h:306-307, 337-338).
-/

namespace Symbolic

/-- A C++ iterator with its `++`, its test against `end()` and what is found at `*it`. -/
structure CppIter (σ V : Type) where
  step : σ → Res σ
  atEnd : σ → Bool
  deref : σ → Res V

/-- The iterator object in Python. -/
structure PyIt (σ : Type) where
  it : σ
  firstOrDone : Bool

/-- What a Python variable holds: the object from `next(it, None)`, that is a reference into the iterator or `None`, or a copy. -/
inductive PyVar (V : Type) where
  | ref
  | own (v : V)
  | none

/-- A variable with that value. -/
def PyVar.hold {V : Type} : Option V → PyVar V
  | some v => .own v
  | Option.none => .none

/-- What a program does; variables are numbered in the order of these commands. -/
inductive PyUse where
  /-- `x = next(it, None)` -/
  | next
  /-- `y = x and PlannerNode(x)`, or the attributes of `x` -/
  | copy (x : Nat)
  deriving DecidableEq

/-- The iterator and the variables. -/
structure PyFrame (σ V : Type) where
  py : PyIt σ
  vars : List (PyVar V)

namespace CppIter

variable {σ V : Type}

/-- `__next__`: whether there is an element. -/
def next (C : CppIter σ V) (p : PyIt σ) : Res (Bool × PyIt σ) := do
  let it ← (if p.firstOrDone then pure p.it else C.step p.it)
  if C.atEnd it then pure (false, ⟨it, true⟩) else pure (true, ⟨it, false⟩)

/-- Looking at a variable; `none` for `None`. A name that is not bound raises. -/
def read (C : CppIter σ V) (m : PyFrame σ V) (x : Nat) : Res (Option V) :=
  match m.vars[x]? with
  | some .ref => do
    let v ← C.deref m.py.it
    pure (some v)
  | some (.own v) => .ok (some v)
  | some .none => .ok none
  | none => .exc .outOfRange

/-- One command. -/
def use (C : CppIter σ V) (m : PyFrame σ V) : PyUse → Res (PyFrame σ V)
  | .next => do
    let r ← C.next m.py
    pure ⟨r.2, m.vars ++ [if r.1 then .ref else .none]⟩
  | .copy x => do
    let v ← C.read m x
    pure ⟨m.py, m.vars ++ [.hold v]⟩

def run (C : CppIter σ V) : PyFrame σ V → List PyUse → Res (PyFrame σ V)
  | m, [] => .ok m
  | m, u :: us => do
    let m' ← C.use m u
    run C m' us

/-- Looking at all variables, in their order. -/
def readAll (C : CppIter σ V) (m : PyFrame σ V) : Nat → Nat → Res (List (Option V))
  | _, 0 => .ok []
  | x, n + 1 => do
    let v ← C.read m x
    let vs ← readAll C m (x + 1) n
    pure (v :: vs)

/-- `l = list(it)` or `[c for c in it]` as the first use of an iterator: `next` up to `StopIteration`. The result is the
number of objects in `l`, all of which are references into the iterator, and the iterator. -/
def list (C : CppIter σ V) : Nat → PyIt σ → Res (Nat × PyIt σ)
  | 0, _ => .fuel
  | k + 1, p => do
    let r ← C.next p
    if r.1 then do
      let rest ← list C k r.2
      pure (rest.1 + 1, rest.2)
    else pure (0, r.2)

/-- `list(it)`, and looking at its objects afterwards. -/
def listed (C : CppIter σ V) (k : Nat) (p : PyIt σ) : Res (List (Option V)) := do
  let r ← C.list k p
  C.readAll ⟨r.2, List.replicate r.1 .ref⟩ 0 r.1

end CppIter

section
variable [StrHash]

namespace Pddl

/-- The iterator over the children of a node. Using a null node is undefined. -/
def kids (P : Pddl) (fuel : Nat) (parent : PNode) : CppIter NodeIt PNode where
  step := P.nodeNext fuel parent P.nodeBudget
  -- planner.cc:242-244
  atEnd it := it.acts.isEmpty
  deref it := match it.child with
    | some c => .ok c
    | none => .ub

/-- python/symbolic.cc:539-544: `iter(node)`. -/
def pyKids (P : Pddl) (fuel : Nat) (parent : PNode) : Res (PyIt NodeIt) := do
  let it ← P.nodeBegin fuel parent P.nodeBudget
  pure ⟨it, true⟩

end Pddl
end

namespace Comb

/-- The iterator over a parameter generator. -/
def cpp (options : List (List Obj)) : CppIter (Iter Obj) (List Obj) where
  step it := advance Obj.dflt options it 1
  atEnd it := decide (it.idx = (size options : Int))
  deref it := .ok it.comb

/-- python/symbolic.cc:478-483: `iter(generator)`. -/
def pyIter (options : List (List Obj)) : Res (PyIt (Iter Obj)) := do
  let it ← begin Obj.dflt options
  pure ⟨it, true⟩

end Comb
end Symbolic
