import Verif.Model.Heap

/-!
# References to the objects of a Pddl

`objects()` gives a reference to the vector `objects_` (pddl.h:231), in Python the list `pddl.objects` of references to its
elements (python/symbolic.cc:295; the policy of a property with a getter is `reference_internal`, also for the elements of a
vector). `AddObject` and `RemoveObject` (pddl.cc:516-543) change the vector in place.

The elements are in a buffer with a capacity. `emplace_back` (pddl.cc:524) moves them to a new buffer when the capacity is
used up, and the old buffer is freed; the new capacity is up to the library, a parameter here. `erase` (pddl.cc:531) moves
every later element one position to the front; the last one is destroyed. Reading a freed buffer or a destroyed element is
undefined behaviour. Buffers are numbered, addresses are not reused.
-/

namespace Symbolic

/-- A Pddl whose `objects_` has a buffer. -/
structure ObjVec where
  heap : PddlHeap
  /-- the number of the buffer -/
  buf : Nat
  /-- `objects_.capacity()` -/
  cap : Nat

/-- `const Object&` to an element of `objects_`. -/
structure ObjRef where
  buf : Nat
  idx : Nat
  deriving DecidableEq

namespace ObjVec

/-- pddl.cc:129-143, 256: after construction; the capacity is up to the library. -/
def make (t : Ptree) (cap : Nat) : ObjVec := ⟨PddlHeap.make t, 0, cap⟩

/-- pddl.cc:516-543: `AddObject` and `RemoveObject`. -/
def step (grow : Nat → Nat) (v : ObjVec) : PddlHeap.Call → Res ObjVec
  | .add name type => do
    let h ← v.heap.addObject name type
    if v.heap.objects.length < v.cap then pure { v with heap := h }
    else pure ⟨h, v.buf + 1, grow v.cap⟩
  | .remove name => do
    let h ← v.heap.removeObject name
    pure { v with heap := h }

/-- A history of calls. -/
def run (grow : Nat → Nat) : ObjVec → List PddlHeap.Call → Res ObjVec
  | v, [] => .ok v
  | v, c :: cs => do
    let v' ← v.step grow c
    run grow v' cs

/-- `const Object& x = pddl.objects()[k];` in Python `x = pddl.objects[k]`. -/
def ref (v : ObjVec) (k : Nat) : Res ObjRef :=
  if k < v.heap.objects.length then .ok ⟨v.buf, k⟩ else .ub

/-- `const Object x = r;`: the symbol of the copy. -/
def copy (v : ObjVec) (r : ObjRef) : Res Nat :=
  if r.buf = v.buf then Res.index v.heap.objects r.idx else .ub

/-- `r.name()`, `r.type()`: what is read through the reference. -/
def read (v : ObjVec) (r : ObjRef) : Res Obj := do
  let a ← v.copy r
  v.heap.deref a

end ObjVec
end Symbolic
