import Verif.Model.StateIndex

/-!
# Iterators over a StateIndex

Transcription of include/symbolic/state.h:272-273, 297-388 for the iterators of one index (`state_index_` is the same for
all, and the index outlives them). `difference_type` is a 64-bit integer, `idx_` a 32-bit one; a conversion to a
narrower type is modulo a power of two, an overflow of `difference_type` is undefined. The proposition that `*it` refers to
is stored in the iterator object, so that the objects are modelled as a memory of cells.
-/

namespace Symbolic


/-- A `difference_type`; undefined if it does not fit. -/
def ptrdiff (i : Int) : Res Int := if -2 ^ 63 ≤ i ∧ i < 2 ^ 63 then .ok i else .ub

/-- state.h:386-387: `idx_` and `prop_`, `none` if default constructed. -/
structure IxIt where
  idx : Int
  prop : Option Atom
  deriving DecidableEq

namespace IxIt

/-- state.h:272, 307-308. -/
def begin : IxIt := ⟨0, none⟩

/-- state.h:273: the size becomes an `int`. -/
def finish (I : StateIndex) : Res IxIt := do
  let n ← I.size
  pure ⟨Comb.toI32 n, none⟩

/-- state.h:357-360: `operator+=`. -/
def add (it : IxIt) (n : Int) : Res IxIt := do
  let i ← ptrdiff (it.idx + n)
  pure { it with idx := Comb.toI32 i }

/-- state.h:371: `operator-=`. -/
def sub (it : IxIt) (n : Int) : Res IxIt := do
  let m ← ptrdiff (-n)
  it.add m

/-- state.h:311. -/
def inc (it : IxIt) : Res IxIt := it.add 1

/-- state.h:336. -/
def dec (it : IxIt) : Res IxIt := it.add (-1)

/-- state.h:378-380: the difference of two `int`s. -/
def diff (a b : IxIt) : Res Int :=
  let d := a.idx - b.idx
  if -2 ^ 31 ≤ d ∧ d < 2 ^ 31 then .ok d else .ub

/-- state.h:329-331. -/
def eq (a b : IxIt) : Bool := decide (a.idx = b.idx)

/-- state.h:345-347. -/
def lt (a b : IxIt) : Bool := decide (a.idx < b.idx)

/-- state.h:349. -/
def gt (a b : IxIt) : Bool := lt b a

/-- state.h:351-353. -/
def le (a b : IxIt) : Bool := decide (a.idx ≤ b.idx)

/-- state.h:355. -/
def ge (a b : IxIt) : Bool := le b a

/-- The call `GetProposition(idx_)` of state.h:319-327. A negative `int` becomes a `size_t` modulo 2^64, and
`idx_proposition + 1` (state.cc:161) wraps for the largest one. -/
def fetch (I : StateIndex) (c : IndexCache) (it : IxIt) : Res (Atom × IndexCache) :=
  let k := (it.idx % 2 ^ 64).toNat
  if k + 1 = 2 ^ 64 then .ub
  else
    match I.getProposition c k with
    | (.ok a, c') => .ok (a, c')
    | (.exc e, _) => .exc e
    | (.ub, _) => .ub
    | (.fuel, _) => .fuel

/-- state.h:382: `it[n]`; the proposition is copied out of the temporary iterator. -/
def at_ (I : StateIndex) (c : IndexCache) (it : IxIt) (n : Int) : Res (Atom × IndexCache) := do
  let t ← it.add n
  t.fetch I c

/-- `for (auto it = first; it != last; ++it) visit(*it)`. -/
def forward (I : StateIndex) (last : IxIt) : Nat → IxIt → IndexCache → Res (List Atom)
  | 0, _, _ => .fuel
  | k + 1, it, c =>
    if it.eq last then .ok []
    else do
      let r ← it.fetch I c
      let it' ← it.inc
      let rest ← forward I last k it' r.2
      pure (r.1 :: rest)

/-- `for (auto it = last; it != first;) visit(*--it)`. -/
def backward (I : StateIndex) (first : IxIt) : Nat → IxIt → IndexCache → Res (List Atom)
  | 0, _, _ => .fuel
  | k + 1, it, c =>
    if it.eq first then .ok []
    else do
      let it' ← it.dec
      let r ← it'.fetch I c
      let rest ← backward I first k it' r.2
      pure (r.1 :: rest)

end IxIt

/-! ## Objects and references -/

/-- The iterator objects, in the order of their creation; `none` once destroyed. -/
structure IxMem where
  objs : List (Option IxIt)
  cache : IndexCache

/-- What a program does with iterators; numbers are objects. -/
inductive IxCmd where
  /-- `index.begin()` -/
  | begin
  /-- `index.end()` -/
  | finish
  /-- the copy constructor -/
  | copy (o : Nat)
  /-- `o = p` -/
  | assign (o p : Nat)
  | add (o : Nat) (n : Int)
  | sub (o : Nat) (n : Int)
  | inc (o : Nat)
  | dec (o : Nat)
  /-- `o++`, whose result is a new object -/
  | postInc (o : Nat)
  /-- `o--` -/
  | postDec (o : Nat)
  /-- `*o`, whose result is a reference to a part of `o` -/
  | deref (o : Nat)
  /-- the end of the lifetime of `o` -/
  | destroy (o : Nat)
  deriving DecidableEq

namespace IxMem

def empty : IxMem := ⟨[], .empty⟩

/-- Using an object that does not exist is undefined. -/
def get (m : IxMem) (o : Nat) : Res IxIt :=
  match m.objs[o]? with
  | some (some it) => .ok it
  | _ => .ub

def put (m : IxMem) (o : Nat) (it : IxIt) : IxMem := { m with objs := m.objs.set o (some it) }

def alloc (m : IxMem) (it : IxIt) : IxMem := { m with objs := m.objs ++ [some it] }

/-- One step. -/
def step (I : StateIndex) (m : IxMem) : IxCmd → Res IxMem
  | .begin => .ok (m.alloc .begin)
  | .finish => do
    let it ← IxIt.finish I
    pure (m.alloc it)
  | .copy o => do
    let it ← m.get o
    pure (m.alloc it)
  | .assign o p => do
    let _ ← m.get o
    let it ← m.get p
    pure (m.put o it)
  | .add o n => do
    let it ← m.get o
    let it' ← it.add n
    pure (m.put o it')
  | .sub o n => do
    let it ← m.get o
    let it' ← it.sub n
    pure (m.put o it')
  | .inc o => do
    let it ← m.get o
    let it' ← it.inc
    pure (m.put o it')
  | .dec o => do
    let it ← m.get o
    let it' ← it.dec
    pure (m.put o it')
  | .postInc o => do
    -- state.h:313-317
    let it ← m.get o
    let it' ← it.inc
    pure ((m.put o it').alloc it)
  | .postDec o => do
    -- state.h:338-342
    let it ← m.get o
    let it' ← it.dec
    pure ((m.put o it').alloc it)
  | .deref o => do
    -- state.h:319-327
    let it ← m.get o
    let r ← it.fetch I m.cache
    pure { m.put o { it with prop := some r.1 } with cache := r.2 }
  | .destroy o => do
    let _ ← m.get o
    pure { m with objs := m.objs.set o none }

def run (I : StateIndex) : IxMem → List IxCmd → Res IxMem
  | m, [] => .ok m
  | m, c :: cs => do
    let m' ← m.step I c
    m'.run I cs

/-- Reading through a reference that `*o` returned. -/
def read (m : IxMem) (o : Nat) : Res (Option Atom) := do
  let it ← m.get o
  pure it.prop

end IxMem
end Symbolic
