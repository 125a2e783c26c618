import Verif.Model.Object

/-!
# Copies of parameter generators

A `ParameterGenerator` owns a vector of option lists, and its base class points to the elements of that vector
(parameter_generator.cc:44-91, combination_generator.h:201). `Model/Object.lean` takes a generator for its option lists; here
the vectors and pointers are explicit, for copies, moves, assignments and destruction.

The elements of a vector live in a buffer, a position in a list; a freed buffer is `none`; addresses are not reused. Moving a
vector hands over its buffer and leaves the source without one. Assigning to a vector gives up its old buffer (copy assignment
may write the old buffer instead, then pointers into it are not dangling but see other elements). Reading a freed buffer is
undefined behaviour.
-/

namespace Symbolic

/-- parameter_generator.h:21-45 and combination_generator.h:201-203. -/
structure ParamGen where
  /-- the buffer of `param_types_`; an empty vector may have none -/
  types : Option Nat
  /-- `options_`: buffer and position -/
  options : List (Nat × Nat)
  /-- `size_` -/
  size : Nat

/-- All buffers and generators; a destroyed generator is `none`. -/
structure GenMem where
  bufs : List (Option (List (List Obj)))
  gens : List (Option ParamGen)

/-- What a program does to generators; a new one gets the next number. -/
inductive GenOp where
  /-- `ParameterGenerator(pddl, params)` with these option lists -/
  | make (v : List (List Obj))
  /-- `ParameterGenerator(const ParameterGenerator&)` -/
  | copy (g : Nat)
  /-- `ParameterGenerator(ParameterGenerator&&)` -/
  | move (g : Nat)
  /-- `operator=(const ParameterGenerator&)` -/
  | assign (dst src : Nat)
  /-- `operator=(ParameterGenerator&&)` -/
  | moveAssign (dst src : Nat)
  | destroy (g : Nat)

namespace GenMem

def empty : GenMem := ⟨[], []⟩

/-- The generator of that number, if it exists. -/
def gen (m : GenMem) (g : Nat) : Res ParamGen :=
  match m.gens[g]? with
  | some (some x) => .ok x
  | _ => .ub

/-- Reading a buffer. -/
def buf (m : GenMem) (b : Nat) : Res (List (List Obj)) :=
  match m.bufs[b]? with
  | some (some v) => .ok v
  | _ => .ub

/-- Reading `param_types_`. -/
def own (m : GenMem) (x : ParamGen) : Res (List (List Obj)) :=
  match x.types with
  | none => .ok []
  | some b => m.buf b

/-- Giving up the buffer of `param_types_`. -/
def release (m : GenMem) (x : ParamGen) : GenMem :=
  match x.types with
  | none => m
  | some b => { m with bufs := m.bufs.set b none }

/-- parameter_generator.cc:44-52 and combination_generator.h:65-76: `Base(Options(param_types_))`. -/
def build (types : Option Nat) (v : List (List Obj)) : Res ParamGen :=
  if v.any List.isEmpty then .exc .invalidArgument
  else .ok ⟨types, (match types with
    | none => []
    | some b => (List.range v.length).map fun i => (b, i)), Comb.size v⟩

/-- A new generator with its own buffer (parameter_generator.cc:58-62, 65-68). -/
def create (m : GenMem) (v : List (List Obj)) : Res GenMem := do
  let x ← build (some m.bufs.length) v
  pure ⟨m.bufs ++ [some v], m.gens ++ [some x]⟩

/-- One operation. -/
def step (m : GenMem) : GenOp → Res GenMem
  | .make v => m.create v
  -- parameter_generator.cc:65-68
  | .copy g => do
    let x ← m.gen g
    let v ← m.own x
    m.create v
  -- parameter_generator.cc:70-73
  | .move g => do
    let x ← m.gen g
    let v ← m.own x
    let y ← build x.types v
    pure ⟨m.bufs, m.gens.set g (some { x with types := none }) ++ [some y]⟩
  -- parameter_generator.cc:75-83
  | .assign dst src => do
    let x ← m.gen dst
    let y ← m.gen src
    if dst = src then pure m
    else do
      let v ← m.own y
      let m1 := m.release x
      let z ← build (some m1.bufs.length) v
      pure ⟨m1.bufs ++ [some v], m1.gens.set dst (some z)⟩
  -- parameter_generator.cc:85-91; a vector moved to itself is left empty
  | .moveAssign dst src => do
    let x ← m.gen dst
    let y ← m.gen src
    let m1 := m.release x
    if dst = src then do
      let z ← build none []
      pure ⟨m1.bufs, m1.gens.set dst (some z)⟩
    else do
      let v ← m.own y
      let z ← build y.types v
      pure ⟨m1.bufs, (m1.gens.set src (some { y with types := none })).set dst (some z)⟩
  | .destroy g => do
    let x ← m.gen g
    let m1 := m.release x
    pure ⟨m1.bufs, m1.gens.set g none⟩

/-- A sequence of operations, none of which throws. -/
def run (m : GenMem) : List GenOp → Res GenMem
  | [] => .ok m
  | op :: ops => do
    let m' ← m.step op
    m'.run ops

/-! ## Using a generator -/

/-- Reading through `options_`. -/
def deref (m : GenMem) : List (Nat × Nat) → Res (List (List Obj))
  | [] => .ok []
  | (b, i) :: ps => do
    let v ← m.buf b
    let o ← Res.index v i
    let os ← m.deref ps
    pure (o :: os)

/-- The option lists the base class sees. -/
def view (m : GenMem) (g : Nat) : Res (List (List Obj)) := do
  let x ← m.gen g
  m.deref x.options

/-- combination_generator.h:105. -/
def size (m : GenMem) (g : Nat) : Res Nat := do
  let x ← m.gen g
  pure x.size

/-- `for (const std::vector<Object>& args : generator)`. -/
def loop (m : GenMem) (g : Nat) : Res (List (List Obj)) := do
  let v ← m.view g
  genLoop v

/-- combination_generator.h:115-126: `at`. -/
def atIdx (m : GenMem) (g : Nat) (i : Int) : Res (List Obj) := do
  let v ← m.view g
  Comb.atIdx Obj.dflt v i

/-- combination_generator.h:138-162: `find`. -/
def find (m : GenMem) (g : Nat) (args : List Obj) : Res Nat := do
  let v ← m.view g
  Comb.find Obj.same v args

end GenMem
end Symbolic
