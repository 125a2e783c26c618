import Verif.Model.Pddl

/-!
# The symbols of a Pddl on the heap

An `Object` holds a pointer to a VAL symbol (object.h:123) and every call of `name()` reads it. `Model/Pddl.lean` has
values instead; here the pointers are explicit, for `AddObject` and `RemoveObject` (pddl.cc:516-543), the only functions
that allocate or free symbols. An address is a position in the list of cells; a freed cell is `none`; addresses are not
reused. Reading a freed symbol is undefined behaviour.

Modelled are the holders of object pointers that the API gives access to: `objects()`, `constants()`, `object_map()`
(which parameter generators, quantifiers and the listing of actions read), the initial state, and the two lists of VAL
that `Object(pddl, name)` searches. Not modelled: the pointers in goals, preconditions and effects that mention constants
by name.
-/

namespace Symbolic

/-- include/symbolic/pddl.h:252-272, the part that holds pointers to symbols. -/
structure PddlHeap where
  cells : List (Option Obj)
  /-- `the_domain->types` -/
  types : Option (List (List Name))
  /-- `the_domain->constants` -/
  domConstants : List Nat
  /-- `the_problem->objects` -/
  probObjects : List Nat
  /-- `constants_` -/
  constants : List Nat
  /-- `objects_` -/
  objects : List Nat
  /-- `object_map_` -/
  omap : List (Name × List Nat)
  /-- `initial_state_`: predicates and arguments -/
  initial : List (Name × List Nat)

namespace PddlHeap

/-- Reading a symbol. -/
def deref (h : PddlHeap) (a : Nat) : Res Obj :=
  match h.cells[a]? with
  | some (some o) => .ok o
  | _ => .ub

/-- Reading the symbols of a list. -/
def derefAll (h : PddlHeap) : List Nat → Res (List Obj)
  | [] => .ok []
  | a :: as => do
    let o ← h.deref a
    let os ← h.derefAll as
    pure (o :: os)

/-- `object_map[type].push_back(object)`, as `ObjMap.push`. -/
def pushAddr : List (Name × List Nat) → Name → Nat → List (Name × List Nat)
  | [], type, a => [(type, [a])]
  | (t, as) :: rest, type, a => if t = type then (t, as ++ [a]) :: rest else (t, as) :: pushAddr rest type a

/-- pddl.cc:145-155: `CreateObjectTypeMap`, for the objects at the addresses `i`, `i + 1`, ... -/
def createMap : List Obj → Nat → List (Name × List Nat) → List (Name × List Nat)
  | [], _, m => m
  | o :: os, i, m => createMap os (i + 1) (o.listTypes.foldl (fun m t => pushAddr m t i) m)

/-- The address VAL resolves a name to, if there is one: the first symbol of that name. -/
def addrOf (name : Name) : List Obj → Nat → Option Nat
  | [], _ => none
  | o :: os, i => if o.name = name then some i else addrOf name os (i + 1)

/-- pddl.cc:250-264: the pointers after construction. -/
def make (t : Ptree) : PddlHeap :=
  let os := t.constants ++ t.objects
  { cells := os.map some
    types := t.types
    domConstants := List.range t.constants.length
    probObjects := (List.range t.objects.length).map (t.constants.length + ·)
    constants := List.range t.constants.length
    objects := List.range os.length
    omap := createMap os 0 []
    initial := t.init.map fun p => (p.pred, p.args.filterMap fun n => addrOf n os 0) }

/-- pddl.cc:516-525: `AddObject`. -/
def addObject (h : PddlHeap) (name type : Name) : Res PddlHeap :=
  match h.types with
  | none => .ub
  | some types =>
    let chain := match types.find? (fun c => decide (c.head? = some type)) with
      | some c => c
      | none => Pddl.defaultChain types
    .ok { h with
      cells := h.cells ++ [some ⟨name, chain⟩]
      probObjects := h.probObjects ++ [h.cells.length]
      objects := h.objects ++ [h.cells.length] }

/-- The loops pddl.cc:528-529, 534-535 and object.cc:41-44, 48-51: the position of the first symbol of that name. -/
def findName (h : PddlHeap) (name : Name) : List Nat → Res (Option Nat)
  | [] => .ok none
  | a :: as => do
    let o ← h.deref a
    if o.name = name then pure (some 0)
    else do
      let r ← h.findName name as
      pure (r.map (· + 1))

/-- pddl.cc:527-543: `RemoveObject`. -/
def removeObject (h : PddlHeap) (name : Name) : Res PddlHeap := do
  let i ← h.findName name h.objects
  match i with
  | none => pure h
  | some i => do
    let symbol ← Res.index h.objects i
    let j ← h.findName name h.probObjects
    pure { h with
      objects := h.objects.eraseIdx i
      probObjects := (match j with
        | none => h.probObjects
        | some j => h.probObjects.eraseIdx j)
      cells := h.cells.set symbol none }

/-- object.cc:38-56, 117-120: `Object(pddl, name)`: the symbol found. -/
def lookup (h : PddlHeap) (name : Name) : Res Nat := do
  let i ← h.findName name h.domConstants
  match i with
  | some i => Res.index h.domConstants i
  | none => do
    let j ← h.findName name h.probObjects
    match j with
    | some j => Res.index h.probObjects j
    | none => .exc .runtimeError

/-- `object_map().at(type)`. -/
def ofType (h : PddlHeap) (type : Name) : Res (List Nat) :=
  match h.omap.find? (fun e => decide (e.1 = type)) with
  | some e => .ok e.2
  | none => .exc .outOfRange

/-- A call that changes the objects. -/
inductive Call where
  | add (name type : Name)
  | remove (name : Name)

/-- A history of calls. -/
def run (h : PddlHeap) : List Call → Res PddlHeap
  | [] => .ok h
  | .add name type :: rest => do
    let h' ← h.addObject name type
    h'.run rest
  | .remove name :: rest => do
    let h' ← h.removeObject name
    h'.run rest

end PddlHeap

end Symbolic
