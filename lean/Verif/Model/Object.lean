import Verif.Model.Order
import Verif.Model.Combination

/-!
# Objects, types, the object map and ParameterGenerator

Transcription of include/symbolic/object.h, src/object.cc:74-104, src/pddl.cc:145-155 and
src/utils/parameter_generator.cc.

A VAL type symbol is a linked list of ancestors; we keep the list of names from the type itself up to
its root (`[]` for a null type pointer), after `GetTypeSymbol` (object.cc:24-36) has replaced a missing
type by the declared root type `object` if there is one. VAL guarantees nothing about cycles; a cyclic
hierarchy would make `IsSubtype` loop and is not modelled. `either` types have no type pointer in VAL.
-/

namespace Symbolic

/-- `kDefaultType` (object.cc:74). -/
def kDefaultType : Name := n!"object"

/-- object.h:34-128: an object, or a parameter (variable) of an action or formula. -/
structure Obj where
  name : Name
  /-- names along `type_.symbol_`, `type_.symbol_->type`, ... -/
  types : List Name
  deriving DecidableEq, Repr

namespace Obj

/-- The default-constructed object (object.h:38). -/
def dflt : Obj := ⟨[], []⟩

/-- object.h:75-78: `operator==` compares names (the hash is a function of the name). -/
def same (a b : Obj) : Bool := decide (a.name = b.name)

/-- object.cc:101-104: `type().name()`. -/
def typeName (o : Obj) : Name :=
  match o.types with
  | [] => kDefaultType
  | t :: _ => t

/-- object.cc:80-87: `type().IsSubtype(type)`. -/
def isSubtype (o : Obj) (type : Name) : Bool :=
  if type = kDefaultType then true else o.types.any (fun t => decide (t = type))

/-- object.cc:89-99: `type().ListTypes()`. -/
def listTypes (o : Obj) : List Name :=
  match o.types.getLast? with
  | none => o.types ++ [kDefaultType]
  | some t => if t ≠ kDefaultType then o.types ++ [kDefaultType] else o.types

end Obj

/-- `std::unordered_map<std::string, std::vector<Object>>`, as an association list with unique keys. -/
abbrev ObjMap := List (Name × List Obj)

namespace ObjMap

/-- `object_map[type].push_back(object)`. -/
def push (m : ObjMap) (type : Name) (o : Obj) : ObjMap :=
  match m with
  | [] => [(type, [o])]
  | (t, os) :: rest => if t = type then (t, os ++ [o]) :: rest else (t, os) :: push rest type o

/-- `object_map.find(type)`. -/
def find (m : ObjMap) (type : Name) : Option (List Obj) :=
  match m with
  | [] => none
  | (t, os) :: rest => if t = type then some os else find rest type

/-- `object_map.find(type) != object_map.end()`. -/
def has (m : ObjMap) (type : Name) : Bool := (m.find type).isSome

/-- pddl.cc:145-155: `CreateObjectTypeMap`. -/
def create (objects : List Obj) : ObjMap :=
  objects.foldl (fun m o => o.listTypes.foldl (fun m t => m.push t o) m) []

end ObjMap

/-- parameter_generator.cc:22-42: the option lists; cleared as soon as a type has no entry. -/
def paramTypes (m : ObjMap) (params : List Obj) : List (List Obj) :=
  let rec go : List Obj → List (List Obj) → List (List Obj)
    | [], acc => acc
    | p :: ps, acc =>
      match m.find p.typeName with
      | some os => go ps (acc ++ [os])
      | none => []
  go params []

/-- parameter_generator.cc:58-62: the constructor. -/
def paramGen (m : ObjMap) (params : List Obj) : Res (List (List Obj)) := Comb.ctor (paramTypes m params)

/-- `for (const std::vector<Object>& args : generator)`: the argument lists visited. `size() + 1` steps
are enough (`Props/C06`). -/
def genLoop (options : List (List Obj)) : Res (List (List Obj)) :=
  Comb.forward Obj.dflt options (Comb.size options + 1)

end Symbolic
