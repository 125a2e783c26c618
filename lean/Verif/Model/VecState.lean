import Verif.Model.State
import Mathlib.Data.List.Sort

/-!
# The other implementation of State

If `SYMBOLIC_STATE_USE_SET` is not defined (state.h:24-42), `State` is a `UniqueVector` of propositions instead of a `HashSet`.
`std::sort` and `std::unique` are modelled by insertion sort and the removal of repeated neighbours.
-/

namespace Symbolic

namespace UV
variable {α : Type} [DecidableEq α] [Elem α]

/-- `std::unique` after an element that is kept. -/
def uniqueFrom (last : α) : List α → List α
  | [] => []
  | b :: l => if b = last then uniqueFrom last l else b :: uniqueFrom b l

/-- `std::unique`. -/
def unique : List α → List α
  | [] => []
  | a :: l => a :: uniqueFrom a l

/-- unique_vector.h:63-69: the constructor from an initializer list. -/
def ofList (l : List α) : List α := unique (l.insertionSort fun a b => Elem.lt b a = false)

end UV

/-- state.h:36-38: `class State : private UniqueVector<Proposition>`. -/
abbrev VecState := List Atom

namespace VecState
variable [StrHash]

/-- state.h:56-58 -/
def contains (s : VecState) (a : Atom) : Bool := UV.contains s a

/-- state.h:64-65 -/
def insert (s : VecState) (a : Atom) : Bool × VecState := UV.insert s a

/-- state.h:83 -/
def erase (s : VecState) (a : Atom) : Bool × VecState := UV.erase s a

/-- state.h:116-124: `insert(first, last)`. -/
def insertRange (s : VecState) (l : List Atom) : Bool × VecState :=
  l.foldl (fun acc a => let r := insert acc.2 a; (acc.1 || r.1, r.2)) (false, s)

/-- state.h:49: `State(initializer_list)`. -/
def ofList (l : List Atom) : VecState := UV.ofList l

/-- state.h:92: `std::vector::size`. -/
def size (s : VecState) : Nat := s.length

/-- state.h:102-104: `std::vector` comparison. -/
def beq (s t : VecState) : Bool := decide (s = t)

/-- state.h:109-111: `std::vector` comparison. -/
def lt (s t : VecState) : Bool := lexLt Elem.lt s t

/-- state.cc:246-254: `std::hash<State>`. -/
def stdHash (s : VecState) : UInt64 := s.foldl (fun seed p => hashCombine seed p.hash) 0

end VecState
end Symbolic
