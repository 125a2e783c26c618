import Verif.Lemmas.HashSet
import Verif.Model.Object

/-!
# Propositions, states and partial states

Transcription of include/symbolic/proposition.h, src/proposition.cc, include/symbolic/state.h:36-213 and
src/state.cc:47-140, 236-256. `SYMBOLIC_STATE_USE_SET` is defined (state.h:13), so `State` is a
`HashSet<Proposition>`.

A stored proposition is its predicate name and the names of its arguments. The C++ object also stores a
pointer to each argument's symbol and type; no operation of `State` looks at them.

`State` below is the set of `HashSet` values that satisfy the representation invariant `HashSet.Inv`. All
values built by constructors, `insert` and `erase` do (`Lemmas/HashSet.lean`: `Inv.empty`, `Inv.insert`,
`Inv.erase`); a moved-from container is not modelled.
-/

namespace Symbolic

/-- proposition.h:67-107, reduced to what `==`, `<` and the hash see. -/
structure Atom where
  pred : Name
  args : List Name
  deriving DecidableEq, Repr

/-- `seed ^= h + kHashOffset + (seed << kHashL) + (seed >> kHashR)` (proposition.cc:16-18,32-33 and
state.cc:238-240,250-251). -/
def hashCombine (seed h : UInt64) : UInt64 :=
  seed ^^^ (h + (0x9e3779b9 : UInt64) + (seed <<< (6 : UInt64)) + (seed >>> (2 : UInt64)))

namespace Atom

/-- The proposition `name(args)` over objects. -/
def ofObjs (pred : Name) (args : List Obj) : Atom := ⟨pred, args.map Obj.name⟩

/-- proposition.cc:24-36 (the hash of an object is the hash of its name, object.cc:109). -/
def hash [StrHash] (a : Atom) : UInt64 :=
  a.args.foldl (fun seed arg => hashCombine seed (StrHash.hash arg)) (StrHash.hash a.pred)

/-- proposition.h:40-44 with object.h:71-73. -/
def lt (a b : Atom) : Bool :=
  pairLt nameLt (lexLt nameLt) (a.pred, a.args) (b.pred, b.args)

instance [StrHash] : Elem Atom where
  lt := Atom.lt
  hash a := a.hash.toNat

instance [StrHash] : LawfulElem Atom where
  strict := {
    irrefl := fun a => (pairLt_strictTotal nameLt_strictTotal (lexLt_strictTotal nameLt_strictTotal)).irrefl _
    trans := fun a b c =>
      (pairLt_strictTotal nameLt_strictTotal (lexLt_strictTotal nameLt_strictTotal)).trans _ _ _
    total := fun a b => by
      rcases a with ⟨a, as⟩
      rcases b with ⟨b, bs⟩
      rcases (pairLt_strictTotal nameLt_strictTotal (lexLt_strictTotal nameLt_strictTotal)).total
        (a, as) (b, bs) with h | h | h
      · exact Or.inl h
      · cases h; exact Or.inr (Or.inl rfl)
      · exact Or.inr (Or.inr h) }

end Atom

/-- state.h:40: a `State` is a `HashSet<Proposition>`. -/
structure State [StrHash] : Type where
  val : HashSet Atom
  inv : HashSet.Inv val

namespace State
variable [StrHash]

instance : DecidableEq State := fun s t =>
  decidable_of_iff (s.val = t.val) (by cases s; cases t; simp)

/-- state.h:48: `State()`. -/
def empty : State := ⟨HashSet.empty, HashSet.Inv.empty⟩

/-- state.h:56-58 -/
def contains (s : State) (a : Atom) : Bool := s.val.contains a

/-- state.h:64-65: whether the state changed, and the new state. -/
def insert (s : State) (a : Atom) : Bool × State := ((s.val.insert a).1, ⟨(s.val.insert a).2, s.inv.insert a⟩)

/-- state.h:83: whether the state changed, and the new state. -/
def erase (s : State) (a : Atom) : Bool × State := ((s.val.erase a).1, ⟨(s.val.erase a).2, s.inv.erase a⟩)

/-- state.h:85-89: the propositions in iteration order. -/
def elems (s : State) : List Atom := s.val.elems

/-- state.h:92 -/
def size (s : State) : Nat := s.val.size

/-- hash_set.h:58 -/
def isEmpty (s : State) : Bool := s.size == 0

/-- state.h:102-104 -/
def beq (s t : State) : Bool := s.val.beq t.val

/-- state.h:109-111 -/
def lt (s t : State) : Bool := s.val.lt t.val

/-- state.h:116-124: `insert(first, last)`. -/
def insertRange (s : State) (l : List Atom) : Bool × State :=
  l.foldl (fun acc a => let r := acc.2.insert a; (acc.1 || r.1, r.2)) (false, s)

/-- state.h:49: `State(initializer_list)`. -/
def ofList (l : List Atom) : State := (State.empty.insertRange l).2

/-- state.cc:246-254: `std::hash<State>`. -/
def stdHash (s : State) : UInt64 := s.elems.foldl (fun seed p => hashCombine seed p.hash) 0

instance : Membership Atom State := ⟨fun s a => s.contains a = true⟩

instance (a : Atom) (s : State) : Decidable (a ∈ s) := inferInstanceAs (Decidable (_ = true))

end State

/-- state.h:126-213 -/
structure PartialState [StrHash] : Type where
  pos : State
  neg : State
  deriving DecidableEq

namespace PartialState
variable [StrHash]

/-- state.h:142 -/
def empty : PartialState := ⟨State.empty, State.empty⟩

/-- state.cc:83-87 -/
def contains (s : PartialState) (a : Atom) : Res Bool :=
  if s.pos.contains a then .ok true
  else if s.neg.contains a then .ok false
  else .exc .unknownEvaluation

/-- state.cc:88-92 -/
def doesNotContain (s : PartialState) (a : Atom) : Res Bool :=
  if s.pos.contains a then .ok false
  else if s.neg.contains a then .ok true
  else .exc .unknownEvaluation

/-- state.cc:94-104: the return code and the new partial state. -/
def insert (s : PartialState) (a : Atom) : Nat × PartialState :=
  let n := s.neg.erase a
  let p := s.pos.insert a
  (n.1.toNat + p.1.toNat, ⟨p.2, n.2⟩)

/-- state.cc:106-116: the return code and the new partial state. -/
def erase (s : PartialState) (a : Atom) : Nat × PartialState :=
  let p := s.pos.erase a
  let n := s.neg.insert a
  (p.1.toNat + n.1.toNat, ⟨p.2, n.2⟩)

/-- state.cc:118-123 -/
def isConsistent (s : PartialState) : Bool := s.pos.elems.all (fun a => !s.neg.contains a)

/-- state.h:160 -/
def size (s : PartialState) : Nat := s.pos.size + s.neg.size

/-- state.h:196-198 -/
def beq (s t : PartialState) : Bool := s.pos.beq t.pos && s.neg.beq t.neg

/-- state.h:204-206: `std::tie` comparison. -/
def lt (s t : PartialState) : Bool := pairLt State.lt State.lt (s.pos, s.neg) (t.pos, t.neg)

end PartialState
end Symbolic
