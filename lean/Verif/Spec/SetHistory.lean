import Verif.Model.State

/-!
# Specification: sets of atoms under a history of calls, and three-valued knowledge

Independent of the hash set: a set is a predicate on atoms.
-/

namespace Symbolic

/-- A modification of a state through its API. -/
inductive SetOp where
  | insert (a : Atom)
  | erase (a : Atom)
  | insertRange (l : List Atom)

/-- The mathematical set after one more modification. -/
def SetOp.spec (S : Atom → Prop) : SetOp → Atom → Prop
  | .insert a => fun x => x = a ∨ S x
  | .erase a => fun x => S x ∧ x ≠ a
  | .insertRange l => fun x => x ∈ l ∨ S x

/-- Whether the modification changes the mathematical set. -/
def SetOp.changes (S : Atom → Prop) : SetOp → Prop
  | .insert a => ¬ S a
  | .erase a => S a
  | .insertRange l => ∃ a, a ∈ l ∧ ¬ S a

/-- The mathematical set after a history (oldest call first). -/
def specSet (init : List Atom) (h : List SetOp) : Atom → Prop :=
  h.foldl SetOp.spec (fun x => x ∈ init)

/-- The call on a state: returned flag and new state. -/
def SetOp.call [StrHash] (s : State) : SetOp → Bool × State
  | .insert a => s.insert a
  | .erase a => s.erase a
  | .insertRange l => s.insertRange l

/-- The state after a history on `State(initializer_list)`. -/
def history [StrHash] (init : List Atom) (h : List SetOp) : State :=
  h.foldl (fun s op => (op.call s).2) (State.ofList init)

/-- What is known about each atom. -/
abbrev Knowledge := Atom → Option Bool

/-- A modification of a partial state. -/
inductive PartialOp where
  | insert (a : Atom)
  | erase (a : Atom)

/-- The atom a modification is about, and the truth value it asserts. -/
def PartialOp.atom : PartialOp → Atom
  | .insert a => a
  | .erase a => a

def PartialOp.value : PartialOp → Bool
  | .insert _ => true
  | .erase _ => false

/-- Knowledge after a modification. -/
def PartialOp.spec (K : Knowledge) (op : PartialOp) : Knowledge :=
  fun x => if x = op.atom then some op.value else K x

/-- The documented return code: 0 already known, 1 newly known, 2 the opposite was known
(state.h:163-168, 177-182). -/
def PartialOp.code (K : Knowledge) (op : PartialOp) : Nat :=
  match K op.atom with
  | none => 1
  | some v => if v = op.value then 0 else 2

/-- The call on a partial state. -/
def PartialOp.call [StrHash] (s : PartialState) : PartialOp → Nat × PartialState
  | .insert a => s.insert a
  | .erase a => s.erase a

/-- The partial state represents the knowledge. -/
def Represents [StrHash] (s : PartialState) (K : Knowledge) : Prop :=
  ∀ a, (a ∈ s.pos ↔ K a = some true) ∧ (a ∈ s.neg ↔ K a = some false)

end Symbolic
