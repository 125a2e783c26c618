import Verif.Model.IndexIter

/-!
# Specification: random access iterators

What C++ says about random access iterators over a sequence of `n` elements: an iterator is a position between 0 and `n`,
and a position below `n` can be dereferenced.
-/

namespace Symbolic


/-- `l` are the propositions of the index, by position. -/
structure Listing (I : StateIndex) (l : List Atom) : Prop where
  size : I.size = .ok l.length
  props : ∀ i a, l[i]? = some a → (I.getProposition .empty i).1 = .ok a

/-- The positions of the iterators, `none` once destroyed. -/
abbrev Cursors := List (Option Nat)

namespace Cursors

/-- The position of a live iterator. -/
def pos (ps : Cursors) (o : Nat) : Option Nat := (ps[o]?).join

/-- Moving `o` by `d`, within the sequence. -/
def move (n : Nat) (ps : Cursors) (o : Nat) (d : Int) : Option Cursors :=
  match ps.pos o with
  | some p => if 0 ≤ (p : Int) + d ∧ (p : Int) + d ≤ n then some (ps.set o (some ((p : Int) + d).toNat)) else none
  | none => none

/-- One step of a program that respects the rules; `none` if it breaks them. -/
def step (n : Nat) (ps : Cursors) : IxCmd → Option Cursors
  | .begin => some (ps ++ [some 0])
  | .finish => some (ps ++ [some n])
  | .copy o => match ps.pos o with
    | some p => some (ps ++ [some p])
    | none => none
  | .assign o q => match ps.pos o, ps.pos q with
    | some _, some p => some (ps.set o (some p))
    | _, _ => none
  | .add o d => ps.move n o d
  | .sub o d => ps.move n o (-d)
  | .inc o => ps.move n o 1
  | .dec o => ps.move n o (-1)
  | .postInc o => match ps.pos o, ps.move n o 1 with
    | some p, some ps' => some (ps' ++ [some p])
    | _, _ => none
  | .postDec o => match ps.pos o, ps.move n o (-1) with
    | some p, some ps' => some (ps' ++ [some p])
    | _, _ => none
  | .deref o => match ps.pos o with
    | some p => if p < n then some ps else none
    | none => none
  | .destroy o => match ps.pos o with
    | some _ => some (ps.set o none)
    | none => none

/-- A program. -/
def run (n : Nat) : Cursors → List IxCmd → Option Cursors
  | ps, [] => some ps
  | ps, c :: cs => match ps.step n c with
    | some ps' => run n ps' cs
    | none => none

end Cursors

/-- The step ends the life of what `*o` referred to, or may write to it. -/
def IxCmd.Touches (o : Nat) : IxCmd → Prop
  | .assign p _ => p = o
  | .deref p => p = o
  | .destroy p => p = o
  | _ => False

end Symbolic
