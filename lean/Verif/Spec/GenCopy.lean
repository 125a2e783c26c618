import Verif.Model.GenCopy

/-!
# Specification: generators as values

What a C++ programmer expects of copies and moves: a generator has a value of its own; a moved-from generator has none until it
is assigned to.
-/

namespace Symbolic

/-- A generator as a value. -/
inductive GenVal where
  | val (v : List (List Obj))
  | moved
  | dead
  deriving DecidableEq, Repr

/-- The generators of a program. -/
abbrev GenVals := List GenVal

/-- The value a copy gets. What a moved-from generator is copied to is left open, except that it is a generator: the
implementation makes an empty one. -/
def GenVal.copied : GenVal → GenVal
  | .val v => .val v
  | .moved => .val []
  | .dead => .dead

/-- The effect of an operation on values. -/
def GenVals.step (s : GenVals) : GenOp → GenVals
  | .make v => s ++ [.val v]
  | .copy g => s ++ (match s[g]? with | some x => [x.copied] | none => [])
  | .move g => s.set g .moved ++ (match s[g]? with | some x => [x.copied] | none => [])
  | .assign dst src => if dst = src then s else (match s[src]? with | some x => s.set dst x.copied | none => s)
  | .moveAssign dst src =>
    if dst = src then s.set dst .moved
    else (match s[src]? with | some x => (s.set src .moved).set dst x.copied | none => s)
  | .destroy g => s.set g .dead

/-- The generator exists. -/
def GenVals.Alive (s : GenVals) (g : Nat) : Prop := ∃ x, s[g]? = some x ∧ x ≠ .dead

/-- The operation uses generators that exist; a new one has no empty option list (else the constructor throws, C11). -/
def GenVals.Legal (s : GenVals) : GenOp → Prop
  | .make v => [] ∉ v
  | .copy g => s.Alive g
  | .move g => s.Alive g
  | .assign dst src => s.Alive dst ∧ s.Alive src
  | .moveAssign dst src => s.Alive dst ∧ s.Alive src
  | .destroy g => s.Alive g

/-- All operations of a program are legal. -/
def GenVals.LegalAll (s : GenVals) : List GenOp → Prop
  | [] => True
  | op :: ops => s.Legal op ∧ GenVals.LegalAll (s.step op) ops

def GenVals.run (s : GenVals) : List GenOp → GenVals
  | [] => s
  | op :: ops => GenVals.run (s.step op) ops

end Symbolic
