import Verif.Model.PyIter

/-!
# Specification: an iterator over a list in Python

What a Python programmer expects of `iter(l)` for a list `l`: every variable keeps the element it was given.
-/

namespace Symbolic

variable {V : Type}

/-- The values of the variables, for an iterator over `l` that was asked `pos` times so far. -/
def pyWanted (l : List V) : Nat → List (Option V) → List PyUse → List (Option V)
  | _, vs, [] => vs
  | pos, vs, .next :: us => pyWanted l (pos + 1) (vs ++ [l[pos]?]) us
  | pos, vs, .copy x :: us => pyWanted l pos (vs ++ [vs[x]?.join]) us

/-- What a variable was assigned: the latest `next`, an earlier one, or a copy. -/
inductive PyKind where
  | latest
  | earlier
  | copied
  deriving DecidableEq

/-- The next call of `next` makes the variable an earlier one. -/
def PyKind.age : PyKind → PyKind
  | .copied => .copied
  | _ => .earlier

/-- The kinds of the variables after a program. -/
def pyKinds : List PyKind → List PyUse → List PyKind
  | ks, [] => ks
  | ks, .next :: us => pyKinds (ks.map PyKind.age ++ [.latest]) us
  | ks, .copy _ :: us => pyKinds (ks ++ [.copied]) us

/-- Only copies and what the latest `next` gave are looked at. -/
def PyPrompt : List PyKind → List PyUse → Prop
  | _, [] => True
  | ks, .next :: us => PyPrompt (ks.map PyKind.age ++ [.latest]) us
  | ks, .copy x :: us => (ks[x]? = some .latest ∨ ks[x]? = some .copied) ∧ PyPrompt (ks ++ [.copied]) us

end Symbolic
