import Verif.Model.Syntax

/-!
# Specification: how a call string is read

`head(arg, arg, ...)`, stated as decompositions of the text.
-/

namespace Symbolic

/-- Characters that separate arguments. -/
def IsSep (c : Char) : Prop :=
  c = ',' ∨ c = ' ' ∨ c = '\t' ∨ c = '\n' ∨ c = '\x0b' ∨ c = '\x0c' ∨ c = '\r'

/-- `Words t ws`: the maximal separator-free pieces of `t`, in order, are `ws`. -/
inductive Words : Name → List Name → Prop
  | done (t : Name) : (∀ c ∈ t, IsSep c) → Words t []
  | word (pre w rest : Name) (ws : List Name) :
      (∀ c ∈ pre, IsSep c) → w ≠ [] → (∀ c ∈ w, ¬ IsSep c) → (∀ c, rest.head? = some c → IsSep c) →
      Words rest ws → Words (pre ++ w ++ rest) (w :: ws)

/-- `h` and `r` are what stands before and after the first `(` of `s`; without `(` both are all of `s`. -/
def SplitOpen (s h r : Name) : Prop :=
  (s = h ++ '(' :: r ∧ '(' ∉ h) ∨ ('(' ∉ s ∧ h = s ∧ r = s)

/-- `t` is what stands before the last `)` of `r`; without `)` it is all of `r`. -/
def BeforeClose (r t : Name) : Prop :=
  (∃ u, r = t ++ ')' :: u ∧ ')' ∉ u) ∨ (')' ∉ r ∧ t = r)

/-- The call string `s` has this head and these argument words. -/
def CallShape (s head : Name) (ws : List Name) : Prop :=
  ∃ r t, SplitOpen s head r ∧ BeforeClose r t ∧ Words t ws

/-- `o` is the first object in the table with the name `n`. -/
def Named (table : List Obj) (n : Name) (o : Obj) : Prop :=
  ∃ l₁ l₂, table = l₁ ++ o :: l₂ ∧ o.name = n ∧ ∀ o' ∈ l₁, o'.name ≠ n

/-- `op` is the first operator with the name `n`. -/
def NamedOp (ops : List Op) (n : Name) (op : Op) : Prop :=
  ∃ l₁ l₂, ops = l₁ ++ op :: l₂ ∧ op.name = n ∧ ∀ o ∈ l₁, o.name ≠ n

/-- A name that survives printing as an argument: non-empty and without separators. -/
def CleanArg (n : Name) : Prop := n ≠ [] ∧ ∀ c ∈ n, ¬ IsSep c

/-- A name that survives printing as a head: without `(`. -/
def CleanHead (n : Name) : Prop := '(' ∉ n

end Symbolic
