import Verif.Model.Prelude

/-!
# CombinationGenerator

Transcription of include/symbolic/utils/combination_generator.h. The generator is its list of options
(the C++ class stores pointers to them together with `size_groups_` and `size_`, both computed once
from the options; they are recomputed here). `dflt` is the value-initialised element that
`combination_.resize` creates.

`int` and `size_t` are unbounded, except that a negative `int` converted to `size_t` behaves as in C++
(`geSize'`, `digit`); sizes of 2^31 and more are outside the model.
-/

namespace Symbolic
namespace Comb
variable {α : Type}

/-- combination_generator.h:172-188, `ComputeGroupSizes`, right to left. -/
def groupSizes : List (List α) → List Nat
  | [] => []
  | [_] => [1]
  | _ :: next :: rest =>
    match groupSizes (next :: rest) with
    | [] => []
    | g :: gs => next.length * g :: g :: gs

/-- combination_generator.h:195-199, `ComputeSize`. -/
def size (options : List (List α)) : Nat :=
  match options, groupSizes options with
  | o :: _, g :: _ => o.length * g
  | _, _ => 0

/-- combination_generator.h:65-76: the constructor throws on an empty option. -/
def ctor (options : List (List α)) : Res (List (List α)) :=
  if options.any List.isEmpty then .exc .invalidArgument else .ok options

/-- combination_generator.h:206-364: iterator state. -/
structure Iter (α : Type) where
  comb : List α
  idx : Int
  deriving DecidableEq, Repr

/-- `idx >= size() || idx < 0` with the C++ int to size_t conversion (lines 303, 331). -/
def outside (options : List (List α)) (idx : Int) : Bool := idx ≥ (size options : Int) || idx < 0

/-- Conversion of an integer to a 32 bit `int`. -/
def toI32 (i : Int) : Int := Int.bmod i (2 ^ 32)

/-- `int idx_i = remaining / size_groups_[i]`: the division is in size_t (lines 312, 344-345). -/
def digit (remaining : Int) (g : Nat) : Int :=
  if remaining < 0 then toI32 ((remaining % (2 ^ 64 : Int)) / (g : Int)) else remaining / (g : Int)

/-- `remaining -= idx_i * size_groups_[i]` (lines 313, 346-347). -/
def reduce (remaining d : Int) (g : Nat) : Int :=
  if remaining < 0 then toI32 (remaining - d * (g : Int)) else remaining - d * (g : Int)

/-- `std::vector::at(int)`. -/
def vecAt (o : List α) (i : Int) : Res α :=
  if i < 0 then .exc .outOfRange
  else match o[i.toNat]? with
    | some a => .ok a
    | none => .exc .outOfRange

/-- Preallocation of the combination (lines 306-307, 337-338). -/
def prealloc (dflt : α) (options : List (List α)) (comb : List α) : List α :=
  if comb.isEmpty then List.replicate options.length dflt else comb

/-- Loop of `UpdateCombination()` (lines 310-317). -/
def setLoop : List (List α) → List Nat → Int → List α → Res (List α)
  | [], _, _, comb => .ok comb
  | o :: os, g :: gs, remaining, _ :: cs => do
    if g = 0 then .ub
    else
      let d := digit remaining g
      let a ← vecAt o d
      let rest ← setLoop os gs (reduce remaining d g) cs
      pure (a :: rest)
  | _ :: _, _, _, _ => .ub

/-- Loop of `UpdateCombination(int)` (lines 342-354). -/
def moveLoop : List (List α) → List Nat → Int → Int → List α → Res (List α)
  | [], _, _, _, comb => .ok comb
  | o :: os, g :: gs, remaining, remainingNew, c :: cs => do
    if g = 0 then .ub
    else
      let d := digit remaining g
      let d' := digit remainingNew g
      let a ← (if d = d' then pure c else vecAt o d')
      let rest ← moveLoop os gs (reduce remaining d g) (reduce remainingNew d' g) cs
      pure (a :: rest)
  | _ :: _, _, _, _, _ => .ub

/-- combination_generator.h:223-225, 301-319: `Iterator(gen, idx)`. -/
def iter (dflt : α) (options : List (List α)) (idx : Int) : Res (Iter α) :=
  if outside options idx then .ok ⟨[], idx⟩
  else do
    let comb ← setLoop options (groupSizes options) idx (prealloc dflt options [])
    pure ⟨comb, idx⟩

/-- combination_generator.h:326-357 -/
def moveTo (dflt : α) (options : List (List α)) (it : Iter α) (idxNew : Int) : Res (Iter α) :=
  if it.idx = idxNew then .ok it
  else if outside options idxNew then .ok ⟨it.comb, idxNew⟩
  else do
    let comb ← moveLoop options (groupSizes options) it.idx idxNew (prealloc dflt options it.comb)
    pure ⟨comb, idxNew⟩

/-- combination_generator.h:268-271: `operator+=(n)`; `++`, `--`, `-=` are special cases (228, 250, 283). -/
def advance (dflt : α) (options : List (List α)) (it : Iter α) (n : Int) : Res (Iter α) :=
  moveTo dflt options it (it.idx + n)

/-- combination_generator.h:79: `begin()`. -/
def begin (dflt : α) (options : List (List α)) : Res (Iter α) := iter dflt options 0

/-- combination_generator.h:80: `end()`. -/
def endIt (dflt : α) (options : List (List α)) : Res (Iter α) := iter dflt options (size options)

/-- `for (auto it = from; it != end; ++it) visit(*it)` with a step budget; `endIdx` is the position of the
end iterator (iterators of one generator compare by position, line 246-248). -/
def traverse (dflt : α) (options : List (List α)) (step endIdx : Int) : Nat → Iter α → Res (List (List α))
  | 0, _ => .fuel
  | n + 1, it =>
    if it.idx = endIdx then .ok []
    else do
      let next ← advance dflt options it step
      let rest ← traverse dflt options step endIdx n next
      pure (it.comb :: rest)

/-- A range-for over the generator: the combinations visited. -/
def forward (dflt : α) (options : List (List α)) (budget : Nat) : Res (List (List α)) := do
  let b ← begin dflt options
  let e ← endIt dflt options
  traverse dflt options 1 e.idx budget b

/-- `for (auto it = rbegin(); it != rend(); ++it)` (lines 87-88, 366-387): the reverse iterator is
constructed from `end()`/`begin()` by one `--`; its `++` is `--`. -/
def backward (dflt : α) (options : List (List α)) (budget : Nat) : Res (List (List α)) := do
  let b ← begin dflt options
  let e ← endIt dflt options
  let rb ← advance dflt options e (-1)
  let re ← advance dflt options b (-1)
  traverse dflt options (-1) re.idx budget rb

/-- combination_generator.h:131-133: `operator[]`. -/
def get (dflt : α) (options : List (List α)) (i : Int) : Res (List α) := do
  let b ← begin dflt options
  let it ← advance dflt options b i
  pure it.comb

/-- combination_generator.h:115-126: `at`. -/
def atIdx (dflt : α) (options : List (List α)) (i : Int) : Res (List α) :=
  let i' := if i < 0 then i + size options else i
  if outside options i' then .exc .outOfRange else get dflt options i'

/-- Position of the first element equal to `a` (`std::find`). -/
def findIdx (eq : α → α → Bool) (a : α) : List α → Option Nat
  | [] => none
  | x :: xs => if eq x a then some 0 else (findIdx eq a xs).map (· + 1)

/-- The loop of `find` (lines 143-159). -/
def findLoop (eq : α → α → Bool) : List (List α) → List Nat → List α → Nat → Res Nat
  | _, _, [], idx => .ok idx
  | o :: os, g :: gs, a :: as, idx =>
    match findIdx eq a o with
    | none => .exc .outOfRange
    | some k => findLoop eq os gs as (idx + g * k)
  -- options_.at(i) throws
  | [], _, _ :: _, _ => .exc .outOfRange
  | _ :: _, [], _ :: _, _ => .ub

/-- combination_generator.h:138-162: `find`, with the element comparison `eq`. -/
def find (eq : α → α → Bool) (options : List (List α)) (comb : List α) : Res Nat :=
  findLoop eq options (groupSizes options) comb 0

end Comb
end Symbolic
