import Verif.Model.Order

/-!
# UniqueVector and HashSet

Transcription of include/symbolic/utils/unique_vector.h and include/symbolic/utils/hash_set.h.

`std::lower_bound` is modelled by its contract on a range partitioned by `· < v` (first position whose
element is not less than `v`). Moved-from containers (zero buckets) are not modelled: every container
below is created by a constructor and has at least one bucket, see `HashSet.Inv`.
-/

namespace Symbolic

/-- What the containers need of their element type: `operator<` and `std::hash`. -/
class Elem (α : Type) where
  lt : α → α → Bool
  hash : α → Nat

/-- `std::lower_bound(begin, end, v) - begin`. -/
def lowerBound (lt : α → α → Bool) (l : List α) (v : α) : Nat :=
  (l.takeWhile (fun x => lt x v)).length

namespace UV
variable {α : Type} [DecidableEq α] [Elem α]

/-- unique_vector.h:71-76 -/
def contains (l : List α) (v : α) : Bool :=
  match l[lowerBound Elem.lt l v]? with
  | some x => decide (x = v)
  | none => false

/-- unique_vector.h:79-98. Returns whether the vector changed, and the vector. -/
def insert (l : List α) (v : α) : Bool × List α :=
  let it := lowerBound Elem.lt l v
  match l[it]? with
  | some x => if x = v then (false, l) else (true, l.take it ++ v :: l.drop it)
  | none => (true, l.take it ++ v :: l.drop it)

/-- unique_vector.h:100-108. Returns whether the vector changed, and the vector. -/
def erase (l : List α) (v : α) : Bool × List α :=
  let it := lowerBound Elem.lt l v
  match l[it]? with
  | some x => if x = v then (true, l.take it ++ l.drop (it + 1)) else (false, l)
  | none => (false, l)

end UV

/-- hash_set.h:141-142: the bucket array and the cached size. -/
structure HashSet (α : Type) where
  buckets : List (List α)
  size : Nat
  deriving DecidableEq, Repr

namespace HashSet
variable {α : Type} [DecidableEq α] [Elem α]

/-- hash_set.h:33 with `HASH_SET_INITIAL_SIZE = 1` (line 21). -/
def empty : HashSet α := ⟨List.replicate 1 [], 0⟩

/-- hash_set.h:116,121: bucket index of an element. -/
def bucketIdx (n : Nat) (a : α) : Nat := Elem.hash a % n

/-- hash_set.h:109 -/
def upperBound (s : HashSet α) : Nat := 2 * s.buckets.length + 1

/-- hash_set.h:110-112 -/
def lowerBound (s : HashSet α) : Nat := max 1 ((s.buckets.length - 1) / 2)

/-- `GetBucket(element).contains(element)` on a bucket array (hash_set.h:63-66, 119-123). -/
def inBuckets (bs : List (List α)) (a : α) : Bool :=
  match bs[bucketIdx bs.length a]? with
  | some b => UV.contains b a
  | none => false

/-- `GetBucket(element).insert(element)`: the new bucket array (hash_set.h:70). -/
def putBucket (bs : List (List α)) (a : α) : List (List α) :=
  bs.modify (bucketIdx bs.length a) (fun b => (UV.insert b a).2)

/-- `GetBucket(element).insert(element)`: the returned flag (hash_set.h:70). -/
def putFlag (bs : List (List α)) (a : α) : Bool :=
  match bs[bucketIdx bs.length a]? with
  | some b => (UV.insert b a).1
  | none => false

/-- `GetBucket(element).erase(element)`: the new bucket array (hash_set.h:89). -/
def dropBucket (bs : List (List α)) (a : α) : List (List α) :=
  bs.modify (bucketIdx bs.length a) (fun b => (UV.erase b a).2)

/-- `GetBucket(element).erase(element)`: the returned flag (hash_set.h:89). -/
def dropFlag (bs : List (List α)) (a : α) : Bool :=
  match bs[bucketIdx bs.length a]? with
  | some b => (UV.erase b a).1
  | none => false

/-- hash_set.h:125-139 -/
def rehash (s : HashSet α) (n : Nat) : HashSet α :=
  if n = s.buckets.length then s
  else { s with buckets := s.buckets.flatten.foldl putBucket (List.replicate n []) }

/-- hash_set.h:63-66 -/
def contains (s : HashSet α) (a : α) : Bool := inBuckets s.buckets a

/-- hash_set.h:68-85 -/
def insert (s : HashSet α) (a : α) : Bool × HashSet α :=
  if putFlag s.buckets a then
    let s₁ : HashSet α := ⟨putBucket s.buckets a, s.size + 1⟩
    (true, if s₁.size > s₁.buckets.length then s₁.rehash s₁.upperBound else s₁)
  else (false, ⟨putBucket s.buckets a, s.size⟩)

/-- hash_set.h:87-95 -/
def erase (s : HashSet α) (a : α) : Bool × HashSet α :=
  if dropFlag s.buckets a then
    let s₁ : HashSet α := ⟨dropBucket s.buckets a, s.size - 1⟩
    (true, if s₁.size ≤ s₁.lowerBound then s₁.rehash s₁.lowerBound else s₁)
  else (false, ⟨dropBucket s.buckets a, s.size⟩)

/-- hash_set.h:97-99: `operator==` compares the bucket arrays. -/
def beq (s t : HashSet α) : Bool := decide (s.buckets = t.buckets)

/-- hash_set.h:104-106: `operator<` compares the bucket arrays lexicographically. -/
def lt (s t : HashSet α) : Bool := lexLt (lexLt Elem.lt) s.buckets t.buckets

/-- One call on a set. -/
inductive Op (α : Type) where
  | insert (a : α)
  | erase (a : α)

/-- Effect of a call. -/
def step (s : HashSet α) : Op α → HashSet α
  | .insert a => (s.insert a).2
  | .erase a => (s.erase a).2

/-- The set after a history of calls on a fresh set. -/
def run (ops : List (Op α)) : HashSet α := ops.foldl step empty

/-- hash_set.h:33-39: the constructors (initializer list). -/
def ofList (l : List α) : HashSet α := l.foldl (fun s a => (s.insert a).2) empty

/-- The elements in iteration order (`Props/C04` proves that the iterator produces this list). -/
def elems (s : HashSet α) : List α := s.buckets.flatten

/-! ## Iterators (hash_set.h:145-232)

The position is the pair of C++ ints `(idx_bucket_, idx_in_bucket_)`. -/

/-- `int >= size_t` in C++: the int is converted to unsigned, so a negative int compares as huge. -/
def geSize (i : Int) (n : Nat) : Bool := i < 0 || i ≥ (n : Int)

/-- Iterator position. -/
structure Pos where
  bucket : Int
  inBucket : Int
  deriving DecidableEq, Repr

/-- The loop of `FindNextElement` (hash_set.h:211-217) on the buckets from `idx_bucket_` on. The list
argument is the suffix of the bucket array starting at `idx_bucket_`. -/
def findNextLoop (suffix : List (List α)) (p : Pos) : Pos :=
  match suffix with
  | [] => p
  | b :: rest =>
    if geSize p.inBucket b.length then findNextLoop rest ⟨p.bucket + 1, 0⟩ else p

/-- hash_set.h:205-218 -/
def findNext (bs : List (List α)) (p : Pos) : Pos :=
  if geSize p.bucket bs.length then ⟨p.bucket, 0⟩
  else findNextLoop (bs.drop p.bucket.toNat) p

/-- hash_set.h:48-52 -/
def itBegin (s : HashSet α) : Pos := findNext s.buckets ⟨0, 0⟩

/-- hash_set.h:53-55 -/
def itEnd (s : HashSet α) : Pos := ⟨s.buckets.length, 0⟩

/-- hash_set.h:162-166 -/
def itNext (s : HashSet α) (p : Pos) : Pos := findNext s.buckets ⟨p.bucket, p.inBucket + 1⟩

/-- The loop of `FindPreviousElement` (hash_set.h:221-226). The list argument is the prefix of the
bucket array before `idx_bucket_`, reversed. -/
def findPrevLoop (prefixRev : List (List α)) (p : Pos) : Pos :=
  if p.inBucket < 0 then
    match prefixRev with
    | [] => ⟨p.bucket - 1, p.inBucket⟩
    | b :: rest => findPrevLoop rest ⟨p.bucket - 1, (b.length : Int) - 1⟩
  else p

/-- hash_set.h:190-194 -/
def itPrev (s : HashSet α) (p : Pos) : Pos :=
  findPrevLoop (s.buckets.take p.bucket.toNat).reverse ⟨p.bucket, p.inBucket - 1⟩

/-- hash_set.h:174-176: `operator*`, undefined outside the arrays. -/
def deref (s : HashSet α) (p : Pos) : Res α :=
  if p.bucket < 0 ∨ p.inBucket < 0 then .ub
  else (Res.index s.buckets p.bucket.toNat) >>= fun b => Res.index b p.inBucket.toNat

/-- `for (it = from; it != end(); ++it) visit(*it)`, with a step budget. -/
def traverse (s : HashSet α) : Nat → Pos → Res (List α)
  | 0, _ => .fuel
  | n + 1, p =>
    if p = s.itEnd then .ok []
    else do
      let a ← s.deref p
      let l ← traverse s n (s.itNext p)
      pure (a :: l)

/-- `while (it != begin()) visit(*--it)`, with a step budget. -/
def traverseBack (s : HashSet α) : Nat → Pos → Res (List α)
  | 0, _ => .fuel
  | n + 1, p =>
    if p = s.itBegin then .ok []
    else do
      let q := s.itPrev p
      let a ← s.deref q
      let l ← traverseBack s n q
      pure (a :: l)

end HashSet
end Symbolic
