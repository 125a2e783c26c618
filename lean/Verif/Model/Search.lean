import Verif.Model.Prelude

/-!
# Search

Transcription of include/symbolic/planning/{breadth_first_search,depth_first_search,a_star}.h. Nodes are
arbitrary: `goal` is the conversion to `bool`, `expand` the children a range-for over the node visits. Both may throw.
Printing (`verbose`) is left out. Moving a node out of the frontier before popping it is a copy.
-/

namespace Symbolic

/-- The template argument `NodeT`. -/
structure Space (N : Type) where
  goal : N → Res Bool
  expand : N → Res (List N)

variable {N : Type}

/-! ## Breadth-first search -/

namespace Bfs

/-- breadth_first_search.h:73-80: `queue_` (front first) and `ancestors_` (a shared pointer). -/
structure It (N : Type) where
  queue : List (N × List N)
  cur : Option (List N)

/-- breadth_first_search.h:77: `IsFinished`; two iterators are equal iff both are finished (66-68). -/
def It.finished (it : It N) : Bool := it.queue.isEmpty && it.cur.isNone

/-- breadth_first_search.h:83-141: `operator++`. `late k`: at its `k`-th test the clock has passed the timeout
(88-94). The first number bounds the number of loop iterations. -/
def next (sp : Space N) (maxDepth : Nat) (late : Nat → Bool) : Nat → Nat → It N → Res (It N)
  | 0, _, _ => .fuel
  | fuel + 1, k, it =>
    match it.queue with
    | [] => .ok ⟨[], none⟩
    | (node, ancestors) :: queue =>
      if late k then .ok ⟨[], none⟩
      else do
        let path := ancestors ++ [node]
        let g ← sp.goal node
        if g then pure ⟨queue, some path⟩
        else if path.length > maxDepth then next sp maxDepth late fuel (k + 1) ⟨queue, some path⟩
        else do
          let children ← sp.expand node
          next sp maxDepth late fuel (k + 1) ⟨queue ++ children.map (fun c => (c, path)), some path⟩

/-- breadth_first_search.h:61-63: the iterator on the root. -/
def start (root : N) : It N := ⟨[(root, [])], none⟩

/-- breadth_first_search.h:37-40: `begin()`. -/
def begin (sp : Space N) (maxDepth : Nat) (late : Nat → Bool) (fuel : Nat) (root : N) : Res (It N) :=
  next sp maxDepth late fuel 0 (start root)

/-- `for (auto it = ...; it != end(); ++it) visit(*it)`. `clock i` is `late` of the `i`-th increment. Dereferencing a
null `ancestors_` is undefined. -/
def collect (sp : Space N) (maxDepth : Nat) (clock : Nat → Nat → Bool) (fuel : Nat) :
    Nat → Nat → It N → Res (List (List N))
  | 0, _, _ => .fuel
  | steps + 1, i, it =>
    if it.finished then .ok []
    else match it.cur with
      | none => .ub
      | some path => do
        let it' ← next sp maxDepth (clock i) fuel 0 it
        let rest ← collect sp maxDepth clock fuel steps (i + 1) it'
        pure (path :: rest)

/-- All plans visited by a range-for over the search. -/
def run (sp : Space N) (maxDepth : Nat) (clock : Nat → Nat → Bool) (fuel : Nat) (root : N) : Res (List (List N)) := do
  let it ← begin sp maxDepth (clock 0) fuel root
  collect sp maxDepth clock fuel fuel 1 it

end Bfs

/-! ## Depth-first search -/

namespace Dfs

/-- depth_first_search.h:62-67: `stack_` (top first) and `ancestors_`. -/
structure It (N : Type) where
  stack : List (N × List N)
  cur : List N

/-- depth_first_search.h:57. -/
def It.finished (it : It N) : Bool := it.stack.isEmpty

/-- depth_first_search.h:70-94: `operator++`. -/
def next (sp : Space N) (maxDepth : Nat) : Nat → It N → Res (It N)
  | 0, _ => .fuel
  | fuel + 1, it =>
    match it.stack with
    | [] => .ok it
    | (node, ancestors) :: stack => do
      let path := ancestors ++ [node]
      let g ← sp.goal node
      if g then pure ⟨stack, path⟩
      else if path.length > maxDepth then next sp maxDepth fuel ⟨stack, path⟩
      else do
        let children ← sp.expand node
        next sp maxDepth fuel ⟨(children.map (fun c => (c, path))).reverse ++ stack, path⟩

/-- depth_first_search.h:53-54. -/
def start (root : N) : It N := ⟨[(root, [])], []⟩

/-- depth_first_search.h:30. -/
def begin (sp : Space N) (maxDepth fuel : Nat) (root : N) : Res (It N) := next sp maxDepth fuel (start root)

/-- The plans visited by a for loop from `it` to `end()`. -/
def collect (sp : Space N) (maxDepth fuel : Nat) : Nat → It N → Res (List (List N))
  | 0, _ => .fuel
  | steps + 1, it =>
    if it.finished then .ok []
    else do
      let it' ← next sp maxDepth fuel it
      let rest ← collect sp maxDepth fuel steps it'
      pure (it.cur :: rest)

def run (sp : Space N) (maxDepth fuel : Nat) (root : N) : Res (List (List N)) := do
  let it ← begin sp maxDepth fuel root
  collect sp maxDepth fuel fuel it

end Dfs

/-! ## A* -/

namespace Astar

/-- a_star.h:77-81: `queue_` in order of insertion, `ancestors_`, and the number of pops so far. -/
structure It (N : Type) where
  queue : List (N × List N)
  cur : List N
  pops : Nat

/-- a_star.h:69-71. -/
def It.finished (it : It N) : Bool := it.queue.isEmpty

/-- `std::priority_queue::top` and `pop`. Which of several best elements is on top is up to the implementation and to the
history of the heap: `pick t q` is the position of the top of `q` at the `t`-th pop. -/
def pop (pick : Nat → List (N × List N) → Nat) (t : Nat) (q : List (N × List N)) : Option ((N × List N) × List (N × List N)) :=
  match q[pick t q]? with
  | some e => some (e, q.eraseIdx (pick t q))
  | none => none

/-- a_star.h:84-108: `operator++`. -/
def next (sp : Space N) (maxDepth : Nat) (pick : Nat → List (N × List N) → Nat) : Nat → It N → Res (It N)
  | 0, _ => .fuel
  | fuel + 1, it =>
    if it.queue.isEmpty then .ok it
    else match pop pick it.pops it.queue with
    | none => .ub
    | some ((node, ancestors), queue) => do
      let path := ancestors ++ [node]
      let g ← sp.goal node
      if g then pure ⟨queue, path, it.pops + 1⟩
      else if path.length > maxDepth then next sp maxDepth pick fuel ⟨queue, path, it.pops + 1⟩
      else do
        let children ← sp.expand node
        next sp maxDepth pick fuel ⟨queue ++ children.map (fun c => (c, path)), path, it.pops + 1⟩

/-- a_star.h:63-66. -/
def start (root : N) : It N := ⟨[(root, [])], [], 0⟩

def begin (sp : Space N) (maxDepth : Nat) (pick : Nat → List (N × List N) → Nat) (fuel : Nat) (root : N) : Res (It N) :=
  next sp maxDepth pick fuel (start root)

def collect (sp : Space N) (maxDepth : Nat) (pick : Nat → List (N × List N) → Nat) (fuel : Nat) :
    Nat → It N → Res (List (List N))
  | 0, _ => .fuel
  | steps + 1, it =>
    if it.finished then .ok []
    else do
      let it' ← next sp maxDepth pick fuel it
      let rest ← collect sp maxDepth pick fuel steps it'
      pure (it.cur :: rest)

def run (sp : Space N) (maxDepth : Nat) (pick : Nat → List (N × List N) → Nat) (fuel : Nat) (root : N) :
    Res (List (List N)) := do
  let it ← begin sp maxDepth pick fuel root
  collect sp maxDepth pick fuel fuel it

end Astar
end Symbolic
