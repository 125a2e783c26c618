import Verif.Model.Planner

/-!
# Iterators over the children of planner nodes

Programs that hold variables of type `Planner::Node` and iterators over the children of nodes. A node is a shared pointer to
immutable data (planner.h, `impl_`), so a variable holds the data. An iterator holds its child (a node of its own) and its
position, but its parent only by reference (planner.h:104-107): it looks at the variable `begin()` was called on whenever it
moves. Copying a node without data is undefined here; in C++ only using it is.
-/

namespace Symbolic

variable [StrHash]

/-- A variable: not declared yet, declared, or out of scope. -/
inductive NodeSlot where
  | fresh
  | live (n : PNode)
  | dead

inductive NodeCmd where
  /-- `Node y = x;` or `y = x;` -/
  | copy (x y : Nat)
  /-- the end of the scope of `x` -/
  | destroy (x : Nat)
  /-- `auto i = x.begin();` -/
  | start (x i : Nat)
  /-- `auto j = i;` -/
  | copyIt (i j : Nat)
  /-- `++i;` -/
  | next (i : Nat)
  /-- `Node y = *i;` or `y = *i;` -/
  | deref (i y : Nat)
  /-- `i == x.end()`, where `i` was made by `x.begin()` -/
  | atEnd (i : Nat)
  /-- `x.action()`, `x.state()`, `x.depth()` -/
  | look (x : Nat)

/-- What a command shows. -/
inductive NodeOut where
  | node (n : PNode)
  | flag (b : Bool)
  deriving DecidableEq

/-- The variables, and the iterators with the variables their parents are in. -/
structure NodeStore where
  nodes : Nat → NodeSlot
  iters : Nat → Option (Nat × NodeIt)

/-- Declares or assigns a variable. -/
def NodeSlot.assign (nodes : Nat → NodeSlot) (y : Nat) (n : PNode) : Res (Nat → NodeSlot) :=
  match nodes y with
  | .dead => .ub
  | _ => .ok fun z => if z = y then .live n else nodes z

namespace Pddl

/-- One command. -/
def nodeStep (P : Pddl) (fuel : Nat) (st : NodeStore) : NodeCmd → Res (List NodeOut × NodeStore)
  | .copy x y => match st.nodes x with
    | .live n => do
      let nodes ← NodeSlot.assign st.nodes y n
      pure ([], { st with nodes := nodes })
    | _ => .ub
  | .destroy x => match st.nodes x with
    | .live _ => .ok ([], { st with nodes := fun z => if z = x then .dead else st.nodes z })
    | _ => .ub
  -- planner.cc:79-107, 142-146
  | .start x i => match st.nodes x with
    | .live n => do
      let it ← P.nodeBegin fuel n P.nodeBudget
      pure ([], { st with iters := fun j => if j = i then some (x, it) else st.iters j })
    | _ => .ub
  | .copyIt i j => match st.iters i with
    | some e => .ok ([], { st with iters := fun k => if k = j then some e else st.iters k })
    | none => .ub
  -- planner.cc:148-183: `parent_` is what is in the variable now
  | .next i => match st.iters i with
    | some (x, it) => match st.nodes x with
      | .live n => do
        let it' ← P.nodeNext fuel n P.nodeBudget it
        pure ([], { st with iters := fun j => if j = i then some (x, it') else st.iters j })
      | _ => .ub
    | none => .ub
  -- planner.h:101
  | .deref i y => match st.iters i with
    | some (_, it) => match it.child with
      | some c => do
        let nodes ← NodeSlot.assign st.nodes y c
        pure ([], { st with nodes := nodes })
      | none => .ub
    | none => .ub
  -- planner.cc:109-113, 245-247
  | .atEnd i => match st.iters i with
    | some (x, it) => match st.nodes x with
      | .live _ => .ok ([.flag it.acts.isEmpty], st)
      | _ => .ub
    | none => .ub
  | .look x => match st.nodes x with
    | .live n => .ok ([.node n], st)
    | _ => .ub

/-- What a program shows. -/
def nodeProg (P : Pddl) (fuel : Nat) : List NodeCmd → NodeStore → Res (List NodeOut)
  | [], _ => .ok []
  | c :: cs, st => do
    let r ← P.nodeStep fuel st c
    let outs ← nodeProg P fuel cs r.2
    pure (r.1 ++ outs)

/-- A program starts with the root of a planner in variable 0. -/
def nodeMain (P : Pddl) (fuel : Nat) (cs : List NodeCmd) (root : PNode) : Res (List NodeOut) :=
  P.nodeProg fuel cs ⟨fun x => if x = 0 then .live root else .fresh, fun _ => none⟩

end Pddl

end Symbolic
