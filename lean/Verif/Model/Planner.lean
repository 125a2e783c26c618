import Verif.Model.Pddl
import Verif.Model.Search

/-!
# Planner

Transcription of include/symbolic/planning/planner.h and src/planning/planner.cc. A node's cache of ancestors is a set of
nodes compared by their states (planner.cc:123-125, 250-253); it is modelled by the list of these states. Nodes are shared
pointers to immutable data; they are modelled by the data.
-/

namespace Symbolic

variable [StrHash]

/-- planner.cc:22-52. -/
structure PNode where
  state : State
  anc : List State
  action : Name
  depth : Nat
  deriving DecidableEq

namespace PNode

/-- planner.cc:38-42, 54-55. -/
def root (s : State) : PNode := ⟨s, [], [], 0⟩

/-- `Cache::count`. -/
def visited (anc : List State) (s : State) : Bool := anc.any (·.beq s)

/-- `Cache::insert`. -/
def insert (anc : List State) (s : State) : List State := if visited anc s then anc else anc ++ [s]

/-- planner.cc:57-71: a child node; the ancestors are shared with the previous sibling. -/
def make (parent : PNode) (sibling : Option PNode) (s : State) (action : Name) : PNode :=
  match sibling with
  | none => ⟨s, insert parent.anc parent.state, action, parent.depth + 1⟩
  | some sib => ⟨s, sib.anc, action, sib.depth⟩

end PNode

/-- planner.h:104-111: `it_action_` (the actions from there on), `it_param_` and `child_`. -/
structure NodeIt where
  acts : List Op
  param : Comb.Iter Obj
  child : Option PNode

namespace Pddl

/-- The options of an action's parameter generator. -/
def gen (P : Pddl) (op : Op) : List (List Obj) := paramTypes P.omap op.params

/-- planner.cc:168-180 (and 88-103, 192-205, 222-236): test the action at the iterator, build the child, and report
whether its state is new. -/
def tryChild (P : Pddl) (fuel : Nat) (parent : PNode) (it : NodeIt) : Res (NodeIt × Bool) :=
  match it.acts with
  | [] => .ub
  | op :: _ => do
    let v ← op.isValid P.omap parent.state it.param.comb
    if v then do
      let s ← P.applyOp fuel op it.param.comb parent.state
      let child := PNode.make parent it.child s (callOf op it.param.comb)
      pure ({ it with child := some child }, !(PNode.visited child.anc child.state))
    else pure (it, false)

/-- planner.cc:148-183: `operator++`; the first number bounds the loop. -/
def nodeNext (P : Pddl) (fuel : Nat) (parent : PNode) : Nat → NodeIt → Res NodeIt
  | 0, _ => .fuel
  | k + 1, it =>
    match it.acts with
    | [] => .ok it
    | op :: ops =>
      if it.param.idx = (Comb.size (P.gen op) : Int) then
        match ops with
        | [] => .ok { it with acts := [] }
        | op' :: rest => do
          let b ← Comb.begin Obj.dflt (P.gen op')
          if b.idx = (Comb.size (P.gen op') : Int) then nodeNext P fuel parent k ⟨op' :: rest, b, it.child⟩
          else do
            let r ← P.tryChild fuel parent ⟨op' :: rest, b, it.child⟩
            if r.2 then pure r.1 else nodeNext P fuel parent k r.1
      else do
        let q ← Comb.advance Obj.dflt (P.gen op) it.param 1
        if q.idx = (Comb.size (P.gen op) : Int) then nodeNext P fuel parent k ⟨op :: ops, q, it.child⟩
        else do
          let r ← P.tryChild fuel parent ⟨op :: ops, q, it.child⟩
          if r.2 then pure r.1 else nodeNext P fuel parent k r.1

/-- planner.cc:79-107: `begin()`. The iterator's constructor (142-146) looks at the first action. -/
def nodeBegin (P : Pddl) (fuel : Nat) (parent : PNode) (k : Nat) : Res NodeIt :=
  match P.actions with
  | [] => .ub
  | op :: ops => do
    let b ← Comb.begin Obj.dflt (P.gen op)
    if b.idx = (Comb.size (P.gen op) : Int) then P.nodeNext fuel parent k ⟨op :: ops, b, none⟩
    else do
      let r ← P.tryChild fuel parent ⟨op :: ops, b, none⟩
      if r.2 then pure r.1 else P.nodeNext fuel parent k r.1

/-- The rest of a range-for over a node's children: the children visited. `*it` is `child_`, a null node when none was
made yet. -/
def nodeLoop (P : Pddl) (fuel : Nat) (parent : PNode) (k : Nat) : Nat → NodeIt → Res (List PNode)
  | 0, _ => .fuel
  | m + 1, it =>
    match it.acts with
    | [] => .ok []
    | _ :: _ =>
      match it.child with
      | none => .ub
      | some c => do
        let it' ← P.nodeNext fuel parent k it
        let rest ← nodeLoop P fuel parent k m it'
        pure (c :: rest)

/-- Enough loop iterations (`Lemmas/Planner`). -/
def nodeBudget (P : Pddl) : Nat := (P.actions.map fun op => Comb.size (P.gen op) + 1).sum + 1

/-- `for (const Node& child : node)`. -/
def children (P : Pddl) (fuel : Nat) (parent : PNode) : Res (List PNode) := do
  let it ← P.nodeBegin fuel parent P.nodeBudget
  P.nodeLoop fuel parent P.nodeBudget P.nodeBudget it

/-- Nodes as the searches see them (planner.cc:115-117: a node is true iff its state satisfies the goal). -/
def space (P : Pddl) (fuel : Nat) : Space PNode := ⟨fun n => P.isGoalSatisfied n.state, P.children fuel⟩

/-- planner.h:68, 79-80: the planner's root. -/
def plannerRoot (P : Pddl) (fuel : Nat) (s : State) : Res PNode := do
  let s' ← P.consistentState fuel s
  pure (PNode.root s')

end Pddl
end Symbolic
