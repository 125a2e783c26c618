import Verif.Model.Planner

/-!
# Stepping back over the children of a planner node

`operator--` of `Planner::Node::iterator` (src/planning/planner.cc:185-240) and `end()` (109-113). As in Model/Planner, `it_action_`
is the list of actions from there on, so that the previous action is found by the length of this list.
-/

namespace Symbolic

variable [StrHash]

namespace Pddl

/-- planner.cc:109-113: `end()`. The iterator's constructor (142-146) looks at the first action. -/
def nodeEnd (P : Pddl) : Res NodeIt :=
  match P.actions with
  | [] => .ub
  | op :: _ => do
    let b ← Comb.begin Obj.dflt (P.gen op)
    pure ⟨[], b, none⟩

/-- planner.cc:187-190 and 213-217: `--it_action_`, and the last arguments of the action found there. -/
def prevAction (P : Pddl) (it : NodeIt) : Res NodeIt :=
  match P.actions.drop (P.actions.length - it.acts.length - 1) with
  | [] => .ub
  | op :: ops => do
    let e ← Comb.endIt Obj.dflt (P.gen op)
    let q ← Comb.advance Obj.dflt (P.gen op) e (-1)
    pure ⟨op :: ops, q, it.child⟩

/-- planner.cc:208-237: the loop of `operator--`; the first number bounds it. -/
def prevLoop (P : Pddl) (fuel : Nat) (parent : PNode) : Nat → NodeIt → Res NodeIt
  | 0, _ => .fuel
  | k + 1, it =>
    match it.acts with
    | [] => .ub
    | op :: _ =>
      if it.acts.length = P.actions.length ∧ it.param.idx = 0 then .ok it
      else do
        let it' ← (if it.param.idx = 0 then P.prevAction it else do
          let q ← Comb.advance Obj.dflt (P.gen op) it.param (-1)
          pure { it with param := q })
        let r ← P.tryChild fuel parent it'
        if r.2 then pure r.1 else prevLoop P fuel parent k r.1

/-- planner.cc:185-240: `operator--`. -/
def nodePrev (P : Pddl) (fuel : Nat) (parent : PNode) (k : Nat) (it : NodeIt) : Res NodeIt :=
  match it.acts with
  | [] => do
    let it' ← P.prevAction it
    let r ← P.tryChild fuel parent it'
    if r.2 then pure r.1 else P.prevLoop fuel parent k r.1
  | _ :: _ => P.prevLoop fuel parent k it

/-- `m` times `--it; visit(*it)`: what is visited; a null node is `none`. -/
def nodeBackLoop (P : Pddl) (fuel : Nat) (parent : PNode) (k : Nat) : Nat → NodeIt → Res (List (Option PNode))
  | 0, _ => .ok []
  | m + 1, it => do
    let it' ← P.nodePrev fuel parent k it
    let rest ← nodeBackLoop P fuel parent k m it'
    pure (it'.child :: rest)

/-- `auto it = node.end();` and `m` steps back. -/
def stepsBack (P : Pddl) (fuel : Nat) (parent : PNode) (k m : Nat) : Res (List (Option PNode)) := do
  let e ← P.nodeEnd
  P.nodeBackLoop fuel parent k m e

end Pddl
end Symbolic
