import Verif.Model.NodeIter

/-!
# Specification: iterators over children are positions in lists

An iterator is the list of the children that are still to come, its current one first. It may be moved as long as the variable
that it was made from is left alone.
-/

namespace Symbolic

variable [StrHash]

/-- The children to come, the variable the iterator was made from, and whether this variable was left alone. -/
structure ChildPos where
  home : Nat
  kept : Bool
  rest : List PNode

structure PosStore where
  nodes : Nat → NodeSlot
  iters : Nat → Option ChildPos

/-- A variable gets another value: iterators that were made from it must not be moved any more. -/
def PosStore.set (st : PosStore) (y : Nat) (v : NodeSlot) : PosStore where
  nodes := fun z => if z = y then v else st.nodes z
  iters := fun i => (st.iters i).map fun p => if p.home = y then { p with kept := false } else p

/-- One command, for `expand`: the children a range-for over a node visits. `none` if the command must not be used. -/
def posStep (expand : PNode → Res (List PNode)) (st : PosStore) : NodeCmd → Option (List NodeOut × PosStore)
  | .copy x y => match st.nodes x, st.nodes y with
    | .live _, .dead => none
    | .live n, _ => some ([], st.set y (.live n))
    | _, _ => none
  | .destroy x => match st.nodes x with
    | .live _ => some ([], st.set x .dead)
    | _ => none
  | .start x i => match st.nodes x with
    | .live n => match expand n with
      | .ok cs => some ([], { st with iters := fun j => if j = i then some ⟨x, true, cs⟩ else st.iters j })
      | _ => none
    | _ => none
  | .copyIt i j => match st.iters i with
    | some p => some ([], { st with iters := fun k => if k = j then some p else st.iters k })
    | none => none
  | .next i => match st.iters i with
    | some ⟨x, true, rest⟩ =>
      some ([], { st with iters := fun j => if j = i then some ⟨x, true, rest.tail⟩ else st.iters j })
    | _ => none
  | .deref i y => match st.iters i, st.nodes y with
    | _, .dead => none
    | some ⟨_, _, c :: _⟩, _ => some ([], st.set y (.live c))
    | _, _ => none
  | .atEnd i => match st.iters i with
    | some ⟨_, true, rest⟩ => some ([.flag rest.isEmpty], st)
    | _ => none
  | .look x => match st.nodes x with
    | .live n => some ([.node n], st)
    | _ => none

def posProg (expand : PNode → Res (List PNode)) : List NodeCmd → PosStore → Option (List NodeOut)
  | [], _ => some []
  | c :: cs, st => do
    let r ← posStep expand st c
    let outs ← posProg expand cs r.2
    pure (r.1 ++ outs)

def posMain (expand : PNode → Res (List PNode)) (cs : List NodeCmd) (root : PNode) : Option (List NodeOut) :=
  posProg expand cs ⟨fun x => if x = 0 then .live root else .fresh, fun _ => none⟩

end Symbolic
