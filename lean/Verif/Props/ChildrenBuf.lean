import Verif.Lemmas.PlannerBuf
import Verif.Props.PlansBuf

/-!
# C43: the children of a planner node, with the argument buffers
-/

namespace Symbolic

section
variable [StrHash] (t : Ptree) (b : Bool) (k : Nat) (P : Pddl) (hP : Pddl.make t b k = .ok P)
  (hnd : ((t.constants ++ t.objects).map Obj.name).Nodup) (hops : Callable t)
  (hclean : ∀ o ∈ t.constants ++ t.objects, CleanArg o.name) (ids : Name → Nat) (fuel : Nat) (before : List Pddl.AnyCall)
include hP hnd hops hclean

/-- **C43 (buffers).** After any calls, for any axioms: if a range-for over a node's children returns, it visits one child for
each instance that `IsValidAction` accepts and whose `NextState`, as right after construction, is neither the node's state nor an
ancestor's; in the order of the actions and their arguments. -/
theorem C43_buffers (n : PNode) (cs : List PNode) (hact : P.actions ≠ [])
    (h : (P.childrenB ids fuel n (P.runAny ids fuel before Store.init)).1 = .ok cs) :
    ∃ l anc, Offspring (fun a : Op × List Obj => P.isValidAction n.state (Pddl.callOf a.1 a.2) = .ok true)
        (fun a => P.isValidAction n.state (Pddl.callOf a.1 a.2) = .ok false)
        (fun a s => (P.nextStateB ids fuel n.state (Pddl.callOf a.1 a.2) Store.init).1 = .ok s)
        (fun s => s = n.state ∨ s ∈ n.anc) (instances P P.actions) l ∧
      (∀ s, s ∈ anc ↔ s = n.state ∨ s ∈ n.anc) ∧
      cs = l.map fun c => ⟨c.2, anc, Pddl.callOf c.1.1 c.1.2, n.depth + 1⟩ := by
  rw [(childrenB_fresh ids n _ (runAny_inv P ids fuel before BufInv.init)).1] at h
  have B := Pddl.built hP
  have hne : ∀ op ∈ P.actions, ∀ o ∈ P.gen op, o ≠ [] := by
    intro op _; unfold Pddl.gen; rw [B.omap]; exact paramTypes_ne (ObjMap.nonEmpty_create _) _
  rw [Pddl.children_eqW hne hact] at h
  obtain ⟨l, h1, h2⟩ := scanAllW_ok h
  refine ⟨l, PNode.insert n.anc n.state, h1.congr ?_ ?_ ?_, fun s => mem_insert, h2⟩
  · intro a ha h
    rw [Pddl.isValidAction, parse_instance t b k P hP hnd hops hclean ha]; exact h
  · intro a ha h
    rw [Pddl.isValidAction, parse_instance t b k P hP hnd hops hclean ha]; exact h
  · intro a ha s h
    show P.nextFresh ids fuel n.state _ = _
    rw [nextFresh_parse, parse_instance t b k P hP hnd hops hclean ha]; exact h

/-- **C43 (buffers).** The range-for returns whenever `IsValidAction` and `NextState` return for the instances. -/
theorem C43_buffers_return (n : PNode) (hact : P.actions ≠ []) (l : List ((Op × List Obj) × State))
    (h : Offspring (fun a : Op × List Obj => P.isValidAction n.state (Pddl.callOf a.1 a.2) = .ok true)
        (fun a => P.isValidAction n.state (Pddl.callOf a.1 a.2) = .ok false)
        (fun a s => (P.nextStateB ids fuel n.state (Pddl.callOf a.1 a.2) Store.init).1 = .ok s)
        (fun s => s = n.state ∨ s ∈ n.anc) (instances P P.actions) l) :
    ∃ cs, (P.childrenB ids fuel n (P.runAny ids fuel before Store.init)).1 = .ok cs ∧ cs.map PNode.state = l.map Prod.snd ∧
      cs.map PNode.action = l.map fun c => Pddl.callOf c.1.1 c.1.2 := by
  rw [(childrenB_fresh ids n _ (runAny_inv P ids fuel before BufInv.init)).1]
  have B := Pddl.built hP
  have hne : ∀ op ∈ P.actions, ∀ o ∈ P.gen op, o ≠ [] := by
    intro op _; unfold Pddl.gen; rw [B.omap]; exact paramTypes_ne (ObjMap.nonEmpty_create _) _
  rw [Pddl.children_eqW hne hact]
  refine ⟨_, scanAllW_of (h.congr ?_ ?_ ?_), by simp [childNode, Function.comp_def], by simp [childNode, Function.comp_def]⟩
  · intro a ha h
    rw [Pddl.isValidAction, parse_instance t b k P hP hnd hops hclean ha] at h; exact h
  · intro a ha h
    rw [Pddl.isValidAction, parse_instance t b k P hP hnd hops hclean ha] at h; exact h
  · intro a ha s h
    have h : P.nextFresh ids fuel n.state (Pddl.callOf a.1 a.2) = .ok s := h
    rw [nextFresh_parse, parse_instance t b k P hP hnd hops hclean ha] at h; exact h
end

namespace Buffers
open Demo
attribute [local instance] lenHash

/-- The root of the domain whose axiom triggers itself has 18 children, after a call of `NextState`. -/
example : ((do
    let cs ← swirlP.childrenB (fun _ => 7) 30 (.root swirlP.initial)
    pure (cs.length, (cs.map PNode.action).take 2) : BufM _)
      (swirlP.runAny (fun _ => 7) 30 [.next swirlP.initial n!"put(a, b, a)"] Store.init)).1 =
    .ok (18, [n!"put(a, table, table)", n!"put(a, table, a)"]) := by decide +kernel
end Buffers

end Symbolic
