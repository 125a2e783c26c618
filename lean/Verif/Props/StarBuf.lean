import Verif.Props.CompleteBuf
import Verif.Props.ReturnedStar

/-!
# C48, C49: depth-first search and A* over the planner, with the argument buffers

For any axioms, also those that trigger themselves, after any calls, from any state.
-/

namespace Symbolic

section
variable [StrHash] (P : Pddl) (ids : Name → Nat) {fuel : Nat}

theorem plannerRootB_byValue {s s' : State} (hs : (P.consistentStateB fuel s Store.init).1 = .ok s') :
    ByValue (P.plannerRootB fuel s) (.ok (PNode.root s')) := by
  have := (consistentFixB_det (m := P.omap) (axs := P.axioms) (fuel := fuel) fuel s).byValue
  have h' : (Pddl.consistentFixB P.omap P.axioms fuel fuel s Store.init).1 = .ok s' := hs
  rw [h'] at this
  exact this.andThen (.pure _)

theorem spaceB_byValue (n : PNode) : ByValue ((P.spaceB ids fuel).expand n) ((P.spaceB ids fuel).fresh.expand n) :=
  (childrenB_det P ids n).byValue

/-- **C48 (buffers), partial.** If a depth-first search over `Planner` returns, after any calls: with the plans it visited and at most
one more, these are all paths of at most `max_depth` steps along the children that a planner gives right after construction, from the
consistent state, whose last node is the first to satisfy the goal. The other one, if any, leads through first children only. -/
theorem C48_buffers_partial (fuel D : Nat) (s s' : State) (hs : (P.consistentStateB fuel s Store.init).1 = .ok s')
    (before : List Pddl.AnyCall) (l : List (List PNode))
    (h : (P.answerB ids fuel (.dfs D s) (P.runAny ids fuel before Store.init)).1 = .ok (.plans l)) :
    ∃ lost : List (List PNode), lost.length ≤ 1 ∧
      (∀ p, p ∈ l ++ lost ↔ PlanPath (fun n c => ∃ cs, (P.childrenB ids fuel n Store.init).1 = .ok cs ∧ c ∈ cs)
        (fun n => P.isGoalSatisfied n.state = .ok true) D (.root s') p) ∧
      ∀ p, p ∈ lost ↔ PlanPath (fun n c => ∃ cs, (P.childrenB ids fuel n Store.init).1 = .ok (c :: cs))
        (fun n => P.isGoalSatisfied n.state = .ok true) D (.root s') p := by
  have hi := runAny_inv P ids fuel before BufInv.init
  have hrun : Dfs.run (P.spaceB ids fuel).fresh D fuel (PNode.root s') = .ok l := by
    have hv := ((plannerRootB_byValue P hs).andThen (f := Dfs.runB (P.spaceB ids fuel) D fuel)
      ((Dfs.nextB_val (d := D) (sv := (P.spaceB ids fuel).fresh) rfl (spaceB_byValue P ids) fuel (Dfs.start _)).bind fun it =>
        Dfs.collectB_val (d := D) rfl (spaceB_byValue P ids) fuel fuel it)).bind fun l => ByValue.pure (Pddl.Answer.plans l)
    have h := ((hv _ hi).1).symm.trans h
    obtain ⟨l', h1, h2⟩ := Res.bind_eq_ok.1 h
    cases h2
    exact h1
  obtain ⟨lost, h1, h2, h3⟩ := C48_dfs_returned_partial _ D _ fuel l hrun
  exact ⟨lost, h2, h1, h3⟩

/-- **C49 (buffers), partial.** The same for A*, for every way the queue breaks ties; and with a comparison that ranks no plan before
what leads to it, no plan comes after one of lower priority, the one that is lost last. -/
theorem C49_buffers_partial (fuel D : Nat) (s s' : State) (hs : (P.consistentStateB fuel s Store.init).1 = .ok s')
    (worse : PNode × List PNode → PNode × List PNode → Bool) (pick : Nat → List (PNode × List PNode) → Nat) (hpick : PickOk worse pick)
    (before : List Pddl.AnyCall) (l : List (List PNode))
    (h : (P.answerB ids fuel (.astar D pick s) (P.runAny ids fuel before Store.init)).1 = .ok (.plans l)) :
    ∃ lost : List (List PNode), lost.length ≤ 1 ∧
      (∀ p, p ∈ l ++ lost ↔ PlanPath (fun n c => ∃ cs, (P.childrenB ids fuel n Store.init).1 = .ok cs ∧ c ∈ cs)
        (fun n => P.isGoalSatisfied n.state = .ok true) D (.root s') p) ∧
      (AdmissibleOrder (PlanPath (fun n c => ∃ cs, (P.childrenB ids fuel n Store.init).1 = .ok cs ∧ c ∈ cs)
        (fun n => P.isGoalSatisfied n.state = .ok true) D (.root s')) worse →
        (l ++ lost).Pairwise fun p q => ¬ WorsePlan worse p q) := by
  have hi := runAny_inv P ids fuel before BufInv.init
  have hrun : Astar.run (P.spaceB ids fuel).fresh D pick fuel (PNode.root s') = .ok l := by
    have hv := ((plannerRootB_byValue P hs).andThen (f := Astar.runB (P.spaceB ids fuel) D pick fuel)
      ((Astar.nextB_val (d := D) (sv := (P.spaceB ids fuel).fresh) rfl (spaceB_byValue P ids) pick fuel (Astar.start _)).bind fun it =>
        Astar.collectB_val (d := D) rfl (spaceB_byValue P ids) pick fuel fuel it)).bind fun l => ByValue.pure (Pddl.Answer.plans l)
    have h := ((hv _ hi).1).symm.trans h
    obtain ⟨l', h1, h2⟩ := Res.bind_eq_ok.1 h
    cases h2
    exact h1
  exact C49_astar_returned_partial _ D _ worse pick hpick fuel l hrun
end

namespace Buffers
open Demo
attribute [local instance] lenHash

/-- In the domain whose axiom triggers itself, both searches return with a plan, and the initial state is consistent. -/
example : (plansOf (swirlP.answerB (fun _ => 7) 30 (.dfs 1 swirlP.initial) Store.init).1).map List.length = some 1 ∧
    (plansOf (swirlP.answerB (fun _ => 7) 30 (.astar 1 (fun _ _ => 0) swirlP.initial) Store.init).1).map List.length = some 1 ∧
    (swirlP.consistentStateB 30 swirlP.initial Store.init).1 = .ok swirlP.initial := by decide +kernel
end Buffers

end Symbolic
