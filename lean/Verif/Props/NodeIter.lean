import Verif.Spec.NodeIter
import Verif.Lemmas.Res
import Verif.Examples.Demo

/-!
# C110: iterators over the children of nodes
-/

namespace Symbolic

section

variable [StrHash] {P : Pddl} {fuel : Nat}

/-- The iterator has the position: the rest of a range-for visits these children. A current child is there also when the parent is
gone. -/
def ItAtPos (P : Pddl) (fuel : Nat) (nodes : Nat → NodeSlot) (it : Nat × NodeIt) (p : ChildPos) : Prop :=
  it.1 = p.home ∧
  (p.kept = true → ∃ n m, nodes p.home = .live n ∧ P.nodeLoop fuel n P.nodeBudget m it.2 = .ok p.rest) ∧
  ∀ c cs, p.rest = c :: cs → it.2.child = some c

/-- The stores agree. -/
structure SameNodes (P : Pddl) (fuel : Nat) (st : NodeStore) (ps : PosStore) : Prop where
  nodes : st.nodes = ps.nodes
  iters : ∀ i p, ps.iters i = some p → ∃ it, st.iters i = some it ∧ ItAtPos P fuel st.nodes it p

theorem nodeLoop_head {n : PNode} {k m : Nat} {it : NodeIt} {c : PNode} {cs : List PNode}
    (h : P.nodeLoop fuel n k m it = .ok (c :: cs)) : it.child = some c := by
  cases m with
  | zero => simp [Pddl.nodeLoop] at h
  | succ m =>
    unfold Pddl.nodeLoop at h
    split at h
    · simp at h
    · split at h
      · simp at h
      · rename_i c' hc
        obtain ⟨it', -, h⟩ := Res.bind_eq_ok.1 h
        obtain ⟨r, -, h⟩ := Res.bind_eq_ok.1 h
        simp only [Res.pure_eq, Res.ok.injEq, List.cons.injEq] at h
        rw [hc, h.1]

theorem nodeLoop_end {n : PNode} {k m : Nat} {it : NodeIt} {cs : List PNode}
    (h : P.nodeLoop fuel n k m it = .ok cs) : it.acts.isEmpty = cs.isEmpty := by
  cases m with
  | zero => simp [Pddl.nodeLoop] at h
  | succ m =>
    unfold Pddl.nodeLoop at h
    split at h
    · rename_i ha
      simp only [Res.ok.injEq] at h
      rw [ha, ← h]
      rfl
    · rename_i ha
      split at h
      · simp at h
      · obtain ⟨it', -, h⟩ := Res.bind_eq_ok.1 h
        obtain ⟨r, -, h⟩ := Res.bind_eq_ok.1 h
        simp only [Res.pure_eq, Res.ok.injEq] at h
        rw [ha, ← h]
        rfl

theorem nodeLoop_next {n : PNode} {k m : Nat} {it : NodeIt} {cs : List PNode} (hk : 0 < k)
    (h : P.nodeLoop fuel n k m it = .ok cs) :
    ∃ it' m', P.nodeNext fuel n k it = .ok it' ∧ P.nodeLoop fuel n k m' it' = .ok cs.tail := by
  cases m with
  | zero => simp [Pddl.nodeLoop] at h
  | succ m =>
    have h0 := h
    unfold Pddl.nodeLoop at h
    split at h
    · rename_i ha
      simp only [Res.ok.injEq] at h
      subst h
      obtain ⟨k, rfl⟩ : ∃ j, k = j + 1 := ⟨k - 1, by omega⟩
      exact ⟨it, m + 1, by rw [Pddl.nodeNext, ha], h0⟩
    · split at h
      · simp at h
      · obtain ⟨it', h1, h⟩ := Res.bind_eq_ok.1 h
        obtain ⟨r, h2, h⟩ := Res.bind_eq_ok.1 h
        simp only [Res.pure_eq, Res.ok.injEq] at h
        subst h
        exact ⟨it', m, h1, h2⟩

theorem nodeBudget_pos : 0 < P.nodeBudget := by
  unfold Pddl.nodeBudget
  omega

/-- Setting a variable keeps the agreement. -/
theorem SameNodes.set {st : NodeStore} {ps : PosStore} (h : SameNodes P fuel st ps) (y : Nat) (v : NodeSlot) :
    SameNodes P fuel ⟨fun z => if z = y then v else st.nodes z, st.iters⟩ (ps.set y v) := by
  refine ⟨by simp [PosStore.set, h.nodes], fun i p hp => ?_⟩
  simp only [PosStore.set, Option.map_eq_some_iff] at hp
  obtain ⟨q, hq, rfl⟩ := hp
  obtain ⟨it, h1, h2, h3, h4⟩ := h.iters i q hq
  refine ⟨it, h1, ?_⟩
  split
  · exact ⟨h2, by simp, h4⟩
  · rename_i hy
    exact ⟨h2, fun hk => by obtain ⟨n, m, g1, g2⟩ := h3 hk; exact ⟨n, m, by simp [hy, g1], g2⟩, h4⟩

/-- Setting an iterator keeps the agreement. -/
theorem SameNodes.setIter {st : NodeStore} {ps : PosStore} (h : SameNodes P fuel st ps) (i : Nat) {it : Nat × NodeIt}
    {p : ChildPos} (hp : ItAtPos P fuel st.nodes it p) :
    SameNodes P fuel { st with iters := fun j => if j = i then some it else st.iters j }
      { ps with iters := fun j => if j = i then some p else ps.iters j } := by
  refine ⟨h.nodes, fun j q hq => ?_⟩
  simp only at hq ⊢
  split at hq
  · rename_i e
    simp only [Option.some.injEq] at hq
    subst hq
    exact ⟨it, by simp [e], hp⟩
  · rename_i e
    obtain ⟨it', h1, h2⟩ := h.iters j q hq
    exact ⟨it', by simp [e, h1], h2⟩

theorem nodeStep_pos {st : NodeStore} {ps : PosStore} (h : SameNodes P fuel st ps) (c : NodeCmd) {outs : List NodeOut} {ps' : PosStore}
    (hs : posStep (P.children fuel) ps c = some (outs, ps')) :
    ∃ st', P.nodeStep fuel st c = .ok (outs, st') ∧ SameNodes P fuel st' ps' := by
  have hn := h.nodes
  cases c with
  | copy x y =>
    simp only [posStep] at hs
    simp only [Pddl.nodeStep, hn]
    split at hs
    · simp at hs
    · rename_i n hx hy
      simp only [Option.some.injEq, Prod.mk.injEq] at hs
      obtain ⟨rfl, rfl⟩ := hs
      rw [hx]
      have : NodeSlot.assign ps.nodes y n = .ok fun z => if z = y then .live n else ps.nodes z := by
        unfold NodeSlot.assign
        split
        · rename_i hd
          exact absurd hd (by simpa using hy)
        · rfl
      simp only [this, Res.bind_ok, Res.pure_eq, Res.ok.injEq, Prod.mk.injEq, true_and]
      refine ⟨_, rfl, ?_⟩
      have := h.set y (.live n)
      rw [hn] at this
      exact this
    · simp at hs
  | destroy x =>
    simp only [posStep] at hs
    simp only [Pddl.nodeStep, hn]
    split at hs
    · rename_i n hx
      simp only [Option.some.injEq, Prod.mk.injEq] at hs
      obtain ⟨rfl, rfl⟩ := hs
      rw [hx]
      refine ⟨_, rfl, ?_⟩
      have := h.set x .dead
      rw [hn] at this
      exact this
    · simp at hs
  | start x i =>
    simp only [posStep] at hs
    simp only [Pddl.nodeStep, hn]
    split at hs
    · rename_i n hx
      split at hs
      · rename_i cs hc
        simp only [Option.some.injEq, Prod.mk.injEq] at hs
        obtain ⟨rfl, rfl⟩ := hs
        unfold Pddl.children at hc
        obtain ⟨it, h1, h2⟩ := Res.bind_eq_ok.1 hc
        rw [hx]
        simp only [h1, Res.bind_ok, Res.pure_eq, Res.ok.injEq, Prod.mk.injEq, true_and]
        have := h.setIter i (it := (x, it)) (p := ⟨x, true, cs⟩) ⟨rfl, fun _ => ⟨n, _, by rw [hn]; exact hx, h2⟩,
          fun c cs e => nodeLoop_head (by rw [h2]; exact congrArg _ e)⟩
        rw [hn] at this
        exact ⟨_, rfl, this⟩
      · simp at hs
    · simp at hs
  | copyIt i j =>
    simp only [posStep] at hs
    simp only [Pddl.nodeStep]
    split at hs
    · rename_i p hp
      simp only [Option.some.injEq, Prod.mk.injEq] at hs
      obtain ⟨rfl, rfl⟩ := hs
      obtain ⟨it, h1, h2⟩ := h.iters i p hp
      rw [h1]
      exact ⟨_, rfl, h.setIter j h2⟩
    · simp at hs
  | next i =>
    simp only [posStep] at hs
    simp only [Pddl.nodeStep]
    split at hs
    · rename_i x rest hp
      simp only [Option.some.injEq, Prod.mk.injEq] at hs
      obtain ⟨rfl, rfl⟩ := hs
      obtain ⟨⟨x', it⟩, h1, rfl, h3, -⟩ := h.iters i _ hp
      obtain ⟨n, m, g1, g2⟩ := h3 rfl
      obtain ⟨it', m', g3, g4⟩ := nodeLoop_next nodeBudget_pos g2
      rw [h1]
      simp only at g1 ⊢
      rw [g1]
      simp only at g3
      simp only [g3, Res.bind_ok, Res.pure_eq, Res.ok.injEq, Prod.mk.injEq, true_and]
      exact ⟨_, rfl, h.setIter i (it := (x', it')) ⟨rfl, fun _ => ⟨n, m', g1, g4⟩,
        fun c cs e => nodeLoop_head (by rw [g4]; exact congrArg _ e)⟩⟩
    · simp at hs
  | deref i y =>
    simp only [posStep] at hs
    simp only [Pddl.nodeStep]
    split at hs
    · simp at hs
    · rename_i home kept c cs hp hy
      simp only [Option.some.injEq, Prod.mk.injEq] at hs
      obtain ⟨rfl, rfl⟩ := hs
      obtain ⟨⟨x', it⟩, h1, -, -, h4⟩ := h.iters i _ hp
      rw [h1]
      simp only
      rw [h4 c cs rfl]
      have : NodeSlot.assign st.nodes y c = .ok fun z => if z = y then .live c else st.nodes z := by
        unfold NodeSlot.assign
        split
        · rename_i hd
          rw [hn] at hd
          exact absurd hd (by simpa using hy)
        · rfl
      simp only [this, Res.bind_ok, Res.pure_eq, Res.ok.injEq, Prod.mk.injEq, true_and]
      exact ⟨_, rfl, h.set y (.live c)⟩
    · simp at hs
  | atEnd i =>
    simp only [posStep] at hs
    simp only [Pddl.nodeStep]
    split at hs
    · rename_i x rest hp
      simp only [Option.some.injEq, Prod.mk.injEq] at hs
      obtain ⟨rfl, rfl⟩ := hs
      obtain ⟨⟨x', it⟩, h1, rfl, h3, -⟩ := h.iters i _ hp
      obtain ⟨n, m, g1, g2⟩ := h3 rfl
      rw [h1]
      simp only at g1 ⊢
      rw [g1]
      refine ⟨st, ?_, h⟩
      simp only at g2
      simp only [nodeLoop_end g2]
    · simp at hs
  | look x =>
    simp only [posStep] at hs
    simp only [Pddl.nodeStep, hn]
    split at hs
    · rename_i n hx
      simp only [Option.some.injEq, Prod.mk.injEq] at hs
      obtain ⟨rfl, rfl⟩ := hs
      rw [hx]
      exact ⟨st, rfl, h⟩
    · simp at hs

/-- **C110, partial.** A program with any number of iterators and copies of them, used in any order, sees the children that
range-for loops over the nodes see, each iterator at its own place. A current child can be used also when its parent is gone.

Missing for the full claim: no iterator may be moved after the variable it was made from was assigned or went out of scope
(`C110_assigned_refuted`, `C110_scope_refuted`). -/
theorem C110_programs_partial (cs : List NodeCmd) (root : PNode) (outs : List NodeOut)
    (h : posMain (P.children fuel) cs root = some outs) : P.nodeMain fuel cs root = .ok outs := by
  have key : ∀ (cs : List NodeCmd) (st : NodeStore) (ps : PosStore) (outs : List NodeOut), SameNodes P fuel st ps →
      posProg (P.children fuel) cs ps = some outs → P.nodeProg fuel cs st = .ok outs := by
    intro cs
    induction cs with
    | nil =>
      intro st ps outs _ h
      simp only [posProg, Option.some.injEq] at h
      subst h
      rfl
    | cons c cs ih =>
      intro st ps outs hs h
      simp only [posProg, Option.bind_eq_bind, Option.bind_eq_some_iff, Option.pure_def, Option.some.injEq] at h
      obtain ⟨⟨o1, ps'⟩, h1, o2, h2, rfl⟩ := h
      obtain ⟨st', g1, g2⟩ := nodeStep_pos hs c h1
      simp only [Pddl.nodeProg, g1, Res.bind_ok, ih st' ps' o2 g2 h2, Res.pure_eq]
  refine key cs _ _ outs ⟨rfl, ?_⟩ h
  intro i p hp
  simp at hp

/-- **C110, refuted** for every program that moves an iterator after the variable it was made from went out of scope: undefined. -/
theorem C110_scope_refuted (cs : List NodeCmd) (root : PNode) (kids : List PNode) (h : P.children fuel root = .ok kids) :
    P.nodeMain fuel (.copy 0 1 :: .start 1 0 :: .destroy 1 :: .next 0 :: cs) root = .ub := by
  unfold Pddl.children at h
  obtain ⟨it, h1, -⟩ := Res.bind_eq_ok.1 h
  simp [Pddl.nodeMain, Pddl.nodeProg, Pddl.nodeStep, NodeSlot.assign, h1, Res.bind_ok]

end

section
open Demo
attribute [local instance] lenHash

def iterRoot : PNode := PNode.root P.initial

/-- Two iterators in turn, the second a copy of the first; the node they came from is gone when the last one is looked at. -/
def twoIters : List NodeCmd := [.copy 0 1, .start 1 0, .copyIt 0 1, .next 1, .deref 1 2, .look 2, .atEnd 1, .deref 0 3, .destroy 1,
  .deref 0 4, .look 4, .look 3]

/-- The children of the root. -/
def demoKids : List PNode := get (P.children 5 iterRoot) (by decide +kernel)
theorem demoKids_eq : P.children 5 iterRoot = .ok demoKids := get_eq _ _

example : demoKids.map PNode.action = [n!"pick(a)", n!"pick(b)"] := by decide +kernel

/-- What the program shows follows from the children of the root alone. -/
example : ∃ c d, demoKids = [c, d] ∧ P.nodeMain 5 twoIters iterRoot = .ok [.node d, .flag false, .node c, .node c] := by
  have h : ∃ c d, demoKids = [c, d] := List.length_eq_two.1 (by decide +kernel)
  obtain ⟨c, d, h⟩ := h
  refine ⟨c, d, h, C110_programs_partial _ _ _ ?_⟩
  simp [posMain, twoIters, posProg, posStep, demoKids_eq, h, PosStore.set]

/-- **C110, refuted** for iterators whose variable is assigned: `n = *it; ++it;` shows a node that is no child of the node that
`begin()` was called on: it is two actions away, although its depth is one. -/
theorem C110_assigned_refuted : ∃ n, P.nodeMain 5 [.start 0 0, .deref 0 0, .next 0, .deref 0 1, .look 1] iterRoot = .ok [.node n] ∧
    n ∉ demoKids ∧ n.depth = 1 ∧ n.action = n!"pick(b)" ∧
    P.applyActions 5 iterRoot.state [n!"pick(a)", n!"pick(b)"] = .ok n.state := by
  refine ⟨⟨State.ofList [inhand a, inhand b, busyA a, busyA b], [P.initial], n!"pick(b)", 1⟩, by decide +kernel, ?_, rfl, rfl,
    by decide +kernel⟩
  have : ∀ m ∈ demoKids, m.state ≠ State.ofList [inhand a, inhand b, busyA a, busyA b] := by decide +kernel
  exact fun h => this _ h rfl

end

end Symbolic
