import Verif.Lemmas.Planner
import Verif.Props.Plans

/-!
# C43: the children of a planner node
-/

namespace Symbolic

theorem visited_iff [StrHash] {anc : List State} {s : State} : PNode.visited anc s = true ↔ s ∈ anc := by
  unfold PNode.visited
  rw [List.any_eq_true]
  constructor
  · rintro ⟨x, hx, h⟩; rw [State.beq_iff.1 h] at hx; exact hx
  · intro h; exact ⟨s, h, State.beq_iff.2 rfl⟩

theorem mem_insert [StrHash] {anc : List State} {s x : State} : x ∈ PNode.insert anc s ↔ x = s ∨ x ∈ anc := by
  unfold PNode.insert
  split
  · rename_i h
    rw [visited_iff] at h
    constructor
    · exact Or.inr
    · rintro (rfl | h')
      · exact h
      · exact h'
  · simp [or_comm]

/-- The child node of an instance. -/
def childNode [StrHash] (n : PNode) (anc : List State) (c : (Op × List Obj) × State) : PNode :=
  ⟨c.2, anc, Pddl.callOf c.1.1 c.1.2, n.depth + 1⟩

theorem scanAll_ok [StrHash] {P : Pddl} {fuel : Nat} {n : PNode} : ∀ {R : List (Op × List Obj)} {cs : List PNode},
    P.scanAll fuel n R = .ok cs →
    ∃ l, Offspring (fun a : Op × List Obj => a.1.isValid P.omap n.state a.2 = .ok true)
      (fun a => a.1.isValid P.omap n.state a.2 = .ok false)
      (fun a s => P.applyOp fuel a.1 a.2 n.state = .ok s) (fun s => s = n.state ∨ s ∈ n.anc) R l ∧
      cs = l.map (childNode n (PNode.insert n.anc n.state))
  | [], cs, h => by
    simp only [Pddl.scanAll, Res.ok.injEq] at h
    subst h
    exact ⟨[], .nil, rfl⟩
  | (op, as) :: R, cs, h => by
    simp only [Pddl.scanAll, Res.bind_eq_ok] at h
    obtain ⟨v, hv, h⟩ := h
    cases v with
    | false =>
      simp only [Bool.false_eq_true, if_false] at h
      obtain ⟨l, h1, h2⟩ := scanAll_ok h
      exact ⟨l, .skip hv h1, h2⟩
    | true =>
      simp only [if_true, Res.bind_eq_ok] at h
      obtain ⟨s, hs, h⟩ := h
      split at h
      · rename_i hvis
        rw [visited_iff, mem_insert] at hvis
        obtain ⟨l, h1, h2⟩ := scanAll_ok h
        exact ⟨l, .repeated hv hs hvis h1, h2⟩
      · rename_i hvis
        rw [visited_iff, mem_insert] at hvis
        simp only [Res.bind_eq_ok, Res.pure_eq, Res.ok.injEq] at h
        obtain ⟨r, hr, rfl⟩ := h
        obtain ⟨l, h1, h2⟩ := scanAll_ok hr
        exact ⟨((op, as), s) :: l, .child hv hs hvis h1, by rw [h2]; rfl⟩

theorem scanAll_of [StrHash] {P : Pddl} {fuel : Nat} {n : PNode} {R : List (Op × List Obj)}
    {l : List ((Op × List Obj) × State)}
    (h : Offspring (fun a : Op × List Obj => a.1.isValid P.omap n.state a.2 = .ok true)
      (fun a => a.1.isValid P.omap n.state a.2 = .ok false)
      (fun a s => P.applyOp fuel a.1 a.2 n.state = .ok s) (fun s => s = n.state ∨ s ∈ n.anc) R l) :
    P.scanAll fuel n R = .ok (l.map (childNode n (PNode.insert n.anc n.state))) := by
  induction h with
  | nil => rfl
  | skip hv _ ih => simp only [Pddl.scanAll, hv, Res.bind_ok, Bool.false_eq_true, if_false]; exact ih
  | repeated hv hs hseen _ ih =>
    rw [← mem_insert, ← visited_iff] at hseen
    simp only [Pddl.scanAll, hv, Res.bind_ok, if_true, hs, hseen]; exact ih
  | child hv hs hseen _ ih =>
    rw [← mem_insert, ← visited_iff] at hseen
    simp only [Pddl.scanAll, hv, Res.bind_ok, if_true, hs, if_neg hseen, ih]; rfl

theorem Offspring.congr [StrHash] {α : Type} {valid invalid valid' invalid' : α → Prop} {step step' : α → State → Prop}
    {seen : State → Prop} {as : List α} {cs : List (α × State)} (h : Offspring valid invalid step seen as cs)
    (hv : ∀ a ∈ as, valid a → valid' a) (hi : ∀ a ∈ as, invalid a → invalid' a)
    (hs : ∀ a ∈ as, ∀ s, step a s → step' a s) : Offspring valid' invalid' step' seen as cs := by
  induction h with
  | nil => exact .nil
  | skip h1 _ ih =>
    exact .skip (hi _ (by simp) h1)
      (ih (fun a h => hv a (by simp [h])) (fun a h => hi a (by simp [h])) (fun a h => hs a (by simp [h])))
  | repeated h1 h2 h3 _ ih =>
    exact .repeated (hv _ (by simp) h1) (hs _ (by simp) _ h2) h3
      (ih (fun a h => hv a (by simp [h])) (fun a h => hi a (by simp [h])) (fun a h => hs a (by simp [h])))
  | child h1 h2 h3 _ ih =>
    exact .child (hv _ (by simp) h1) (hs _ (by simp) _ h2) h3
      (ih (fun a h => hv a (by simp [h])) (fun a h => hi a (by simp [h])) (fun a h => hs a (by simp [h])))

/-- Actions are named apart and have printable names. -/
def Callable (t : Ptree) : Prop :=
  ∀ op ∈ t.ops, op.isAxiom = false → NamedOp t.ops op.name op ∧ CleanHead op.name

/-- **C43.** The instances a node goes through: all type-correct calls of the actions with parameters. -/
theorem C43_instances [StrHash] (t : Ptree) (b : Bool) (k : Nat) (P : Pddl) (hP : Pddl.make t b k = .ok P)
    (op : Op) (as : List Obj) :
    (op, as) ∈ instances P P.actions ↔
      op ∈ t.ops ∧ op.isAxiom = false ∧ op.params ≠ [] ∧ WellTyped (t.constants ++ t.objects) op.params as := by
  have B := Pddl.built hP
  unfold instances
  rw [B.actions, B.omap]
  have hne := fun op : Op => paramTypes_ne (ObjMap.nonEmpty_create (t.constants ++ t.objects)) op.params
  simp only [List.mem_flatMap, List.mem_filter, List.mem_map, Prod.mk.injEq]
  constructor
  · rintro ⟨op', ⟨h1, h2⟩, as', h3, rfl, rfl⟩
    have h2 : op'.isAxiom = false := by simpa using h2
    have hp : op'.params ≠ [] := by
      intro hp; rw [hp] at h3; simp [tuples, paramTypes, paramTypes.go] at h3
    refine ⟨h1, h2, hp, ?_⟩
    exact (mem_gen_create hp (genLoop_ok (hne op'))).1 h3
  · rintro ⟨h1, h2, hp, h3⟩
    refine ⟨op, ⟨h1, by simpa using h2⟩, as, ?_, rfl, rfl⟩
    exact (mem_gen_create hp (genLoop_ok (hne op))).2 h3

section
variable [StrHash] (t : Ptree) (b : Bool) (k : Nat) (P : Pddl) (hP : Pddl.make t b k = .ok P)
  (hnd : ((t.constants ++ t.objects).map Obj.name).Nodup) (hops : Callable t)
  (hclean : ∀ o ∈ t.constants ++ t.objects, CleanArg o.name)
include hP hnd hops hclean

theorem parse_instance {a : Op × List Obj} (ha : a ∈ instances P P.actions) :
    P.parseAction (Pddl.callOf a.1 a.2) = .ok a := by
  obtain ⟨h1, h2, -, hw⟩ := (C43_instances t b k P hP a.1 a.2).1 ha
  obtain ⟨h3, h4⟩ := hops a.1 h1 h2
  exact C14_action_round_trip t b k P hP a.1 a.2 h3 hw hnd ⟨h4, fun o ho => hclean o (WellTyped.mem hw ho).1⟩

/-- **C43.** If a range-for over a node's children returns, it visits, in the order of the actions and their arguments,
one child for each instance that `IsValidAction` accepts and whose `NextState` is neither the node's state nor an
ancestor's. The child has that state, the call as its action, one more step of depth, and the node's ancestors plus the
node. -/
theorem C43_children (fuel : Nat) (n : PNode) (cs : List PNode) (hact : P.actions ≠ [])
    (h : P.children fuel n = .ok cs) :
    ∃ l anc, Offspring (fun a : Op × List Obj => P.isValidAction n.state (Pddl.callOf a.1 a.2) = .ok true)
        (fun a => P.isValidAction n.state (Pddl.callOf a.1 a.2) = .ok false)
        (fun a s => P.nextState fuel n.state (Pddl.callOf a.1 a.2) = .ok s)
        (fun s => s = n.state ∨ s ∈ n.anc) (instances P P.actions) l ∧
      (∀ s, s ∈ anc ↔ s = n.state ∨ s ∈ n.anc) ∧
      cs = l.map fun c => ⟨c.2, anc, Pddl.callOf c.1.1 c.1.2, n.depth + 1⟩ := by
  have B := Pddl.built hP
  have hne : ∀ op ∈ P.actions, ∀ o ∈ P.gen op, o ≠ [] := by
    intro op _; unfold Pddl.gen; rw [B.omap]; exact paramTypes_ne (ObjMap.nonEmpty_create _) _
  rw [Pddl.children_eq hne hact] at h
  obtain ⟨l, h1, h2⟩ := scanAll_ok h
  refine ⟨l, PNode.insert n.anc n.state, h1.congr ?_ ?_ ?_, fun s => mem_insert, h2⟩
  · intro a ha h
    rw [Pddl.isValidAction, parse_instance t b k P hP hnd hops hclean ha]; exact h
  · intro a ha h
    rw [Pddl.isValidAction, parse_instance t b k P hP hnd hops hclean ha]; exact h
  · intro a ha s h
    rw [Pddl.nextState, parse_instance t b k P hP hnd hops hclean ha]; exact h

/-- **C43.** The range-for returns whenever `IsValidAction` and `NextState` return for the instances. -/
theorem C43_children_return (fuel : Nat) (n : PNode) (hact : P.actions ≠ []) (l : List ((Op × List Obj) × State))
    (h : Offspring (fun a : Op × List Obj => P.isValidAction n.state (Pddl.callOf a.1 a.2) = .ok true)
        (fun a => P.isValidAction n.state (Pddl.callOf a.1 a.2) = .ok false)
        (fun a s => P.nextState fuel n.state (Pddl.callOf a.1 a.2) = .ok s)
        (fun s => s = n.state ∨ s ∈ n.anc) (instances P P.actions) l) :
    ∃ cs, P.children fuel n = .ok cs ∧ cs.map PNode.state = l.map Prod.snd ∧
      cs.map PNode.action = l.map fun c => Pddl.callOf c.1.1 c.1.2 := by
  have B := Pddl.built hP
  have hne : ∀ op ∈ P.actions, ∀ o ∈ P.gen op, o ≠ [] := by
    intro op _; unfold Pddl.gen; rw [B.omap]; exact paramTypes_ne (ObjMap.nonEmpty_create _) _
  rw [Pddl.children_eq hne hact]
  refine ⟨_, scanAll_of (h.congr ?_ ?_ ?_), by simp [childNode, Function.comp_def], by simp [childNode, Function.comp_def]⟩
  · intro a ha h
    rw [Pddl.isValidAction, parse_instance t b k P hP hnd hops hclean ha] at h; exact h
  · intro a ha h
    rw [Pddl.isValidAction, parse_instance t b k P hP hnd hops hclean ha] at h; exact h
  · intro a ha s h
    rw [Pddl.nextState, parse_instance t b k P hP hnd hops hclean ha] at h; exact h

end

section
open Demo
attribute [local instance] lenHash

/-- Picking up `a`, picking up `b`; nothing can be placed yet. -/
example : (do let cs ← P.children 5 (.root P.initial); pure (cs.map PNode.action) : Res _) = .ok [n!"pick(a)", n!"pick(b)"] := by
  decide +kernel

/-- After `pick(a)`, placing it on the table would lead back to the root. -/
example : (do
    let cs ← P.children 5 ⟨State.ofList [inhand a, on b table, busyA a], [P.initial], n!"pick(a)", 1⟩
    pure (cs.map fun c => (c.action, c.depth, c.anc.length)) : Res _) =
    .ok [(n!"pick(b)", 2, 2), (n!"place(a, b)", 2, 2)] := by decide +kernel

/-- **C43, refuted without actions:** the iterator looks at the first action of an empty list. -/
theorem C43_no_actions_refuted [StrHash] (P : Pddl) (h : P.actions = []) (fuel : Nat) (n : PNode) :
    P.children fuel n = .ub := by
  simp [Pddl.children, Pddl.nodeBegin, h]

/-- **C43, refuted for actions without parameters:** a valid one with a new state yields no child. -/
theorem C43_nullary_refuted :
    resetP.isValidAction resetP.initial n!"reset()" = .ok true ∧
    resetP.nextState 5 resetP.initial n!"reset()" ≠ .ok resetP.initial ∧
    resetP.children 5 (.root resetP.initial) = .ok [] := by
  decide +kernel

end

end Symbolic
