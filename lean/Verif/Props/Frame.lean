import Verif.Lemmas.Frame
import Verif.Props.Returns

/-!
# C69: what an action can change
-/

namespace Symbolic

section
variable [StrHash]

theorem Pddl.Built.mayWrite {t : Ptree} {P : Pddl} (B : P.Built t) (op : Op) : ∀ ax ∈ P.axioms, t.MayWrite op ax.pos ax.pred →
    ∀ sign p, ax.op.eff.Touches sign p → t.MayWrite op sign p := by
  intro ax hm h sign p ht
  obtain ⟨h1, h2, -⟩ := B.ax hm
  obtain ⟨h3, h4⟩ := B.context hm
  rw [h3, h4] at h
  exact .triggered h1 h2 h ht

theorem Pddl.Built.applyOp_within {t : Ptree} {P : Pddl} (B : P.Built t) {op : Op} {as : List Obj} {n : Nat} {s s' : State}
    (h : P.applyOp n op as s = .ok s') : ChangesWithin (t.MayChange op) (· ∈ s) (· ∈ s') := by
  simp only [Pddl.applyOp, Res.bind_eq_ok, Res.pure_eq, Res.ok.injEq] at h
  obtain ⟨r, h1, r', h2, rfl⟩ := h
  have q1 := Op.apply_rel' (within_rel (t.MayWrite op)) (B.mayWrite op) (fun _ _ ht => .own ht) h1
  rw [B.omap, Pddl.drvs, B.tree] at h2
  exact (q1.mono fun _ _ h => .inl h).trans ((drvsFix_within h2).mono fun _ x h => .inr h)

/-- **C69.** `NextState` adds an atom only if the action or an axiom it may trigger adds its predicate, or it is a
well-typed instance of a derived predicate; it removes an atom only if they delete its predicate, or likewise. -/
theorem C69_next_state (t : Ptree) (b : Bool) (k : Nat) (P : Pddl) (hP : Pddl.make t b k = .ok P) (n : Nat) (s s' : State)
    (call : Name) (op : Op) (as : List Obj) (hc : P.parseAction call = .ok (op, as)) (h : P.nextState n s call = .ok s') :
    ChangesWithin (t.MayChange op) (· ∈ s) (· ∈ s') := by
  simp only [Pddl.nextState, hc, Res.bind_ok] at h
  exact (Pddl.built hP).applyOp_within h

/-- **C69.** Likewise for `ApplyActions` with the actions of the list. -/
theorem C69_apply_actions (t : Ptree) (b : Bool) (k : Nat) (P : Pddl) (hP : Pddl.make t b k = .ok P) (n : Nat)
    (calls : List Name) (s s' : State) (h : P.applyActions n s calls = .ok s') :
    ChangesWithin (fun sign x => ∃ call ∈ calls, ∃ op as, P.parseAction call = .ok (op, as) ∧ t.MayChange op sign x)
      (· ∈ s) (· ∈ s') := by
  induction calls generalizing s with
  | nil => simp only [Pddl.applyActions, Res.ok.injEq] at h; subst h; exact .refl _ _
  | cons call calls ih =>
    simp only [Pddl.applyActions, Res.bind_eq_ok] at h
    obtain ⟨⟨op, as⟩, h1, s1, h2, h3⟩ := h
    refine ChangesWithin.trans (((Pddl.built hP).applyOp_within h2).mono fun sign x hx => ?_) ((ih s1 h3).mono ?_)
    · exact ⟨call, by simp, op, as, h1, hx⟩
    · rintro sign x ⟨c, hm, r⟩
      exact ⟨c, by simp [hm], r⟩

/-- **C69.** With the shared buffers, for any axioms, whatever the buffers hold. -/
theorem C69_buffers (t : Ptree) (b : Bool) (k : Nat) (P : Pddl) (hP : Pddl.make t b k = .ok P) (n id : Nat) (s : State)
    (op : Op) (as : List Obj) (st : Store) (r : Nat × State) (h : (op.run P.omap P.axioms n id as s st).1 = .ok r) :
    ChangesWithin (fun sign x => t.MayWrite op sign x.pred) (· ∈ s) (· ∈ r.2) :=
  Op.run_rel (within_rel (t.MayWrite op)) ((Pddl.built hP).mayWrite op) (fun _ _ ht => .own ht) n id as s st r h

end

section
open Demo
attribute [local instance] lenHash

/-- `pick` may add `inhand` and then delete `on` through the axiom, but not add `on`. -/
example : tree.MayWrite pick true n!"inhand" ∧ tree.MayWrite pick false n!"on" ∧ ¬ tree.MayWrite pick true n!"on" := by
  have h1 : tree.MayWrite pick true n!"inhand" := .own (by
    simp [pick, Eff.Touches, FList.Touches, CList.Touches, ListsPred])
  refine ⟨h1, .triggered (ax := held) (by simp [tree]) rfl h1 (by
    simp [held, Eff.Touches, FList.Touches, CList.Touches, ListsPred]), fun h => ?_⟩
  generalize hs : true = sg at h
  generalize hp : n!"on" = p at h
  cases h with
  | own h => subst hs hp; simp [pick, Eff.Touches, FList.Touches, CList.Touches, ListsPred] at h
  | triggered hm ha _ h =>
    subst hs
    simp only [tree, List.mem_cons, List.not_mem_nil, or_false] at hm
    rcases hm with rfl | rfl | rfl
    · cases ha
    · cases ha
    · simp [held, Eff.Touches, FList.Touches, CList.Touches, ListsPred] at h

/-- All three kinds of change happen: `inhand(a)` is added by the action, `on(a, table)` deleted by the axiom and
`busy(a)` derived. -/
example : ∃ s', P.nextState 5 (State.ofList [on a table]) n!"pick(a)" = .ok s' ∧ inhand a ∈ s' ∧ on a table ∉ s' ∧
    busyA a ∈ s' :=
  ⟨State.ofList [inhand a, busyA a], by decide +kernel, by decide +kernel, by decide +kernel, by decide +kernel⟩

end

end Symbolic
