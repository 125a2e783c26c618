import Verif.Lemmas.TypeSound
import Verif.Lemmas.ParseAction
import Verif.Props.StateIndex
import Verif.Props.Strings
import Verif.Examples.Demo

/-!
# C58: states keep to the declared propositions
-/

namespace Symbolic

section
variable [StrHash] {t : Ptree} {P : Pddl} {up : Name → List Name}

theorem Pddl.Built.sortedAx (B : P.Built t) (ht : t.TypeChecked up) :
    ∀ ax ∈ P.axioms, SortedAx (t.constants ++ t.objects) (sigOf (t.constants ++ t.objects) t.preds) ax := by
  intro ax hm
  obtain ⟨hop, ha, hc, -⟩ := B.ax hm
  exact ⟨(ht.ops _ hop).sorted ht.hier ht.objects ht.predNames ht.preds ha, hc⟩

theorem Pddl.Built.typedArgs (B : P.Built t) :
    ∀ ax ∈ P.axioms, ∀ as ∈ ax.arguments, WellTyped (t.constants ++ t.objects) ax.op.params as := by
  intro ax hm as ha
  obtain ⟨-, -, -, l, h1, h2⟩ := B.ax hm
  rw [B.omap] at h1
  exact gen_mem h1 (prepareLoop_sub h2 as ha)

theorem Ptree.TypeChecked.rules (ht : t.TypeChecked up) :
    ∀ d ∈ t.drvs, ∀ as, WellTyped (t.constants ++ t.objects) d.params as →
      Declared (t.constants ++ t.objects) t.preds (d.atom as) := by
  intro r hr as hw
  obtain ⟨h1, d, hd, hn, hf⟩ := ht.drvs r hr
  refine ⟨d, hd, as, ?_, by rw [hn]; rfl⟩
  have key : ∀ {ps vs os : List Obj}, (∀ v ∈ vs, v.Fits up) → List.Forall₂ (fun p v => HasType v p.typeName) ps vs →
      WellTyped (t.constants ++ t.objects) vs os → WellTyped (t.constants ++ t.objects) ps os := by
    intro ps vs os hv hf hw
    induction hf generalizing os with
    | nil => cases hw; exact .nil
    | cons h _ ih =>
      cases hw with
      | cons h' hs =>
        exact .cons ⟨h'.1, h'.2.trans ht.hier (ht.objects _ h'.1) (hv _ (by simp)) h⟩
          (ih (fun v hv' => hv v (by simp [hv'])) hs)
  exact key h1 hf hw

theorem Pddl.Built.applyOp_declared (B : P.Built t) (ht : t.TypeChecked up) {fuel : Nat} {op : Op} (ho : op ∈ t.ops)
    {as : List Obj} (hw : WellTyped (t.constants ++ t.objects) op.params as) {s s' : State}
    (hs : AllDeclared (t.constants ++ t.objects) t.preds s) (h : P.applyOp fuel op as s = .ok s') :
    AllDeclared (t.constants ++ t.objects) t.preds s' := by
  simp only [Pddl.applyOp, Res.bind_eq_ok, Res.pure_eq, Res.ok.injEq, Pddl.drvs, B.tree, B.omap, Op.apply] at h
  obtain ⟨r, h1, r', h2, rfl⟩ := h
  have hc := ht.ops op ho
  refine drvsFix_declared ht.rules (r := r') ?_ h2
  exact Eff.apply_typed keeps_declared (fireN_typed keeps_declared (B.sortedAx ht) fuel) op.eff _ _ s r hw.length hc.names
    hc.formed hc.fresh (Eff.Checked.typed ht.hier ht.objects ht.predNames op.eff op.params _ hc.fits
      (envFits_vars hc.names hw) hc.fresh hc.eff) hs h1

end

/-- **C58.** In a domain that passes the type checker, the initial state of the Pddl, with or without `apply_axioms`,
consists of instances of declared predicates over the declared objects.

Missing for the full claim: axioms whose parameters are declared narrower than the predicate of their context, see
`C58_narrow_axiom_refuted`. -/
theorem C58_initial_state_partial [StrHash] (t : Ptree) (b : Bool) (n : Nat) (P : Pddl) (hP : Pddl.make t b n = .ok P)
    (up : Name → List Name) (ht : t.TypeChecked up) : ∀ x ∈ P.initial, Declared (t.constants ++ t.objects) t.preds x := by
  have B := Pddl.built hP
  have h0 : AllDeclared (t.constants ++ t.objects) t.preds (State.ofList t.init) := by
    intro x hx
    rw [State.mem_ofList] at hx
    exact ht.init x hx
  simp only [Pddl.make, Res.bind_eq_ok] at hP
  obtain ⟨axs0, -, ⟨⟩, -, ⟨⟩, -, h⟩ := hP
  split at h
  · simp at h
  · simp only [Res.bind_eq_ok, Res.pure_eq, Res.ok.injEq] at h
    obtain ⟨⟨⟩, -, axs, -, ⟨⟩, -, init, h6, rfl⟩ := h
    cases b
    · simp only [Bool.false_eq_true, if_false, Res.ok.injEq] at h6
      subst h6; exact h0
    · simp only [if_true] at h6
      exact consistentFix_typed keeps_declared (B.sortedAx ht) B.typedArgs h0 h6

/-- **C58.** If all propositions of a State are declared, then so are those of `NextState`, for every call. -/
theorem C58_next_state_partial [StrHash] (t : Ptree) (b : Bool) (n : Nat) (P : Pddl) (hP : Pddl.make t b n = .ok P)
    (up : Name → List Name) (ht : t.TypeChecked up) (fuel : Nat) (s s' : State) (call : Name)
    (hs : ∀ x ∈ s, Declared (t.constants ++ t.objects) t.preds x) (h : P.nextState fuel s call = .ok s') :
    ∀ x ∈ s', Declared (t.constants ++ t.objects) t.preds x := by
  have B := Pddl.built hP
  simp only [Pddl.nextState, Res.bind_eq_ok] at h
  obtain ⟨⟨op, as⟩, h1, h2⟩ := h
  obtain ⟨h3, h4⟩ := parseAction_ok h1
  simp only [Pddl.symbols, B.tree] at h3 h4
  exact B.applyOp_declared ht h3 h4 hs h2

/-- **C58.** The same for `DerivedState` and `ConsistentState`. -/
theorem C58_closures_partial [StrHash] (t : Ptree) (b : Bool) (n : Nat) (P : Pddl) (hP : Pddl.make t b n = .ok P)
    (up : Name → List Name) (ht : t.TypeChecked up) (fuel : Nat) (s s' : State)
    (hs : ∀ x ∈ s, Declared (t.constants ++ t.objects) t.preds x)
    (h : P.derivedState fuel s = .ok s' ∨ P.consistentState fuel s = .ok s') :
    ∀ x ∈ s', Declared (t.constants ++ t.objects) t.preds x := by
  have B := Pddl.built hP
  rcases h with h | h
  · simp only [Pddl.derivedState, Res.bind_eq_ok, Res.pure_eq, Res.ok.injEq, Pddl.drvs, B.tree, B.omap] at h
    obtain ⟨r, h1, rfl⟩ := h
    exact drvsFix_declared ht.rules (r := r) hs h1
  · rw [Pddl.consistentState, B.omap] at h
    exact consistentFix_typed keeps_declared (B.sortedAx ht) B.typedArgs hs h

/-- **C58.** Hence for `ApplyActions`, from a State of declared propositions. -/
theorem C58_apply_actions_partial [StrHash] (t : Ptree) (b : Bool) (n : Nat) (P : Pddl) (hP : Pddl.make t b n = .ok P)
    (up : Name → List Name) (ht : t.TypeChecked up) (fuel : Nat) (calls : List Name) : ∀ (s s' : State),
    (∀ x ∈ s, Declared (t.constants ++ t.objects) t.preds x) → P.applyActions fuel s calls = .ok s' →
    ∀ x ∈ s', Declared (t.constants ++ t.objects) t.preds x := by
  induction calls with
  | nil => intro s s' hs h; simp only [Pddl.applyActions, Res.ok.injEq] at h; subst h; exact hs
  | cons call calls ih =>
    intro s s' hs h
    simp only [Pddl.applyActions, Res.bind_eq_ok] at h
    obtain ⟨oa, h1, s1, h2, h3⟩ := h
    refine ih s1 s' (C58_next_state_partial t b n P hP up ht fuel s s1 call hs ?_) h3
    simp only [Pddl.nextState, h1, Res.bind_ok, h2]

/-- **C58.** Every State that `ApplyActions` reaches from the initial state can be indexed by the `StateIndex` of the
Pddl, whatever was asked of it before, and read back, if all predicates have parameters. -/
theorem C58_reachable_states_indexed_partial [StrHash] (t : Ptree) (b : Bool) (n : Nat) (P : Pddl)
    (hP : Pddl.make t b n = .ok P) (up : Name → List Name) (ht : t.TypeChecked up)
    (hsig : Signature (t.constants ++ t.objects) t.preds) (hpar : ∀ d ∈ t.preds, d.params ≠ [])
    (fuel : Nat) (calls : List Name) (s : State) (h : P.applyActions fuel P.initial calls = .ok s)
    (c c' : IndexCache) (hc : P.stateIndex.Reached c) (hc' : P.stateIndex.Reached c') :
    ∃ m v, P.stateIndex.size = .ok m ∧ (P.stateIndex.getIndexedState c s).1 = .ok v ∧ v.length = m ∧
      (P.stateIndex.getState c' v).1 = .ok s := by
  have B := Pddl.built hP
  refine C41_state_round_trip _ _ hsig true _ (by simp only [Pddl.stateIndex, B.tree, B.omap]) c c' hc hc' s ?_
  intro x hx
  obtain ⟨d, hd, os, ho, rfl⟩ := C58_apply_actions_partial t b n P hP up ht fuel calls _ s
    (C58_initial_state_partial t b n P hP up ht) h x hx
  exact ⟨d, hd, hpar d hd, os, ho, rfl⟩

/-- **C58.** Every State that `ApplyActions` reaches from the initial state can be printed and read back. -/
theorem C58_reachable_states_printed_partial [StrHash] (t : Ptree) (b : Bool) (n : Nat) (P : Pddl)
    (hP : Pddl.make t b n = .ok P) (up : Name → List Name) (ht : t.TypeChecked up)
    (hsig : Signature (t.constants ++ t.objects) t.preds)
    (fuel : Nat) (calls : List Name) (s : State) (h : P.applyActions fuel P.initial calls = .ok s)
    (strings : List Name) (hset : ∀ x, x ∈ strings ↔ x ∈ s.stringify) : parseState P.symbols strings = .ok s := by
  have B := Pddl.built hP
  refine C13_state_round_trip _ s (fun x hx => ?_) strings hset
  obtain ⟨d, hd, os, ho, rfl⟩ := C58_apply_actions_partial t b n P hP up ht fuel calls _ s
    (C58_initial_state_partial t b n P hP up ht) h x hx
  refine ⟨hsig.cleanHeads d hd, fun m hm => ?_⟩
  simp only [Atom.ofObjs, List.mem_map] at hm
  obtain ⟨o, hm, rfl⟩ := hm
  exact ⟨hsig.cleanArgs o (ho.mem hm).1, List.mem_map_of_mem (by rw [Pddl.symbols, B.tree]; exact (ho.mem hm).1)⟩

section
open Demo
attribute [local instance] lenHash

/-- The type hierarchy of the demo domain. -/
def demoUp : Name → List Name := fun n => if n = n!"box" then tBox else if n = n!"object" then tObj else []

theorem demo_objects {o : Obj} (h : o ∈ tree.constants ++ tree.objects) : o.Fits demoUp := by
  revert h o; simp only [Obj.Fits]; decide

theorem noType_on : ¬ IsType (tree.constants ++ tree.objects) n!"on" := by
  simp [IsType, HasType, tree, a, b, table, tBox, tObj]

/-- The demo domain passes the type checker. -/
theorem demo_checked : tree.TypeChecked demoUp where
  hier := by
    constructor
    · intro T T' T'' h h'
      by_cases e : T = n!"box"
      · subst e
        simp only [demoUp, if_true, tBox, List.mem_cons, List.not_mem_nil, or_false] at h
        rcases h with rfl | rfl
        · exact h'
        · simp only [demoUp, tObj] at h'
          revert h'; simp +contextual [demoUp, tBox]
      · by_cases e' : T = n!"object"
        · subst e'
          simp only [demoUp, tObj] at h
          have : T' = n!"object" := by simpa using h
          subst this; exact h'
        · simp [demoUp, e, e'] at h
    · intro T h
      simpa [demoUp, tObj] using h
  names := by decide
  objects o ho := demo_objects ho
  predNames := by decide
  preds := by
    intro d hd p hp
    simp only [tree, List.mem_cons, List.not_mem_nil, or_false] at hd
    rcases hd with rfl | rfl | rfl <;> simp only [List.mem_cons, List.not_mem_nil, or_false] at hp
    · rcases hp with rfl | rfl <;> exact Or.inr (by decide)
    · subst hp; exact Or.inr (by decide)
    · subst hp; exact Or.inr (by decide)
  ops := by
    intro op hop
    simp only [tree, List.mem_cons, List.not_mem_nil, or_false] at hop
    rcases hop with rfl | rfl | rfl
    · refine ⟨by decide, ?_, ?_, ?_, ?_, by simp [pick]⟩
      · simp [pick, Obj.Fits, x, demoUp, Obj.typeName, tBox]
      · simp [pick, Eff.Formed, FList.Formed, CList.Formed, AtomLits, Goal.WF, Term.Scoped, IsType, HasType, tree,
          a, b, table, tBox, tObj]
      · simp [pick, Eff.Fresh, FList.Fresh, CList.Fresh]
      · simp [pick, Eff.Checked, FList.Checked, CList.Checked, LitsChecked, Term.IsA, tree, HasType, x, Obj.typeName, tBox]
    · refine ⟨by decide, ?_, ?_, ?_, ?_, by simp [place]⟩
      · simp [place, Obj.Fits, x, y, demoUp, Obj.typeName, tBox, tObj]
      · simp [place, Eff.Formed, FList.Formed, CList.Formed, AtomLits, Goal.WF, Term.Scoped, IsType, HasType, tree,
          a, b, table, tBox, tObj]
      · simp [place, Eff.Fresh, FList.Fresh, CList.Fresh]
      · simp [place, Eff.Checked, FList.Checked, CList.Checked, LitsChecked, Term.IsA, tree, HasType, x, y, Obj.typeName,
          tBox, tObj]
    · refine ⟨by decide, ?_, ?_, ?_, ?_, fun _ => ⟨by simp [held], ?_, ?_, ?_⟩⟩
      · simp [held, Obj.Fits, x, demoUp, Obj.typeName, tBox]
      · simp [held, Eff.Formed, FList.Formed, CList.Formed, AtomLits, Goal.WF, Term.Scoped, IsType, HasType, tree,
          a, b, table, tBox, tObj]
      · simp [held, Eff.Fresh, FList.Fresh, CList.Fresh, x, z]
      · simp [held, Eff.Checked, FList.Checked, CList.Checked, LitsChecked, Term.IsA, tree, HasType, x, y, z, Obj.typeName,
          tBox, tObj, Obj.Fits, demoUp]
      · simp [held, Goal.WF, Term.Scoped, IsType, HasType, a, b, table, tBox, tObj]
      · constructor <;> simp [held, Op.ctx, Term.Scoped, varNames]
      · refine ⟨⟨n!"inhand", [x]⟩, by simp [tree], rfl, .cons ?_ .nil⟩
        simp [held, HasType, x, Obj.typeName, tBox]
  drvs := by
    intro r hr
    simp only [tree, List.mem_cons, List.not_mem_nil, or_false] at hr
    subst hr
    refine ⟨?_, ⟨n!"busy", [x]⟩, by simp [tree], rfl, .cons ?_ .nil⟩
    · simp [busy, Obj.Fits, x, demoUp, Obj.typeName, tBox]
    · simp [HasType, x, Obj.typeName, tBox]
  init := by
    intro x hx
    simp only [tree, List.mem_cons, List.not_mem_nil, or_false] at hx
    rcases hx with rfl | rfl
    · exact ⟨⟨n!"on", [Demo.x, y]⟩, by simp [tree], [a, table],
        .cons ⟨by decide, by unfold HasType; decide⟩ (.cons ⟨by decide, by unfold HasType; decide⟩ .nil), rfl⟩
    · exact ⟨⟨n!"on", [Demo.x, y]⟩, by simp [tree], [b, table],
        .cons ⟨by decide, by unfold HasType; decide⟩ (.cons ⟨by decide, by unfold HasType; decide⟩ .nil), rfl⟩

/-- A state reached by two actions; it is printed and read back. -/
example : P.applyActions 5 P.initial [n!"pick(a)", n!"place(a, b)"] =
    .ok (State.ofList [on a b, on b table, busyA b]) ∧
    parseState P.symbols [n!"busy(b)", n!"on(b, table)", n!"on(a, b)", n!"busy(b)"] =
      .ok (State.ofList [on a b, on b table, busyA b]) := by decide +kernel

/-- For boxes `?x ?u`: `(on ?x ?u) => (inhand ?u)`. -/
def grab : Op :=
  ⟨n!"axiom", [x, u], .atom n!"on" [.var x, .var u], .mk .nil [(n!"inhand", [.var u])] [] .nil, true⟩
def grabTree : Ptree := { tree with ops := [place, grab], drvs := [], init := [inhand a] }

theorem grabMade : (Pddl.make grabTree true 5).isOk = true := by decide +kernel
def grabP : Pddl := get _ grabMade
theorem grabP_made : Pddl.make grabTree true 5 = .ok grabP := get_eq _ _

/-- **C58, refuted** for axioms whose parameters are narrower than the predicate of the context. Every literal fits the
declarations (`inhand` takes a box and `?u` is a box), but putting `a` on the table, which is no box, triggers the axiom
for the table, and the next state contains `inhand(table)`, which is not declared. `GetIndexedState`
throws for it. -/
theorem C58_narrow_axiom_refuted :
    grab.eff.Checked demoUp (grabTree.constants ++ grabTree.objects) grabTree.preds grab.params ∧
    grabP.nextState 5 grabP.initial n!"place(a, table)" = .ok (State.ofList [on a table, inhand table]) ∧
    ¬ Declared (grabTree.constants ++ grabTree.objects) grabTree.preds (inhand table) ∧
    (grabP.stateIndex.getIndexedState .empty (State.ofList [on a table, inhand table])).1 =
      .exc .outOfRange := by
  refine ⟨?_, by decide +kernel, ?_, by decide +kernel⟩
  · simp [grab, grabTree, Eff.Checked, FList.Checked, CList.Checked, LitsChecked, Term.IsA, tree, HasType, x, u,
      Obj.typeName, tBox]
  · rintro ⟨d, hd, os, hw, he⟩
    simp only [grabTree, tree, List.mem_cons, List.not_mem_nil, or_false] at hd
    rcases hd with rfl | rfl | rfl
    · simp [inhand, Atom.ofObjs] at he
    · cases hw with
      | cons h hn =>
        cases hn
        simp only [inhand, Atom.ofObjs, List.map_cons, List.map_nil, Atom.mk.injEq, List.cons.injEq, and_true,
          true_and] at he
        obtain ⟨h1, h2⟩ := h
        revert h2 he
        simp only [grabTree, tree, List.cons_append, List.nil_append, List.mem_cons, List.not_mem_nil, or_false] at h1
        rcases h1 with rfl | rfl | rfl
        · unfold HasType; decide
        · intro h; simp [table, a] at h
        · intro h; simp [table, b] at h
    · simp [inhand, Atom.ofObjs] at he

end

end Symbolic
