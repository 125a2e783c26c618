import Verif.Lemmas.KeepAxioms
import Verif.Props.Cascade
import Verif.Props.OnePass
import Verif.Props.Planner
import Verif.Spec.Search

/-!
# C97: actions lead from valid states to valid states unless they contradict an axiom
-/

namespace Symbolic

section
variable [StrHash] {t : Ptree} {P : Pddl}

/-- **C97, partial.** If all axioms hold in `s`, an action returns (under the conditions of C89), and all axioms hold in the
result iff nothing the action causes is the opposite of what an axiom implies whose context is true in the result.

Missing for the full claim: the conditions of C89. -/
theorem C97_apply_partial (b : Bool) (n : Nat) (hP : Pddl.make t b n = .ok P) (up : Name → List Name) (ht : t.TypeChecked up)
    (hp : t.PlainEffects) : ∃ N, ∀ op ∈ t.ops, ∀ args, WellTyped (t.constants ++ t.objects) op.params args → ∀ s : State,
      NoConflict (t.CausesIn (· ∈ s) op args) → t.NotRead op (t.CausesIn (· ∈ s) op args) →
      AxiomsHold (t.constants ++ t.objects) t.ops (· ∈ s) → ∀ fuel, N ≤ fuel →
      ∃ k s', op.apply P.omap P.axioms fuel args s = .ok (k, s') ∧
        (AxiomsHold (t.constants ++ t.objects) t.ops (· ∈ s') ↔ ¬ t.Contradicted (· ∈ s') (t.CausesIn (· ∈ s) op args)) := by
  obtain ⟨N, h⟩ := C89_state_partial b n hP up ht hp
  refine ⟨N, fun op ho args hw s h1 h2 hA fuel hn => ?_⟩
  obtain ⟨k, s', e, hm, -⟩ := h op ho args hw s h1 h2 fuel hn
  exact ⟨k, s', e, (Pddl.built hP).keeps_axioms ht hp h2 h1 hm hA⟩

theorem valid_iff_hold {b : Bool} {n : Nat} (hP : Pddl.make t b n = .ok P) {up : Name → List Name} (ht : t.TypeChecked up)
    (hc : t.ContextsClosed) (fuel : Nat) (s : State) :
    P.isValidState fuel s = .ok true ↔ AxiomsHold (t.constants ++ t.objects) t.ops (· ∈ s) :=
  C32_valid_iff_axioms_hold t b n P hP ht.names (fun op ho ha => by
    obtain ⟨hne, hwf, -, -⟩ := (ht.ops op ho).axiom_ ha
    exact ⟨⟨hne, hwf, (ht.ops op ho).formed⟩, hc op ho ha⟩) fuel s

/-- **C97, partial.** `NextState` leads from a state that `IsValidState` accepts to one that it accepts iff nothing the action
causes is the opposite of what an axiom implies whose context is true afterwards. `m` is the state before derived predicates
are computed anew. -/
theorem C97_next_partial (b : Bool) (n : Nat) (hP : Pddl.make t b n = .ok P) (up : Name → List Name) (ht : t.TypeChecked up)
    (hp : t.PlainEffects) (hc : t.ContextsClosed) (hd : t.AxiomsUnderived) (fuel fuel' : Nat) (s s' : State) (call : Name)
    (op : Op) (args : List Obj) (hcall : P.parseAction call = .ok (op, args))
    (h1 : NoConflict (t.CausesIn (· ∈ s) op args)) (h2 : t.NotRead op (t.CausesIn (· ∈ s) op args))
    (hv : P.isValidState fuel' s = .ok true) (h : P.nextState fuel s call = .ok s') :
    ∃ k m, op.apply P.omap P.axioms fuel args s = .ok (k, m) ∧
      (P.isValidState fuel' s' = .ok true ↔ ¬ t.Contradicted (· ∈ m) (t.CausesIn (· ∈ s) op args)) := by
  have B := Pddl.built hP
  obtain ⟨N, hN⟩ := C97_apply_partial b n hP up ht hp
  simp only [Pddl.nextState, hcall, Res.bind_ok, Pddl.applyOp, Res.bind_eq_ok, Res.pure_eq, Res.ok.injEq] at h
  obtain ⟨⟨k, m⟩, e1, r, e2, rfl⟩ := h
  refine ⟨k, m, e1, ?_⟩
  obtain ⟨ho, hw⟩ := parseAction_ok hcall
  simp only [Pddl.symbols, B.tree] at ho hw
  obtain ⟨k', m', e3, h3⟩ := hN op ho args hw s h1 h2 ((valid_iff_hold hP ht hc fuel' s).1 hv) (max fuel N) (Nat.le_max_right _ _)
  rw [Op.apply_mono P.omap P.axioms op args s (Nat.le_max_left fuel _) (by rw [e1]; simp), e1, Res.ok.injEq, Prod.mk.injEq] at e3
  obtain ⟨-, rfl⟩ := e3
  rw [valid_iff_hold hP ht hc, axiomsHold_derived B hp hd e2, h3]

/-- **C97, partial.** Where operators and axioms do not undo each other, sequences of actions lead from states that
`IsValidState` accepts to such states only. -/
theorem C97_reachable_partial (b : Bool) (n : Nat) (hP : Pddl.make t b n = .ok P) (up : Name → List Name) (ht : t.TypeChecked up)
    (hp : t.PlainEffects) (hc : t.ContextsClosed) (hd : t.AxiomsUnderived) (hN : t.NoContradictions) (fuel fuel' : Nat) :
    ∀ (calls : List Name) (s s' : State), P.isValidState fuel' s = .ok true → P.applyActions fuel s calls = .ok s' →
      P.isValidState fuel' s' = .ok true
  | [], s, s', hv, h => by
    simp only [Pddl.applyActions, Res.ok.injEq] at h
    exact h ▸ hv
  | call :: calls, s, s', hv, h => by
    have B := Pddl.built hP
    simp only [Pddl.applyActions, Res.bind_eq_ok] at h
    obtain ⟨⟨op, args⟩, h1, m, h2, h3⟩ := h
    refine C97_reachable_partial b n hP up ht hp hc hd hN fuel fuel' calls m s' ?_ h3
    simp only [Pddl.applyOp, Res.bind_eq_ok, Res.pure_eq, Res.ok.injEq] at h2
    obtain ⟨⟨k, m₁⟩, e1, r, e2, rfl⟩ := h2
    obtain ⟨ho, hw⟩ := parseAction_ok h1
    simp only [Pddl.symbols, B.tree] at ho hw
    rw [valid_iff_hold hP ht hc, axiomsHold_derived B hp hd e2]
    exact hN.apply B ht hp ho hw ((valid_iff_hold hP ht hc fuel' s).1 hv) e1

theorem Offspring.mem {α : Type} {valid invalid : α → Prop} {step : α → State → Prop} {seen : State → Prop} {as : List α}
    {cs : List (α × State)} (h : Offspring valid invalid step seen as cs) {c : α × State} (hc : c ∈ cs) :
    c.1 ∈ as ∧ step c.1 c.2 := by
  induction h with
  | nil => simp at hc
  | skip _ _ ih => exact ⟨List.mem_cons_of_mem _ (ih hc).1, (ih hc).2⟩
  | repeated _ _ _ _ ih => exact ⟨List.mem_cons_of_mem _ (ih hc).1, (ih hc).2⟩
  | child _ hs _ _ ih =>
    rcases List.mem_cons.1 hc with rfl | hc
    · exact ⟨by simp, hs⟩
    · exact ⟨List.mem_cons_of_mem _ (ih hc).1, (ih hc).2⟩

/-- **C97, partial.** Then all nodes a search over `Planner(pddl, s)` can visit are states that `IsValidState` accepts, whatever
`s` is: the root is made consistent. -/
theorem C97_planner_partial (b : Bool) (n : Nat) (hP : Pddl.make t b n = .ok P) (up : Name → List Name) (ht : t.TypeChecked up)
    (hp : t.PlainEffects) (hc : t.ContextsClosed) (hd : t.AxiomsUnderived) (hN : t.NoContradictions) (fuel : Nat) (s : State)
    (root : PNode) (hr : P.plannerRoot fuel s = .ok root) (path : List PNode) (h : IsPath (P.space fuel).Child root path) :
    ∀ m ∈ path, P.isValidState fuel m.state = .ok true := by
  have B := Pddl.built hP
  have h0 : P.isValidState fuel root.state = .ok true := by
    simp only [Pddl.plannerRoot, Res.bind_eq_ok, Res.pure_eq, Res.ok.injEq] at hr
    obtain ⟨s', h1, rfl⟩ := hr
    exact (C31_consistent_state_is_valid P fuel s s' h1 fuel (Nat.le_refl _)).1
  clear hr
  induction h with
  | single root => simpa using h0
  | @cons root c p hch _ ih =>
    refine List.forall_mem_cons.2 ⟨h0, ih ?_⟩
    obtain ⟨cs, h1, h2⟩ := hch
    simp only [Pddl.space] at h1
    by_cases hact : P.actions = []
    · simp [Pddl.children, Pddl.nodeBegin, hact] at h1
    have hne : ∀ op ∈ P.actions, ∀ o ∈ P.gen op, o ≠ [] := by
      intro op _; unfold Pddl.gen; rw [B.omap]; exact paramTypes_ne (ObjMap.nonEmpty_create _) _
    rw [Pddl.children_eq hne hact] at h1
    obtain ⟨l, h3, rfl⟩ := scanAll_ok h1
    obtain ⟨⟨⟨op, args⟩, m⟩, hl, rfl⟩ := List.mem_map.1 h2
    obtain ⟨hi, he⟩ := h3.mem hl
    obtain ⟨ho, -, -, hw⟩ := (C43_instances t b n P hP op args).1 hi
    simp only [Pddl.applyOp, Res.bind_eq_ok, Res.pure_eq, Res.ok.injEq] at he
    obtain ⟨⟨k, m₁⟩, e1, r, e2, e3⟩ := he
    simp only [childNode]
    subst e3
    rw [valid_iff_hold hP ht hc, axiomsHold_derived B hp hd e2]
    exact hN.apply B ht hp ho hw ((valid_iff_hold hP ht hc fuel _).1 h0) e1

end

/-! ## Examples -/

section
open Demo
attribute [local instance] lenHash

/-- `pick(a)` in the demo domain, in every valid State. -/
example : ∃ N, ∀ s : State, AxiomsHold (tree.constants ++ tree.objects) tree.ops (· ∈ s) → ∀ fuel, N ≤ fuel →
    ∃ k s', pick.apply P.omap P.axioms fuel [a] s = .ok (k, s') ∧
      (AxiomsHold (tree.constants ++ tree.objects) tree.ops (· ∈ s') ↔
        ¬ tree.Contradicted (· ∈ s') (tree.CausesIn (· ∈ s) pick [a])) := by
  obtain ⟨N, h⟩ := C97_apply_partial true 5 P_made demoUp demo_checked demo_plain
  exact ⟨N, fun s hA fuel hn => h pick (by simp [tree]) [a] pick_typed s (pick_free _ _) (pick_unread _) hA fuel hn⟩

/-- `next_state` in the demo domain: whatever `pick(a)` is parsed to. -/
example (s s' : State) (op : Op) (hcall : P.parseAction n!"pick(a)" = .ok (op, [a])) (hop : op = pick)
    (hv : P.isValidState 5 s = .ok true) (h : P.nextState 5 s n!"pick(a)" = .ok s') :
    ∃ k m, op.apply P.omap P.axioms 5 [a] s = .ok (k, m) ∧
      (P.isValidState 5 s' = .ok true ↔ ¬ tree.Contradicted (· ∈ m) (tree.CausesIn (· ∈ s) op [a])) := by
  refine C97_next_partial true 5 P_made demoUp demo_checked demo_plain demo_contexts ?_ 5 5 s s' _ op [a] hcall ?_ ?_ hv h
  · rintro ax hm ha p hp ⟨d, hd, rfl⟩
    simp only [tree, List.mem_cons, List.not_mem_nil, or_false] at hm hd
    subst hd
    rcases hm with rfl | rfl | rfl
    · simp [pick] at ha
    · simp [place] at ha
    · simp [held, busy, Goal.Mentions, Eff.Touches, FList.Touches, CList.Touches, ListsPred, Eff.Reads, FList.Reads, CList.Reads] at hp
  · exact hop ▸ pick_free _ _
  · exact hop ▸ pick_unread _

/-- The domain with `pick` and the axiom that what is in the hand is busy. -/
theorem loadsMade : (Pddl.make (loadTree [loads]) true 5).isOk = true := by decide +kernel
def loadsP : Pddl := get _ loadsMade
theorem loadsP_made : Pddl.make (loadTree [loads]) true 5 = .ok loadsP := get_eq _ _

theorem loads_cases {op : Op} (h : op ∈ (loadTree [loads]).ops) : op = pick ∨ op = loads := by
  simpa [loadTree] using h

theorem loads_checked : (loadTree [loads]).TypeChecked demoUp where
  hier := demo_checked.hier
  names := demo_checked.names
  objects := demo_checked.objects
  predNames := demo_checked.predNames
  preds := demo_checked.preds
  ops := by
    intro op hop
    rcases loads_cases hop with rfl | rfl
    · exact demo_checked.ops pick (by simp [tree])
    · refine ⟨by decide, ?_, ?_, ?_, ?_, fun _ => ⟨by simp [loads], ?_, ?_, ?_⟩⟩
      · simp [loads, Obj.Fits, x, demoUp, Obj.typeName, tBox]
      · simp [loads, Eff.Formed, FList.Formed, CList.Formed, AtomLits, Goal.WF, Term.Scoped, IsType, HasType, loadTree, tree,
          a, b, table, tBox, tObj]
      · simp [loads, Eff.Fresh, FList.Fresh, CList.Fresh]
      · simp [loads, Eff.Checked, FList.Checked, CList.Checked, LitsChecked, Term.IsA, loadTree, tree, HasType, x, Obj.typeName, tBox]
      · simp [loads, Goal.WF, Term.Scoped, IsType, HasType, loadTree, tree, a, b, table, tBox, tObj]
      · constructor <;> simp [loads, Op.ctx, Term.Scoped, varNames]
      · refine ⟨⟨n!"inhand", [x]⟩, by simp [loadTree, tree], rfl, .cons ?_ .nil⟩
        simp [loads, HasType, x, Obj.typeName, tBox]
  drvs := by simp [loadTree]
  init := demo_checked.init

theorem loads_noContradictions : (loadTree [loads]).NoContradictions where
  own := by
    intro op ho p h1 h2
    rcases loads_cases ho with rfl | rfl <;> simp [pick, loads, Eff.Touches, FList.Touches, CList.Touches, ListsPred] at h2
  axioms := by
    rintro op ho sign p h1 ⟨ax, hax, haa, h2⟩
    cases sign
    · rcases loads_cases ho with rfl | rfl <;> simp [pick, loads, Eff.Touches, FList.Touches, CList.Touches, ListsPred] at h1
    · rcases loads_cases hax with rfl | rfl <;> simp [pick, loads, Eff.Touches, FList.Touches, CList.Touches, ListsPred] at h2
  conds := by
    intro op ho p hr
    rcases loads_cases ho with rfl | rfl <;> simp [pick, loads, Eff.Reads, FList.Reads, CList.Reads] at hr
  reads := by
    intro op ho _ p hr
    rcases loads_cases ho with rfl | rfl <;> simp [pick, loads, Eff.Reads, FList.Reads, CList.Reads] at hr

theorem loads_plain : (loadTree [loads]).PlainEffects := by
  intro op hop
  rcases loads_cases hop with rfl | rfl <;>
    simp [pick, loads, Eff.WF, FList.WF, CList.WF, WFLits, Term.Scoped, IsType, HasType, loadTree, tree, a, b, table, tBox, tObj]

theorem loads_contexts : (loadTree [loads]).ContextsClosed := by
  intro op ho _ c hc
  rcases loads_cases ho with rfl | rfl
  · simp [pick, Goal.HasConst, Goal.HasConstL] at hc
  · simp [loads, Goal.HasConst] at hc

theorem loads_underived : (loadTree [loads]).AxiomsUnderived := by
  rintro op ho _ p - ⟨d, hd, -⟩
  simp [loadTree] at hd

/-- All states reached from valid states of this domain are valid; `pick(a)` also makes `a` busy. -/
example : (∀ (calls : List Name) (s s' : State), loadsP.isValidState 5 s = .ok true → loadsP.applyActions 5 s calls = .ok s' →
      loadsP.isValidState 5 s' = .ok true) ∧
    loadsP.applyActions 5 State.empty [n!"pick(a)", n!"pick(b)"] = .ok (State.ofList [inhand a, busyA a, inhand b, busyA b]) := by
  exact ⟨C97_reachable_partial true 5 loadsP_made demoUp loads_checked loads_plain loads_contexts loads_underived
    loads_noContradictions 5 5, by decide +kernel⟩

/-- All nodes of the planner are valid, also from a State in which `a` is in the hand but not busy. -/
example : ∃ root, loadsP.plannerRoot 5 (State.ofList [inhand a]) = .ok root ∧ root.state = State.ofList [inhand a, busyA a] ∧
    ∀ path, IsPath (loadsP.space 5).Child root path → ∀ m ∈ path, loadsP.isValidState 5 m.state = .ok true := by
  have h : loadsP.plannerRoot 5 (State.ofList [inhand a]) = .ok (.root (State.ofList [inhand a, busyA a])) := by decide +kernel
  exact ⟨_, h, rfl, fun path hp => C97_planner_partial true 5 loadsP_made demoUp loads_checked loads_plain loads_contexts
    loads_underived loads_noContradictions 5 _ _ h path hp⟩

/-- `unload(?x)`: eff `(not (busy ?x))`. -/
def unload : Op where
  name := n!"unload"
  params := [x]
  pre := .conj []
  eff := .mk .nil [] [(n!"busy", [.var x])] .nil

theorem unloadMade : (Pddl.make (loadTree [loads, unload]) true 5).isOk = true := by decide +kernel
def unloadP : Pddl := get _ unloadMade

/-- **C97, refuted** without the condition: an action that deletes what an axiom implies leads from a valid state to one that
is not, although nothing is in conflict and no conditions are read. -/
theorem C97_refuted : Pddl.make (loadTree [loads, unload]) true 5 = .ok unloadP ∧
    unloadP.isValidState 5 (State.ofList [inhand a, busyA a]) = .ok true ∧
    unloadP.nextState 5 (State.ofList [inhand a, busyA a]) n!"unload(a)" = .ok (State.ofList [inhand a]) ∧
    unloadP.isValidState 5 (State.ofList [inhand a]) = .ok false :=
  ⟨get_eq _ _, by decide +kernel, by decide +kernel, by decide +kernel⟩

end

end Symbolic
