import Verif.Lemmas.Symmetry
import Verif.Props.Rename
import Verif.Props.Cascade

/-!
# C104: interchangeable objects

`π` exchanges objects that no declaration of the domain tells apart (`Ptree.Symmetry`, Spec/Symmetry.lean). Then exchanging them in
a state and in a call exchanges them in whatever the library answers.

The domain with exchanged objects is the same domain with its objects listed in another order, so this follows from C80 (names)
and C79 (order).
-/

namespace Symbolic

section
variable [StrHash] {t : Ptree} {b : Bool} {n : Nat} {P : Pddl} {π : Name → Name}

/-- The domain with exchanged objects is accepted as well. -/
theorem exchanged (hP : Pddl.make t b n = .ok P) (hπ : t.Symmetry π) (hp : t.PlainEffects) :
    ∃ Q, Pddl.make (t.rename (.objects π)) b n = .ok Q ∧ Renamed (.objects π) P Q := by
  have := C80_constructor_partial (h₁ := ‹StrHash›) (h₂ := ‹StrHash›) (Renaming.objects_proper hπ.inj) t b n (fun op hop ha => by
    refine ⟨.inl ?_, .inr (effWF_enough _ _ (hp op hop))⟩
    obtain ⟨pred, cargs, hctx⟩ := (Pddl.built hP).contexts op hop ha
    obtain ⟨ts, hl, -⟩ := contextOf_iff.1 hctx
    exact ⟨_, _, ts, hl⟩)
  rw [hP] at this
  obtain ⟨Q, hQ, hR⟩ := this.ok_left rfl
  exact ⟨Q, hQ, hR⟩

variable (hP : Pddl.make t b n = .ok P) (hπ : t.Symmetry π) (hp : t.PlainEffects)
  (hnd : ((t.constants ++ t.objects).map Obj.name).Nodup)
include hP hπ hp hnd

/-- **C104, validity.** `IsValidAction` gives the same answer for the exchanged call in the exchanged state, or fails in the same
way. -/
theorem C104_valid_action (hwf : ∀ op ∈ t.ops, op.pre.WF (t.constants ++ t.objects) (op.params.map Obj.name)) {s s' : State}
    (hs : SameState (.objects π) s s') {c d : Name} (hc : SameCall (.objects π) c d) (h1 : OneNamed t.ops (parseHead c)) :
    P.isValidAction s' d = P.isValidAction s c := by
  obtain ⟨Q, hQ, hR⟩ := exchanged hP hπ hp
  have e := (C80_verdicts (Renaming.objects_proper hπ.inj) hR 0 hs hs hc).1
  rw [← e]
  exact C79_valid_action hP hQ (hπ.sameDomain hnd) hnd d (by rw [hc.1]; exact h1) hwf s'

/-- **C104, goals.** If the goal does not tell them apart either, it is satisfied in both states or in none. -/
theorem C104_goal (hgoal : t.goal.WF (t.constants ++ t.objects) []) (hg : t.goal.rename (.objects π) = t.goal) {s s' : State}
    (hs : SameState (.objects π) s s') : P.isGoalSatisfied s' = P.isGoalSatisfied s := by
  obtain ⟨Q, hQ, hR⟩ := exchanged hP hπ hp
  have e := (C80_verdicts (Renaming.objects_proper hπ.inj) hR 0 hs hs (c := []) (d := []) ⟨rfl, by rw [show tokenizeArguments [] = [] by decide]; rfl⟩).2.2.2
  rw [← e]
  exact C79_goal hP hQ (hπ.sameDomain hnd) hg.symm hgoal s'

/-- **C104, listing.** `ListValidActions` returns the exchanged calls, in another order. -/
theorem C104_list (hl : Listable t) (hdist : ((t.ops.filter (!·.isAxiom)).map Op.name).Nodup)
    (htypes : ∀ o ∈ t.constants ++ t.objects, o.listTypes.Nodup) (hclean : ∀ o ∈ t.constants ++ t.objects, CleanArg o.name)
    (hwf : ∀ op ∈ t.ops, op.pre.WF (t.constants ++ t.objects) (op.params.map Obj.name)) {s s' : State}
    (hs : SameState (.objects π) s s') :
    ∃ l l' m, P.listValidActions s = .ok l ∧ P.listValidActions s' = .ok l' ∧ SameCalls (.objects π) l m ∧ m.Perm l' := by
  obtain ⟨Q, hQ, hR⟩ := exchanged hP hπ hp
  obtain ⟨l', m, e1, e2, e3⟩ := C79_list hP hQ (hπ.sameDomain hnd) hnd (hπ.names_nodup hnd) hl
    (by unfold Listable; rw [hπ.ops_eq]; exact hl) hdist (by rw [hπ.ops_eq]; exact hdist) htypes hclean hwf s'
  have e := C80_list (Renaming.objects_proper hπ.inj) hR hs
  obtain ⟨l, e4, e5⟩ := e.ok_right e2
  exact ⟨l, l', m, e4, e1, e5, e3.symm⟩

/-- **C104, derived predicates, partial.** Rules that are not recursive.

Missing for the full claim: recursive rules (compare `C79_rules_refuted`). -/
theorem C104_derived_partial (hwf : ∀ d ∈ t.drvs, d.WF (t.constants ++ t.objects)) (rank : Name → Nat)
    (ha : Acyclic rank t.drvs) (k : Nat) {s s' : State} (hs : SameState (.objects π) s s') {r r' : State}
    (hr : P.derivedState k s = .ok r) (hr' : P.derivedState k s' = .ok r') : SameState (.objects π) r r' := by
  obtain ⟨Q, hQ, hR⟩ := exchanged hP hπ hp
  have e := (C80_closures (Renaming.objects_proper hπ.inj) hR k hs).1
  obtain ⟨q, e1, e2⟩ := e.ok_left hr
  rw [C79_derived_partial hP hQ (hπ.sameDomain hnd) hwf rank ha k k s' r' q hr' e1]
  exact e2

/-- **C104, next states, partial.** An action that triggers no axiom and whose universal effects do not interfere with themselves,
in a domain whose rules are not recursive: the exchanged action leads from the exchanged state to the exchanged state.

Missing for the full claim: see `C79_next_partial`; with axioms, `C104_next_axioms_partial`. -/
theorem C104_next_partial (hwf : ∀ d ∈ t.drvs, d.WF (t.constants ++ t.objects)) (rank : Name → Nat) (ha : Acyclic rank t.drvs)
    {s s' : State} (hs : SameState (.objects π) s s') {c d : Name} (hc : SameCall (.objects π) c d)
    (h1 : OneNamed t.ops (parseHead c)) (hreg : ∀ op ∈ t.ops, op.name = parseHead c → Regular t op) (k : Nat) {r r' : State}
    (hr : P.nextState k s c = .ok r) (hr' : P.nextState k s' d = .ok r') : SameState (.objects π) r r' := by
  obtain ⟨Q, hQ, hR⟩ := exchanged hP hπ hp
  obtain ⟨q, e1, e2⟩ := (C80_next_state (Renaming.objects_proper hπ.inj) hR k hs hc).ok_left hr
  have hh : parseHead d = parseHead c := hc.1
  rw [C79_next_partial hP hQ (hπ.sameDomain hnd) hnd hwf rank ha d (by rw [hh]; exact h1) (by rw [hh]; exact hreg) k k s' r' q
    hr' e1]
  exact e2

/-- **C104, plans, partial.** For calls of such actions, from exchanged states: the exchanged plan is valid iff the plan is, and
fails in the same way otherwise. -/
theorem C104_plan_partial (hgoal : t.goal.WF (t.constants ++ t.objects) []) (hg : t.goal.rename (.objects π) = t.goal)
    (hwf : ∀ d ∈ t.drvs, d.WF (t.constants ++ t.objects)) (hh : (t.drvs.map Drv.head).Nodup) (rank : Name → Nat)
    (ha : Acyclic rank t.drvs) (N : Nat) (hN : ∀ d ∈ t.drvs, rank d.head < N) (k : Nat) (hk : N + 2 ≤ k) {cs ds : List Name}
    (hcs : List.Forall₂ (SameCall (.objects π)) cs ds)
    (hcalls : ∀ d ∈ ds, OneNamed t.ops (parseHead d) ∧ ∀ op ∈ t.ops, op.name = parseHead d → Regular t op) {s s' : State}
    (hs : SameState (.objects π) s s') : P.validPlanFrom k s' ds = P.validPlanFrom k s cs := by
  obtain ⟨Q, hQ, hR⟩ := exchanged hP hπ hp
  have hρ := Renaming.objects_proper hπ.inj
  rw [← validPlanFrom_rename hρ (hR.same hρ) k hcs hs]
  exact validPlanFrom_same hP hQ (hπ.sameDomain hnd) hg.symm hnd (hπ.names_nodup hnd) hgoal hwf hh (by rw [hπ.drvs_eq]; exact hh)
    rank ha N hN k k hk hk ds hcalls s'

end

section
variable [StrHash] {t : Ptree} {b : Bool} {n : Nat} {P : Pddl} {π : Name → Name}
  (hP : Pddl.make t b n = .ok P) (hπ : t.Symmetry π) (hp : t.PlainEffects) (up : Name → List Name) (ht : t.TypeChecked up)
include hP hπ hp ht

/-- **C104, next states with axioms, partial.** The action (with the axioms it triggers) causes nothing to be both true and false,
and nothing that a condition of an effect is about.

Missing for the full claim: the other actions (`C79_effect_refuted`, `C78_order_refuted`), recursive rules. -/
theorem C104_next_axioms_partial (hwf : ∀ d ∈ t.drvs, d.WF (t.constants ++ t.objects)) (rank : Name → Nat)
    (ha : Acyclic rank t.drvs) : ∃ N, ∀ (s s' : State) (c d : Name), SameState (.objects π) s s' → SameCall (.objects π) c d →
      OneNamed t.ops (parseHead c) →
      (∀ op args, P.parseAction d = .ok (op, args) →
        NoConflict (t.CausesIn (· ∈ s') op args) ∧ t.NotRead op (t.CausesIn (· ∈ s') op args)) →
      ∀ k, N ≤ k → ∀ r r', P.nextState k s c = .ok r → P.nextState k s' d = .ok r' → SameState (.objects π) r r' := by
  obtain ⟨Q, hQ, hR⟩ := exchanged hP hπ hp
  obtain ⟨N, hN⟩ := C79_next_axioms_partial hP hQ (hπ.sameDomain ht.names) up up ht (hπ.typeChecked ht) hp hwf rank ha
  refine ⟨N, fun s s' c d hs hc h1 hcf k hk r r' hr hr' => ?_⟩
  obtain ⟨q, e1, e2⟩ := (C80_next_state (Renaming.objects_proper hπ.inj) hR k hs hc).ok_left hr
  rw [hN d (by rw [hc.1]; exact h1) s' hcf k k hk hk r' q hr' e1]
  exact e2

/-- **C104, plans with axioms, partial.** If the goal and the initial state do not tell the objects apart, the exchanged plan is
valid iff the plan is. -/
theorem C104_plan_axioms_partial
    (hpre : ∀ op ∈ t.ops, op.pre.WF (t.constants ++ t.objects) (op.params.map Obj.name))
    (hgoal : t.goal.WF (t.constants ++ t.objects) []) (hg : t.goal.rename (.objects π) = t.goal)
    (hwf : ∀ d ∈ t.drvs, d.WF (t.constants ++ t.objects)) (hh : (t.drvs.map Drv.head).Nodup) (rank : Name → Nat)
    (ha : Acyclic rank t.drvs) : ∃ N, ∀ cs ds : List Name, List.Forall₂ (SameCall (.objects π)) cs ds →
      (∀ d ∈ ds, OneNamed t.ops (parseHead d) ∧ ∀ op args, P.parseAction d = .ok (op, args) → ∀ s : State,
        NoConflict (t.CausesIn (· ∈ s) op args) ∧ t.NotRead op (t.CausesIn (· ∈ s) op args)) →
      ∀ k, N ≤ k → (∀ s s' : State, SameState (.objects π) s s' → P.validPlanFrom k s' ds = P.validPlanFrom k s cs) ∧
        (SameState (.objects π) P.initial P.initial → P.isValidPlan k ds = P.isValidPlan k cs) := by
  obtain ⟨Q, hQ, hR⟩ := exchanged hP hπ hp
  obtain ⟨N, hN⟩ := validPlanFrom_same_axioms hP hQ (hπ.sameDomain ht.names) hg.symm up up ht (hπ.typeChecked ht) hp hpre hgoal
    hwf hh (by rw [hπ.drvs_eq]; exact hh) rank ha
  refine ⟨N, fun cs ds hcs hcalls k hk => ?_⟩
  have hρ := Renaming.objects_proper hπ.inj
  have key : ∀ s s' : State, SameState (.objects π) s s' → P.validPlanFrom k s' ds = P.validPlanFrom k s cs := by
    intro s s' hs
    rw [← validPlanFrom_rename hρ (hR.same hρ) k hcs hs]
    exact hN ds hcalls s' k k hk hk
  exact ⟨key, fun h => key _ _ h⟩

end

section
open Demo
attribute [local instance] lenHash

/-! ## Examples -/

/-- Exchange the boxes `a` and `b`. -/
def swapAB (n : Name) : Name := if n = n!"a" then n!"b" else if n = n!"b" then n!"a" else n

/-- The goal `(exists (?u - box) (inhand ?u))` does not say which box. -/
def anyTree : Ptree := { tree with goal := .ex [u] (.atom n!"inhand" [.var u]) }

theorem any_symmetry : anyTree.Symmetry swapAB where
  inj := by
    intro x y h
    unfold swapAB at h
    split_ifs at h <;> simp_all
  objects := by decide +kernel
  ops := by
    intro op hop
    simp only [anyTree, tree, List.mem_cons, List.not_mem_nil, or_false] at hop
    rcases hop with rfl | rfl | rfl <;> rfl
  drvs := by
    intro d hd
    simp only [anyTree, tree, List.mem_cons, List.not_mem_nil, or_false] at hd
    subst hd
    rfl
  preds := by
    intro p hp
    simp only [anyTree, tree, List.mem_cons, List.not_mem_nil, or_false] at hp
    rcases hp with rfl | rfl | rfl <;> rfl

theorem anyMade : (Pddl.make anyTree false 5).isOk = true := by decide +kernel
def anyP : Pddl := get _ anyMade
theorem anyP_made : Pddl.make anyTree false 5 = .ok anyP := get_eq _ _

theorem any_plain : anyTree.PlainEffects := demo_plain
theorem any_names : ((anyTree.constants ++ anyTree.objects).map Obj.name).Nodup := demo_checked.names
theorem any_checked : anyTree.TypeChecked demoUp :=
  ⟨demo_checked.hier, demo_checked.names, demo_checked.objects, demo_checked.predNames, demo_checked.preds, demo_checked.ops,
    demo_checked.drvs, demo_checked.init⟩

theorem any_pre : ∀ op ∈ anyTree.ops, op.pre.WF (anyTree.constants ++ anyTree.objects) (op.params.map Obj.name) := by
  intro op hop
  simp only [anyTree, tree, List.mem_cons, List.not_mem_nil, or_false] at hop
  rcases hop with rfl | rfl | rfl
  · simp [pick, Goal.WF, Goal.WFs, Term.Scoped, IsType, HasType, anyTree, tree, a, b, table, tBox, tObj, u, x]
  · simp [place, Goal.WF, Goal.WFs, Term.Scoped, IsType, HasType, anyTree, tree, a, b, table, tBox, tObj, x, y]
  · simp [held, Goal.WF, Term.Scoped, IsType, HasType, anyTree, tree, a, b, table, tBox, tObj, x]

theorem any_drvs : ∀ d ∈ anyTree.drvs, d.WF (anyTree.constants ++ anyTree.objects) := by
  intro d hd
  simp only [anyTree, tree, List.mem_singleton] at hd
  subst hd
  exact ⟨by simp [busy], by simp [busy, Goal.WF, Goal.WFs, Term.Scoped, IsType, HasType, anyTree, tree, a, b, table, tBox, tObj]⟩

theorem any_acyclic : Acyclic (fun _ => 0) anyTree.drvs := by
  intro d hd p n hm hh
  simp only [anyTree, tree, List.mem_singleton] at hd
  subst hd
  obtain ⟨d', hd', rfl⟩ := hh
  simp only [anyTree, tree, List.mem_singleton] at hd'
  subst hd'
  simp [busy, Goal.Mentions, Goal.MentionsL] at hm

theorem any_goal : anyTree.goal.WF (anyTree.constants ++ anyTree.objects) [] := by
  simp [Goal.WF, Term.Scoped, IsType, HasType, anyTree, tree, a, b, table, tBox, tObj, u]

theorem any_goal_same : anyTree.goal.rename (.objects swapAB) = anyTree.goal := rfl

theorem pick_same : SameCall (.objects swapAB) n!"pick(b)" n!"pick(a)" := ⟨by decide, by decide⟩

theorem any_pick_named : OneNamed anyTree.ops (parseHead n!"pick(a)") := by
  have hh : parseHead n!"pick(a)" = n!"pick" := by decide
  intro op hm op' hm' e e'
  simp only [anyTree, tree, List.mem_cons, List.not_mem_nil, or_false] at hm hm'
  rw [hh] at e e'
  rcases hm with rfl | rfl | rfl <;> rcases hm' with rfl | rfl | rfl <;> first | rfl | (simp [place, pick, held] at e e')

/-- The initial state is symmetric. -/
theorem any_initial : SameState (.objects swapAB) anyP.initial anyP.initial := by
  have h : ∀ x, anyP.initial.Has x ↔ x = on a table ∨ x = on b table := by
    have e : anyP.initial = State.ofList [on a table, on b table] := by decide +kernel
    intro x
    rw [e]
    exact State.mem_ofList.trans (by simp)
  intro x
  simp only [h]
  constructor
  · rintro (rfl | rfl)
    · exact ⟨on b table, .inr rfl, by decide⟩
    · exact ⟨on a table, .inl rfl, by decide⟩
  · rintro ⟨y, rfl | rfl, rfl⟩
    · exact .inr (by decide)
    · exact .inl (by decide)

/-- `pick(a)` is valid in the exchanged state iff `pick(b)` is valid. -/
example (s s' : State) (hs : SameState (.objects swapAB) s s') :
    anyP.isValidAction s' n!"pick(a)" = anyP.isValidAction s n!"pick(b)" :=
  C104_valid_action anyP_made any_symmetry any_plain any_names any_pre hs pick_same (by
    have e : parseHead n!"pick(b)" = parseHead n!"pick(a)" := by decide
    rw [e]; exact any_pick_named)

/-- The goal. -/
example (s s' : State) (hs : SameState (.objects swapAB) s s') : anyP.isGoalSatisfied s' = anyP.isGoalSatisfied s :=
  C104_goal anyP_made any_symmetry any_plain any_names any_goal any_goal_same hs

theorem any_causes {S : Atom → Prop} {so : Bool → Atom → Prop} {op : Op} {args : List Obj} {sign : Bool} {q : Atom}
    (h : anyTree.Causes S so op args sign q) : tree.Causes S so op args sign q := by
  induction h with
  | own h => exact .own h
  | triggered h1 h2 _ h4 h5 h6 ih => exact .triggered h1 h2 ih h4 h5 h6

theorem any_pick_free : ∀ op args, anyP.parseAction n!"pick(a)" = .ok (op, args) → ∀ s : State,
    NoConflict (anyTree.CausesIn (· ∈ s) op args) ∧ anyTree.NotRead op (anyTree.CausesIn (· ∈ s) op args) := by
  intro op args e s
  have hh : parseHead n!"pick(a)" = n!"pick" := by decide
  have e1 := parseAction_name e
  obtain ⟨hm, -⟩ := parseAction_ok e
  have e2 : (anyP.parseAction n!"pick(a)" >>= fun oa => pure oa.2) = .ok [a] := by decide +kernel
  rw [e] at e2
  simp only [Res.bind_ok, Res.pure_eq, Res.ok.injEq] at e2
  subst e2
  rw [(Pddl.built anyP_made).tree] at hm
  simp only [anyTree, tree, List.mem_cons, List.not_mem_nil, or_false] at hm
  rw [hh] at e1
  rcases hm with rfl | rfl | rfl
  · exact ⟨fun q h1 h2 => pick_free _ _ q (any_causes h1) (any_causes h2),
      fun sign q h => pick_unread _ sign q (any_causes h)⟩
  · simp [place] at e1
  · simp [held] at e1

/-- Taking `a` reaches the goal iff taking `b` does, although taking either triggers an axiom. -/
example : ∃ N, ∀ k, N ≤ k → anyP.isValidPlan k [n!"pick(a)"] = anyP.isValidPlan k [n!"pick(b)"] := by
  obtain ⟨N, h⟩ := C104_plan_axioms_partial anyP_made any_symmetry any_plain demoUp any_checked any_pre any_goal any_goal_same
    any_drvs (by decide) (fun _ => 0) any_acyclic
  refine ⟨N, fun k hk => (h [n!"pick(b)"] [n!"pick(a)"] (.cons pick_same .nil) ?_ k hk).2 any_initial⟩
  intro d hd
  rw [List.mem_singleton] at hd
  subst hd
  exact ⟨any_pick_named, any_pick_free⟩

/-- Both are valid plans. -/
example : anyP.isValidPlan 5 [n!"pick(a)"] = .ok true ∧ anyP.isValidPlan 5 [n!"pick(b)"] = .ok true := by decide +kernel

/-- The same for the states they lead to. -/
example : ∃ N, ∀ (s s' : State), SameState (.objects swapAB) s s' → ∀ k, N ≤ k → ∀ r r',
    anyP.nextState k s n!"pick(b)" = .ok r → anyP.nextState k s' n!"pick(a)" = .ok r' → SameState (.objects swapAB) r r' := by
  obtain ⟨N, h⟩ := C104_next_axioms_partial anyP_made any_symmetry any_plain demoUp any_checked any_drvs (fun _ => 0) any_acyclic
  refine ⟨N, fun s s' hs k hk => h s s' _ _ hs pick_same ?_ (fun op args e => any_pick_free op args e s') k hk⟩
  have e : parseHead n!"pick(b)" = parseHead n!"pick(a)" := by decide
  rw [e]
  exact any_pick_named

theorem any_place_regular : Regular anyTree place := by
  have ho : anyTree.constants ++ anyTree.objects = [table, a, b] := rfl
  refine ⟨any_pre place (by simp [anyTree, tree]), any_plain place (by simp [anyTree, tree]), ?_, ?_⟩
  · simp [place, Eff.Uniform, FList.Uniform, CList.Uniform]
  · intro ax hm ha
    simp only [anyTree, tree, List.mem_cons, List.not_mem_nil, or_false] at hm
    rcases hm with rfl | rfl | rfl
    · simp [pick] at ha
    · simp [place] at ha
    · simp [held, place, Op.ctxSign, Op.ctxPred, Eff.Touches, FList.Touches, CList.Touches, ListsPred]

theorem any_place_calls : ∀ d ∈ [n!"place(a, table)"], OneNamed anyTree.ops (parseHead d) ∧
    ∀ op ∈ anyTree.ops, op.name = parseHead d → Regular anyTree op := by
  have hh : parseHead n!"place(a, table)" = n!"place" := by decide
  intro d hd
  rw [List.mem_singleton] at hd
  subst hd
  rw [hh]
  constructor
  · intro op hm op' hm' e e'
    simp only [anyTree, tree, List.mem_cons, List.not_mem_nil, or_false] at hm hm'
    rcases hm with rfl | rfl | rfl <;> rcases hm' with rfl | rfl | rfl <;> first | rfl | (simp [place, pick, held] at e e')
  · intro op hm e
    simp only [anyTree, tree, List.mem_cons, List.not_mem_nil, or_false] at hm
    rcases hm with rfl | rfl | rfl
    · simp [pick] at e
    · exact any_place_regular
    · simp [held] at e

theorem place_same : SameCall (.objects swapAB) n!"place(b, table)" n!"place(a, table)" := ⟨by decide, by decide⟩

/-- `place` triggers no axiom. -/
example (s s' : State) (hs : SameState (.objects swapAB) s s') (r r' : State)
    (hr : anyP.nextState 5 s n!"place(b, table)" = .ok r) (hr' : anyP.nextState 5 s' n!"place(a, table)" = .ok r') :
    SameState (.objects swapAB) r r' ∧
      anyP.validPlanFrom 5 s' [n!"place(a, table)"] = anyP.validPlanFrom 5 s [n!"place(b, table)"] := by
  have e : parseHead n!"place(b, table)" = parseHead n!"place(a, table)" := by decide
  obtain ⟨h1, h2⟩ := any_place_calls _ (List.mem_singleton.2 rfl)
  exact ⟨C104_next_partial anyP_made any_symmetry any_plain any_names any_drvs (fun _ => 0) any_acyclic hs place_same
      (by rw [e]; exact h1) (by rw [e]; exact h2) 5 hr hr',
    C104_plan_partial anyP_made any_symmetry any_plain any_names any_goal any_goal_same any_drvs (by decide) (fun _ => 0)
      any_acyclic 1 (by simp) 5 (by omega) (.cons place_same .nil) any_place_calls hs⟩

/-- Listing, and derived predicates. -/
example (s s' : State) (hs : SameState (.objects swapAB) s s') : (∃ l l' m, anyP.listValidActions s = .ok l ∧
    anyP.listValidActions s' = .ok l' ∧ SameCalls (.objects swapAB) l m ∧ m.Perm l') ∧ ∀ r r', anyP.derivedState 5 s = .ok r →
    anyP.derivedState 5 s' = .ok r' → SameState (.objects swapAB) r r' :=
  ⟨C104_list anyP_made any_symmetry any_plain any_names demo_listable.1 demo_listable.2.2.1 demo_listable.2.2.2
      demo_listable.2.1 any_pre hs,
    fun _ _ hr hr' => C104_derived_partial anyP_made any_symmetry any_plain any_names any_drvs (fun _ => 0) any_acyclic 5 hs hr
      hr'⟩

/-- **C104, refuted** for a goal that tells the objects apart: `on(a, b)` is reached by a plan, but not by the exchanged one. -/
theorem C104_goal_refuted : tree.Symmetry swapAB ∧ SameState (.objects swapAB) anyP.initial anyP.initial ∧
    P.validPlanFrom 5 anyP.initial [n!"pick(a)", n!"place(a, b)"] = .ok true ∧
    P.validPlanFrom 5 anyP.initial [n!"pick(b)", n!"place(b, a)"] = .ok false :=
  ⟨⟨any_symmetry.inj, any_symmetry.objects, any_symmetry.ops, any_symmetry.drvs, any_symmetry.preds⟩, any_initial,
    by decide +kernel, by decide +kernel⟩

end

end Symbolic
