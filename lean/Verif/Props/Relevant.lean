import Verif.Lemmas.RelevantBuf
import Verif.Props.BuffersApi
import Verif.Props.Complete

/-!
# C103: facts that nothing depends on do not matter
-/

namespace Symbolic

section
variable [StrHash] {t : Ptree} {P : Pddl} {R : Name → Prop}

/-- The call is not of an axiom. -/
def NotAxiomCall (P : Pddl) (call : Name) : Prop := ∀ op args, P.parseAction call = .ok (op, args) → op.isAxiom = false

theorem Ptree.Relevant.isValid (hR : t.Relevant R) {op : Op} (ho : op ∈ t.ops) (ha : op.isAxiom = false) {m : ObjMap}
    {s s' : State} (h : SameOn R (· ∈ s) (· ∈ s')) (args : List Obj) : op.isValid m s args = op.isValid m s' args :=
  (lookState R).eval h m op.pre op.params args (hR.pre op ho ha)

/-- **C103.** On States with the same atoms of relevant predicates, `IsValidAction`, `IsGoalSatisfied` and `ListValidActions` give
the same answers, exceptions included. -/
theorem C103_tests (b : Bool) (n : Nat) (hP : Pddl.make t b n = .ok P) (hR : t.Relevant R) (s s' : State)
    (h : SameOn R (· ∈ s) (· ∈ s')) :
    (∀ call, NotAxiomCall P call → P.isValidAction s call = P.isValidAction s' call) ∧
      P.isGoalSatisfied s = P.isGoalSatisfied s' ∧ P.listValidActions s = P.listValidActions s' := by
  have B := Pddl.built hP
  refine ⟨fun call hc => ?_, ?_, ?_⟩
  · simp only [Pddl.isValidAction]
    cases hp : P.parseAction call with
    | ok r =>
      obtain ⟨op, args⟩ := r
      obtain ⟨ho, -⟩ := parseAction_ok hp
      rw [B.tree] at ho
      exact hR.isValid ho (hc op args hp) h args
    | _ => rfl
  · simp only [Pddl.isGoalSatisfied, B.tree]
    exact (lookState R).eval h _ _ _ _ hR.goal
  · have hl : ∀ ops : List Op, (∀ op ∈ ops, op ∈ t.ops ∧ op.isAxiom = false) → P.listLoop s ops = P.listLoop s' ops := by
      intro ops
      induction ops with
      | nil => exact fun _ => rfl
      | cons op ops ih =>
        intro ho
        have hf : ∀ l, P.filterValid s op l = P.filterValid s' op l := by
          intro l
          induction l with
          | nil => rfl
          | cons as l ih2 =>
            simp only [Pddl.filterValid, ih2, hR.isValid (ho op (by simp)).1 (ho op (by simp)).2 h]
        simp only [Pddl.listLoop, Pddl.listValidArguments, hf, ih (fun op' h' => ho op' (by simp [h']))]
    refine hl _ fun op ho => ?_
    rw [B.actions, List.mem_filter] at ho
    simpa using ho

theorem Ptree.Relevant.axs (hR : t.Relevant R) (B : P.Built t) :
    ∀ ax ∈ P.axioms, ax.op.eff.Relevant R ∧ (ax.op.eff.TouchesIn R → R ax.pred) := by
  intro ax hax
  obtain ⟨h1, h2, -⟩ := B.ax hax
  refine ⟨hR.eff _ h1, fun h => ?_⟩
  rw [(B.context hax).2]
  exact hR.axioms _ h1 h2 h

theorem Ptree.Relevant.applyOpB (hR : t.Relevant R) (B : P.Built t) {op : Op} (ho : op ∈ t.ops) (ids : Name → Nat) {args : List Obj}
    {s s' : State} {fuel fuel' : Nat} (h : SameOn R (· ∈ s) (· ∈ s')) :
    RunTwo R (fun r r' => SameOn R (· ∈ r) (· ∈ r')) (P.applyOpB ids fuel op args s) (P.applyOpB ids fuel' op args s') := by
  unfold Pddl.applyOpB
  refine (Op.run_two (lookState R) (hR.axs B) (hR.eff op ho) fuel fuel' (ids op.name) args h).bind fun q q' hq => ?_
  have hdr : P.drvs = t.drvs := by rw [Pddl.drvs, B.tree]
  intro st st' r r' hs e e'
  obtain ⟨p, h1, h2, h3⟩ := BufM.bind_ok e
  obtain ⟨p', h1', h2', h3'⟩ := BufM.bind_ok e'
  simp only [BufM.lift, BufM.pure_run, Res.ok.injEq] at h1 h2 h3 h1' h2' h3'
  rw [h3, h3', ← h2, ← h2']
  rw [hdr] at h1 h1'
  exact ⟨drvsFix_same hR.rules hq h1 h1', hs⟩

/-- **C103.** `NextState` and `ApplyActions` lead from such States to such States, when they return. Applying an action to
PartialStates that agree on relevant predicates leads to such PartialStates. The buffers of the actions may come from whatever calls
were made before; axioms may trigger themselves and overwrite their own arguments. -/
theorem C103_next (b : Bool) (n : Nat) (hP : Pddl.make t b n = .ok P) (hR : t.Relevant R) (ids : Name → Nat) (fuel fuel' : Nat) :
    (∀ (history history' : List Pddl.ApiCall) (s s' r r' : State) (call : Name), SameOn R (· ∈ s) (· ∈ s') →
      (P.nextStateB ids fuel s call (P.runApi ids fuel history Store.init)).1 = .ok r →
      (P.nextStateB ids fuel' s' call (P.runApi ids fuel' history' Store.init)).1 = .ok r' → SameOn R (· ∈ r) (· ∈ r')) ∧
    (∀ (history history' : List Pddl.ApiCall) (calls : List Name) (s s' r r' : State), SameOn R (· ∈ s) (· ∈ s') →
      (P.applyActionsB ids fuel s calls (P.runApi ids fuel history Store.init)).1 = .ok r →
      (P.applyActionsB ids fuel' s' calls (P.runApi ids fuel' history' Store.init)).1 = .ok r' → SameOn R (· ∈ r) (· ∈ r')) ∧
    ∀ (history history' : List (ActionCall PartialState)), ∀ op ∈ t.ops, ∀ (args : List Obj) (s s' : PartialState)
      (r r' : Nat × PartialState), SameOn R (· ∈ s.pos) (· ∈ s'.pos) → SameOn R (· ∈ s.neg) (· ∈ s'.neg) →
      (op.run P.omap P.axioms fuel (ids op.name) args s (runCalls P.omap P.axioms fuel history Store.init)).1 = .ok r →
      (op.run P.omap P.axioms fuel' (ids op.name) args s' (runCalls P.omap P.axioms fuel' history' Store.init)).1 = .ok r' →
      SameOn R (· ∈ r.2.pos) (· ∈ r'.2.pos) ∧ SameOn R (· ∈ r.2.neg) (· ∈ r'.2.neg) := by
  have B := Pddl.built hP
  have one : ∀ (call : Name) (op : Op) (args : List Obj), P.parseAction call = .ok (op, args) → op ∈ t.ops := by
    intro call op args h1
    obtain ⟨ho, -⟩ := parseAction_ok h1
    rwa [B.tree] at ho
  have parse : ∀ call, RunTwo R (fun oa oa' => oa = oa' ∧ P.parseAction call = .ok oa) (BufM.lift (P.parseAction call))
      (BufM.lift (P.parseAction call)) := fun call st st' oa oa' hs e e' => by
    simp only [BufM.lift] at e e' ⊢
    refine ⟨⟨?_, e⟩, hs⟩
    rw [e, Res.ok.injEq] at e'
    exact e'
  refine ⟨fun hi hi' s s' r r' call h e e' => ?_, fun hi hi' calls s s' r r' h e e' => ?_,
    fun hi hi' op ho args s s' r r' h1 h2 e e' => ?_⟩
  · rw [(C18_api_history_independent P ids fuel _).1] at e
    rw [(C18_api_history_independent P ids fuel' _).1] at e'
    refine ((parse call).bind (Q' := fun r r' => SameOn R (· ∈ r) (· ∈ r')) ?_ Store.init Store.init r r' (.refl _) e e').1
    rintro ⟨op, args⟩ _ ⟨rfl, hp⟩
    exact hR.applyOpB B (one _ _ _ hp) ids h
  · rw [(C18_api_history_independent P ids fuel _).2.1] at e
    rw [(C18_api_history_independent P ids fuel' _).2.1] at e'
    have all : ∀ (calls : List Name) (s s' : State), SameOn R (· ∈ s) (· ∈ s') →
        RunTwo R (fun r r' => SameOn R (· ∈ r) (· ∈ r')) (P.applyActionsB ids fuel s calls) (P.applyActionsB ids fuel' s' calls) := by
      intro calls
      induction calls with
      | nil => exact fun s s' h => RunTwo.pure h
      | cons call calls ih =>
        intro s s' h
        rw [Pddl.applyActionsB, Pddl.applyActionsB]
        refine (parse call).bind ?_
        rintro ⟨op, args⟩ _ ⟨rfl, hp⟩
        exact (hR.applyOpB B (one _ _ _ hp) ids h).bind fun q q' hq => ih q q' hq
    exact (all calls s s' h Store.init Store.init r r' (.refl _) e e').1
  · have h18 := C18_action_history_independent (σ := PartialState) P.omap P.axioms
    rw [h18 fuel hi ⟨ids op.name, op, args, s⟩] at e
    rw [h18 fuel' hi' ⟨ids op.name, op, args, s'⟩] at e'
    exact (Op.run_two (lookPartial R) (hR.axs B) (hR.eff op ho) fuel fuel' (ids op.name) args ⟨h1, h2⟩ Store.init Store.init r r'
      (.refl _) e e').1

/-- **C103.** `IsValidPlan` gives the same answer from such States, when it returns, whatever calls were made before. -/
theorem C103_plan (b : Bool) (n : Nat) (hP : Pddl.make t b n = .ok P) (hR : t.Relevant R) (ids : Name → Nat) (fuel fuel' : Nat)
    (history history' : List Pddl.ApiCall) (calls : List Name) (hc : ∀ call ∈ calls, NotAxiomCall P call) (s s' : State)
    (h : SameOn R (· ∈ s) (· ∈ s')) (v v' : Bool)
    (e : (P.validPlanFromB ids fuel s calls (P.runApi ids fuel history Store.init)).1 = .ok v)
    (e' : (P.validPlanFromB ids fuel' s' calls (P.runApi ids fuel' history' Store.init)).1 = .ok v') : v = v' := by
  have B := Pddl.built hP
  rw [(validPlanFromB_det P ids fuel calls _ _ _ (runApi_inv P ids fuel _ BufInv.init) BufInv.init (by simp)).1] at e
  rw [(validPlanFromB_det P ids fuel' calls _ _ _ (runApi_inv P ids fuel' _ BufInv.init) BufInv.init (by simp)).1] at e'
  have all : ∀ (calls : List Name), (∀ call ∈ calls, NotAxiomCall P call) → ∀ (s s' : State), SameOn R (· ∈ s) (· ∈ s') →
      RunTwo R (· = ·) (P.validPlanFromB ids fuel s calls) (P.validPlanFromB ids fuel' s' calls) := by
    intro calls
    induction calls with
    | nil =>
      intro _ s s' h
      rw [Pddl.validPlanFromB, Pddl.validPlanFromB, (C103_tests b n hP hR s s' h).2.1]
      exact .lift _
    | cons call calls ih =>
      intro hc s s' h
      rw [Pddl.validPlanFromB, Pddl.validPlanFromB]
      intro st st' v v' hs ea eb
      obtain ⟨⟨op, args⟩, h1, h2, h3⟩ := BufM.bind_ok ea
      obtain ⟨⟨op', args'⟩, h1', h2', h3'⟩ := BufM.bind_ok eb
      rw [h3, h3']
      simp only [BufM.lift] at h1 h1'
      have hoa := h1
      rw [h1, Res.ok.injEq, Prod.mk.injEq] at h1'
      obtain ⟨rfl, rfl⟩ := h1'
      obtain ⟨ho, -⟩ := parseAction_ok hoa
      rw [B.tree] at ho
      refine RunTwo.bind (Q := (· = ·)) ?_ ?_ st st' v v' hs h2 h2'
      · rw [hR.isValid ho (hc call (by simp) op args hoa) h]
        exact .lift _
      · rintro w _ rfl
        split
        · exact (hR.applyOpB B ho ids h).bind fun q q' hq => ih (fun c hm => hc c (by simp [hm])) q q' hq
        · exact .pure rfl
  exact (all calls hc s s' h Store.init Store.init v v' (.refl _) e e').1

end

/-! ## Examples -/

section
open Demo
attribute [local instance] lenHash

/-- Nothing in the demo domain depends on the derived predicate `busy`. -/
theorem demo_relevant : tree.Relevant (· ≠ n!"busy") := by
  refine ⟨?_, ?_, ?_, ?_, ?_⟩
  · intro op ho _ p n hp
    simp only [tree, List.mem_cons, List.not_mem_nil, or_false] at ho
    rcases ho with rfl | rfl | rfl <;> simp only [pick, place, held, Goal.Mentions, Goal.MentionsL] at hp <;> aesop
  · intro p n hp
    simp only [tree, Goal.Mentions] at hp
    simp [hp.1]
  · intro op ho
    simp only [tree, List.mem_cons, List.not_mem_nil, or_false] at ho
    rcases ho with rfl | rfl | rfl <;> simp [pick, place, held, Eff.Relevant, FList.Relevant, CList.Relevant]
  · intro op ho ha _
    simp only [tree, List.mem_cons, List.not_mem_nil, or_false] at ho
    rcases ho with rfl | rfl | rfl <;> simp [pick, place, held, Op.ctxPred] at ha ⊢
  · intro d hd hR
    simp only [tree, List.mem_singleton] at hd
    subst hd
    exact absurd rfl hR

/-- A plan from a State with wrong facts about `busy`, after calls about other States. -/
example (ids : Name → Nat) (v : Bool) (h : (P.validPlanFromB ids 5 (State.ofList [on a table, on b table, busyA a])
    [n!"pick(a)", n!"place(a, b)"] (P.runApi ids 5 [.next (State.ofList [on b table]) n!"pick(b)"] Store.init)).1 = .ok v) :
    v = true := by
  refine (C103_plan true 5 P_made demo_relevant ids 5 5 [] _ [n!"pick(a)", n!"place(a, b)"] ?_
    (State.ofList [on a table, on b table]) _ ?_ true v ?_ h).symm
  · intro call hc op args hp
    simp only [List.mem_cons, List.not_mem_nil, or_false] at hc
    rcases hc with rfl | rfl
    · have : P.parseAction n!"pick(a)" = .ok (pick, [a]) := by rfl
      rw [this, Res.ok.injEq, Prod.mk.injEq] at hp
      rw [← hp.1]; rfl
    · have : P.parseAction n!"place(a, b)" = .ok (place, [a, b]) := by rfl
      rw [this, Res.ok.injEq, Prod.mk.injEq] at hp
      rw [← hp.1]; rfl
  · intro x hx
    have : x ≠ busyA a := by rintro rfl; exact hx rfl
    simp [this]
  · exact ((C55_api_partial ids 5 _ Buffers.demo_ranked []).2.2 _).trans (by decide +kernel)

/-- The same answers and, after an action, the same States. -/
example : P.listValidActions (State.ofList [on a table, on b table]) =
      P.listValidActions (State.ofList [on a table, on b table, busyA a]) ∧
    P.nextState 5 (State.ofList [on a table, on b table]) n!"pick(b)" = .ok (State.ofList [on a table, inhand b, busyA b]) ∧
    P.nextState 5 (State.ofList [on a table, on b table, busyA a]) n!"pick(b)" = .ok (State.ofList [on a table, inhand b, busyA b]) := by
  refine ⟨(C103_tests true 5 P_made demo_relevant _ _ fun x hx => ?_).2.2, by decide +kernel, by decide +kernel⟩
  have : x ≠ busyA a := by rintro rfl; exact hx rfl
  simp [this]

end

end Symbolic
