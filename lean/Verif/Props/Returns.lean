import Verif.Lemmas.Returns
import Verif.Lemmas.ActionBuf
import Verif.Lemmas.AxiomState
import Verif.Spec.WellFormed
import Verif.Props.Plans

/-!
# C56: calls return
-/

namespace Symbolic

theorem rank_bound {α : Type} (f : α → Nat) : ∀ l : List α, ∃ N, ∀ a ∈ l, f a < N
  | [] => ⟨0, by simp⟩
  | a :: l => by
    obtain ⟨N, h⟩ := rank_bound f l
    refine ⟨N + f a + 1, fun x hx => ?_⟩
    rcases List.mem_cons.1 hx with rfl | hx
    · omega
    · have := h x hx; omega

theorem effs_bound (rank : Bool → Name → Nat) : ∀ ops : List Op, ∃ N, ∀ op ∈ ops, ∀ sign p, op.eff.Touches sign p →
    rank sign p < N
  | [] => ⟨0, by simp⟩
  | op :: ops => by
    obtain ⟨N, h⟩ := effs_bound rank ops
    obtain ⟨M, h'⟩ := Eff.bounded rank op.eff
    refine ⟨N + M, fun x hx sign p ht => ?_⟩
    rcases List.mem_cons.1 hx with rfl | hx
    · have := h' sign p ht; omega
    · have := h x hx sign p ht; omega

section
variable [StrHash] {t : Ptree} {P : Pddl}

theorem Pddl.Built.context (B : P.Built t) {ax : Ax} (h : ax ∈ P.axioms) :
    ax.pos = ax.op.ctxSign ∧ ax.pred = ax.op.ctxPred := by
  obtain ⟨-, -, h, -⟩ := B.ax h
  unfold contextOf at h
  unfold Op.ctxSign Op.ctxPred
  split at h <;> simp_all

theorem Pddl.Built.ranked (B : P.Built t) {rank : Bool → Name → Nat}
    (hr : ∀ op ∈ t.ops, op.isAxiom = true → ∀ sign p, op.eff.Touches sign p → rank sign p < rank op.ctxSign op.ctxPred) :
    Ranked rank P.axioms := by
  intro ax hm sign p ht
  obtain ⟨h1, h2, -⟩ := B.ax hm
  obtain ⟨h3, h4⟩ := B.context hm
  rw [h3, h4]
  exact hr _ h1 h2 sign p ht

theorem Pddl.Built.created (B : P.Built t) {op : Op} (h : op ∈ t.ops) :
    op.eff.create (ObjMap.create (t.constants ++ t.objects)) P.axioms op.params = .ok () := by
  have := B.ops op h
  simp only [Op.create, Res.bind_eq_ok, B.omap] at this
  obtain ⟨_, -, ⟨⟩, -, h⟩ := this
  exact h

/-- Applying an action of a well-formed domain without loops returns. -/
theorem Pddl.Built.apply_returns (B : P.Built t) (hw : t.WellFormed) (hl : t.NoLoops) :
    ∃ F, ∀ op ∈ t.ops, ∀ as (s : State) n, F ≤ n → op.params.length = as.length → ∃ r, op.apply P.omap P.axioms n as s = .ok r := by
  obtain ⟨rank, hr⟩ := hl.axioms
  obtain ⟨N, hN⟩ := effs_bound rank t.ops
  refine ⟨N, fun op ho as s n hn hlen => ?_⟩
  rw [B.omap]
  refine NoFail.returns (Eff.apply_noFail (condReturns_state (t.constants ++ t.objects)) (fireN_safe (condReturns_state _) (fun ax hm => ?_) n) op.eff _ _ s
    hlen (hw.eff op ho) (B.created ho)) ?_
  · exact ⟨hw.eff _ (B.ax hm).1, B.created (B.ax hm).1⟩
  · exact Eff.apply_ne_fuel _ (fireN_total _ (B.ranked hr) n) op.eff _ _ _ (fun sg p ht => by
      have := hN op ho sg p ht; show rank sg p < n; omega)

theorem Pddl.Built.applyOp_returns (B : P.Built t) (hw : t.WellFormed) (hl : t.NoLoops) :
    ∃ F, ∀ op ∈ t.ops, ∀ as s, op.params.length = as.length → ∃ s', ∀ n, F ≤ n → P.applyOp n op as s = .ok s' := by
  obtain ⟨F, hF⟩ := B.apply_returns hw hl
  obtain ⟨drank, hd⟩ := hl.rules
  obtain ⟨N, hN⟩ := rank_bound (fun d : Drv => drank d.head) t.drvs
  refine ⟨F + N + 2, fun op ho as s hlen => ?_⟩
  obtain ⟨r, h1⟩ := hF op ho as s (F + N + 2) (by omega) hlen
  obtain ⟨r', h2⟩ := drvsFix_acyclic hw.drvs hw.names hw.heads hd hN (F + N) (F + N + 1) 0 r.2 (by omega)
    (fun d _ h => by omega)
  have h3 : P.applyOp (F + N + 2) op as s = .ok r'.2 := by
    have hdr : P.drvs = t.drvs := by rw [Pddl.drvs, B.tree]
    simp only [Pddl.applyOp, h1, Res.bind_ok, hdr]
    rw [B.omap, h2]; rfl
  refine ⟨r'.2, fun n hn => ?_⟩
  rcases P.applyOp_le op as s hn with h | h
  · rw [h3] at h; cases h
  · rw [h, h3]

theorem parse_mem {P : Pddl} {call : Name} {op : Op} {as : List Obj} (h : P.parseAction call = .ok (op, as)) :
    op ∈ P.tree.ops ∧ op.params.length = as.length := by
  simp only [Pddl.parseAction, Res.bind_eq_ok] at h
  obtain ⟨op', h1, ⟨⟩, -, args, -, h4⟩ := h
  split at h4
  · simp at h4
  · rename_i hne
    simp only [Res.bind_eq_ok, Res.pure_eq, Res.ok.injEq, Prod.mk.injEq] at h4
    obtain ⟨⟨⟩, -, rfl, rfl⟩ := h4
    refine ⟨?_, by simpa using hne⟩
    unfold Pddl.getOp at h1
    split at h1
    · rename_i hf
      cases h1
      exact List.mem_of_find?_eq_some hf
    · simp at h1

end

/-- **C56.** In a well-formed domain without loops, `NextState` returns for every State and every action string that
`Action::Parse` accepts. -/
theorem C56_next_state_returns [StrHash] (t : Ptree) (b : Bool) (k : Nat) (P : Pddl) (hP : Pddl.make t b k = .ok P)
    (hw : t.WellFormed) (hl : t.NoLoops) :
    ∃ F, ∀ s call r, P.parseAction call = .ok r → ∃ s', ∀ n, F ≤ n → P.nextState n s call = .ok s' := by
  have B := Pddl.built hP
  obtain ⟨F, hF⟩ := B.applyOp_returns hw hl
  refine ⟨F, fun s call r hr => ?_⟩
  obtain ⟨h1, h2⟩ := parse_mem hr
  rw [B.tree] at h1
  obtain ⟨s', h⟩ := hF r.1 h1 r.2 s h2
  exact ⟨s', fun n hn => by simp only [Pddl.nextState, hr, Res.bind_ok]; exact h n hn⟩

/-- **C56.** `IsValidAction` and `IsGoalSatisfied` return. -/
theorem C56_tests_return [StrHash] (t : Ptree) (b : Bool) (k : Nat) (P : Pddl) (hP : Pddl.make t b k = .ok P)
    (hw : t.WellFormed) (s : State) :
    (∀ call r, P.parseAction call = .ok r → ∃ v, P.isValidAction s call = .ok v) ∧ ∃ v, P.isGoalSatisfied s = .ok v := by
  have B := Pddl.built hP
  constructor
  · intro call r hr
    obtain ⟨h1, h2⟩ := parse_mem hr
    rw [B.tree] at h1
    obtain ⟨v, h, -⟩ := eval_sat _ s r.1.pre r.1.params r.2 h2 (hw.pre _ h1)
    exact ⟨v, by simp only [Pddl.isValidAction, hr, Res.bind_ok, Op.isValid, B.omap]; exact h⟩
  · obtain ⟨v, h, -⟩ := eval_sat _ s t.goal [] [] rfl hw.goal
    exact ⟨v, by simp only [Pddl.isGoalSatisfied, B.tree, B.omap]; exact h⟩

/-- **C56.** `IsValidPlan` and `ApplyActions` return for every list of strings that `Action::Parse` accepts. -/
theorem C56_plans_return [StrHash] (t : Ptree) (b : Bool) (k : Nat) (P : Pddl) (hP : Pddl.make t b k = .ok P)
    (hw : t.WellFormed) (hl : t.NoLoops) :
    ∃ F, ∀ plan, (∀ call ∈ plan, ∃ r, P.parseAction call = .ok r) →
      (∃ v, ∀ n, F ≤ n → P.isValidPlan n plan = .ok v) ∧ ∀ s, ∃ s', ∀ n, F ≤ n → P.applyActions n s plan = .ok s' := by
  have B := Pddl.built hP
  obtain ⟨F, hF⟩ := B.applyOp_returns hw hl
  have step : ∀ {call r}, P.parseAction call = .ok r → ∀ s, ∃ s', ∀ n, F ≤ n → P.applyOp n r.1 r.2 s = .ok s' := by
    intro call r hr s
    obtain ⟨h1, h2⟩ := parse_mem hr
    rw [B.tree] at h1
    exact hF r.1 h1 r.2 s h2
  refine ⟨F, fun plan hp => ⟨?_, ?_⟩⟩
  · have : ∀ s, ∃ v, ∀ n, F ≤ n → P.validPlanFrom n s plan = .ok v := by
      induction plan with
      | nil =>
        intro s
        obtain ⟨v, h⟩ := (C56_tests_return t b k P hP hw s).2
        exact ⟨v, fun n _ => h⟩
      | cons call plan ih =>
        intro s
        obtain ⟨r, hr⟩ := hp call (by simp)
        obtain ⟨v, hv⟩ := (C56_tests_return t b k P hP hw s).1 call r hr
        simp only [Pddl.isValidAction, hr, Res.bind_ok] at hv
        cases v with
        | false => exact ⟨false, fun n _ => by simp [Pddl.validPlanFrom, hr, hv]⟩
        | true =>
          obtain ⟨s', hs⟩ := step hr s
          obtain ⟨v, h⟩ := ih (fun c hc => hp c (by simp [hc])) s'
          exact ⟨v, fun n hn => by simp [Pddl.validPlanFrom, hr, hv, hs n hn, h n hn]⟩
    exact this P.initial
  · induction plan with
    | nil => exact fun s => ⟨s, fun n _ => rfl⟩
    | cons call plan ih =>
      intro s
      obtain ⟨r, hr⟩ := hp call (by simp)
      obtain ⟨s', hs⟩ := step hr s
      obtain ⟨s'', h⟩ := ih (fun c hc => hp c (by simp [hc])) s'
      exact ⟨s'', fun n hn => by simp [Pddl.applyActions, hr, hs n hn, h n hn]⟩

theorem prepare_subset {c : NfCtx} [StrHash] {pre : Goal} {params : List Obj} : ∀ {l r : List (List Obj)},
    prepareLoop c pre params l = .ok r → ∀ as ∈ r, as ∈ l
  | [], r, h => by simp only [prepareLoop, Res.ok.injEq] at h; subst h; simp
  | a :: l, r, h => by
    simp only [prepareLoop, Res.bind_eq_ok, Res.pure_eq, Res.ok.injEq] at h
    obtain ⟨d, -, r', h2, h3⟩ := h
    have ih := prepare_subset h2
    intro as has
    cases d with
    | none => simp only at h3; subst h3; exact List.mem_cons_of_mem _ (ih as has)
    | some d =>
      simp only at h3
      subst h3
      rcases List.mem_cons.1 has with rfl | has
      · simp
      · exact List.mem_cons_of_mem _ (ih as has)

/-- **C56.** `IsValidState` returns. -/
theorem C56_valid_state_returns [StrHash] (t : Ptree) (b : Bool) (k : Nat) (P : Pddl) (hP : Pddl.make t b k = .ok P)
    (hw : t.WellFormed) (hl : t.NoLoops) : ∃ F, ∀ s n, F ≤ n → ∃ v, P.isValidState n s = .ok v := by
  have B := Pddl.built hP
  obtain ⟨F, hF⟩ := B.apply_returns hw hl
  refine ⟨F, fun s n hn => ?_⟩
  have one : ∀ ax ∈ P.axioms, ∀ (l : List (List Obj)), (∀ as ∈ l, ax.op.params.length = as.length) → ∀ s',
      ∃ v, consistentLoop P.omap P.axioms n ax s l s' = .ok v := by
    intro ax hm l hlen
    induction l with
    | nil => exact fun s' => ⟨true, rfl⟩
    | cons as l ih =>
      intro s'
      have ih := ih (fun a ha => hlen a (by simp [ha]))
      have ho := (B.ax hm).1
      obtain ⟨v, hv, -⟩ := eval_sat _ s ax.op.pre ax.op.params as (hlen as (by simp)) (hw.pre _ ho)
      have hv : ax.op.isValid P.omap s as = .ok v := by rw [B.omap]; exact hv
      simp only [consistentLoop, hv, Res.bind_ok]
      cases v with
      | false => exact ih s'
      | true =>
        obtain ⟨r, hr⟩ := hF ax.op ho as s' n hn (hlen as (by simp))
        simp only [if_true, hr, catchExc, Res.bind_ok]
        split
        · exact ⟨false, rfl⟩
        · exact ih r.2
  have all : ∀ l : List Ax, (∀ ax ∈ l, ax ∈ P.axioms) → ∃ v, Pddl.validLoop P.omap P.axioms n s l = .ok v := by
    intro l hl
    induction l with
    | nil => exact ⟨true, rfl⟩
    | cons ax l ih =>
      have hm := hl ax (by simp)
      obtain ⟨-, -, -, tuples, h1, h2⟩ := B.ax hm
      obtain ⟨v, hv⟩ := one ax hm ax.arguments (fun as has => by
        rw [B.omap] at h1
        exact (gen_mem h1 (prepare_subset h2 as has)).length) s
      simp only [Pddl.validLoop, Ax.isConsistent, hv, Res.bind_ok]
      cases v with
      | false => exact ⟨false, rfl⟩
      | true => exact ih (fun a ha => hl a (by simp [ha]))
  exact all P.axioms (fun _ h => h)

section
open Demo

/-- The demo domain is well-formed. -/
theorem demo_wellFormed : tree.WellFormed := by
  refine ⟨by decide, ?_, ?_, ?_, ?_, by decide⟩
  · intro op ho
    simp only [tree, List.mem_cons, List.not_mem_nil, or_false] at ho
    rcases ho with rfl | rfl | rfl <;>
      simp [tree, pick, place, held, Goal.WF, Goal.WFs, Term.Scoped, IsType, HasType, a, b, table, x, y, u, tBox, tObj]
  · intro op ho
    simp only [tree, List.mem_cons, List.not_mem_nil, or_false] at ho
    rcases ho with rfl | rfl | rfl <;>
      simp [tree, pick, place, held, Eff.WF, FList.WF, CList.WF, WFLits, Term.Scoped, IsType, HasType, a, b, table, x, y, z,
        tBox, tObj]
  · simp [tree, Goal.WF, Term.Scoped, IsType, HasType, a, b, table, x, y, tBox, tObj]
  · intro d hd
    simp only [tree, List.mem_singleton] at hd
    subst hd
    exact ⟨by simp [busy], by
      simp [tree, busy, Goal.WF, Goal.WFs, Term.Scoped, IsType, HasType, a, b, table, x, u, tBox, tObj]⟩

/-- Its axiom is triggered by `inhand` and changes `on`; its rule derives `busy` from other predicates. -/
theorem demo_noLoops : tree.NoLoops := by
  refine ⟨⟨fun _ p => if p = n!"inhand" then 1 else 0, ?_⟩, ⟨fun _ => 0, ?_⟩⟩
  · intro op ho ha sign p ht
    simp only [tree, List.mem_cons, List.not_mem_nil, or_false] at ho
    rcases ho with rfl | rfl | rfl
    · simp [pick] at ha
    · simp [place] at ha
    · simp only [held, Eff.Touches, FList.Touches, CList.Touches, ListsPred, List.not_mem_nil, exists_false, and_false,
        or_false, List.mem_singleton, Prod.mk.injEq, false_or] at ht
      obtain ⟨-, _, rfl, -⟩ := ht
      simp [held, Op.ctxPred]
  · intro d hd p n hm hh
    simp only [tree, List.mem_singleton] at hd
    subst hd
    obtain ⟨d, hd, rfl⟩ := hh
    simp only [tree, List.mem_singleton] at hd
    subst hd
    simp [busy, Goal.Mentions, Goal.MentionsL] at hm

end

end Symbolic
