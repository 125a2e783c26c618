import Verif.Props.Closure
import Verif.Props.NormalAxioms
import Verif.Lemmas.NormalReturns

/-!
# C56, C68, C91, C92: calls on PartialStates return
-/

namespace Symbolic

section
variable [StrHash] {t : Ptree} {P : Pddl}

theorem condReturns_partial (objects : List Obj) : CondReturns PartialState objects := fun s g params args hlen hw => by
  show ∃ b, condOf (optionalOf (g.eval (ObjMap.create objects) params s args)) = .ok b
  rcases eval_known objects s g params args hlen hw with ⟨b, hb⟩ | hb <;> rw [hb]
  · exact ⟨b, rfl⟩
  · exact ⟨false, rfl⟩

theorem Pddl.Built.apply_returnsP (B : P.Built t) (hw : t.WellFormed) (hl : t.NoLoops) :
    ∃ F, ∀ op ∈ t.ops, ∀ as (s : PartialState) n, F ≤ n → op.params.length = as.length →
      ∃ r, op.apply P.omap P.axioms n as s = .ok r := by
  obtain ⟨F, hF⟩ := apply_ne_fuelP B hl
  refine ⟨F, fun op ho as s n hn hlen => ?_⟩
  have := hF op ho as s n hn
  rw [B.omap] at this ⊢
  refine NoFail.returns (Eff.apply_noFail (condReturns_partial _) (fireN_safe (condReturns_partial _) (fun ax hm => ?_) n)
    op.eff _ _ s hlen (hw.eff op ho) (B.created ho)) this
  exact ⟨hw.eff _ (B.ax hm).1, B.created (B.ax hm).1⟩

/-- **C56, for PartialStates.** In a well-formed domain without loops, `Action::Apply` returns for every PartialState, and
`Action::IsValid` says true, false or unknown. -/
theorem C56_partial_states_return (t : Ptree) (b : Bool) (k : Nat) (P : Pddl) (hP : Pddl.make t b k = .ok P)
    (hw : t.WellFormed) (hl : t.NoLoops) :
    ∃ F, ∀ op ∈ t.ops, ∀ as, op.params.length = as.length → ∀ s : PartialState,
      (∃ v, optionalOf (op.isValid P.omap s as) = .ok v) ∧ ∀ n, F ≤ n → ∃ r, op.apply P.omap P.axioms n as s = .ok r := by
  have B := Pddl.built hP
  obtain ⟨F, hF⟩ := B.apply_returnsP hw hl
  refine ⟨F, fun op ho as hlen s => ⟨?_, fun n hn => hF op ho as s n hn hlen⟩⟩
  rw [B.omap, Op.isValid]
  rcases eval_known _ s op.pre op.params as hlen (hw.pre _ ho) with ⟨v, hv⟩ | hv <;> rw [hv]
  · exact ⟨some v, rfl⟩
  · exact ⟨none, rfl⟩

theorem consistentPLoop_noFail (B : P.Built t) (hw : t.WellFormed) {n : Nat}
    (hF : ∀ op ∈ t.ops, ∀ as (s : PartialState), op.params.length = as.length → ∃ r, op.apply P.omap P.axioms n as s = .ok r)
    {ax : Ax} (hm : ax ∈ P.axioms) : ∀ (l : List (List Obj)), (∀ as ∈ l, ax.op.params.length = as.length) →
    ∀ (s : PartialState) (c : Bool), ∃ r, consistentPLoop P.omap P.axioms n ax l s c = .ok r
  | [], _, s, c => ⟨_, rfl⟩
  | as :: l, hl, s, c => by
    have ho := (B.ax hm).1
    have ih := consistentPLoop_noFail B hw hF hm l (fun a ha => hl a (by simp [ha]))
    have hlen := hl as (by simp)
    simp only [consistentPLoop]
    have hk := eval_known _ s ax.op.pre ax.op.params as hlen (hw.pre _ ho)
    rw [← B.omap] at hk
    rcases hk with ⟨v, hv⟩ | hv
    · simp only [Op.isValid, hv, optionalOf, Res.bind_ok]
      cases v with
      | false => exact ih s c
      | true =>
        obtain ⟨r, hr⟩ := hF ax.op ho as s hlen
        simp only [hr, catchExc, Res.bind_ok]
        split
        · exact ⟨_, rfl⟩
        · exact ih r.2 _
    · simp only [Op.isValid, hv, optionalOf, Res.bind_ok]
      exact ih s c

theorem consistentPPass_noFail (B : P.Built t) (hw : t.WellFormed) {n : Nat}
    (hF : ∀ op ∈ t.ops, ∀ as (s : PartialState), op.params.length = as.length → ∃ r, op.apply P.omap P.axioms n as s = .ok r) :
    ∀ (l : List Ax), (∀ ax ∈ l, ax ∈ P.axioms) → ∀ (s : PartialState) (c : Bool),
      ∃ r, consistentPPass P.omap P.axioms n l s c = .ok r
  | [], _, s, c => ⟨_, rfl⟩
  | ax :: l, hl, s, c => by
    have hm := hl ax (by simp)
    obtain ⟨r, hr⟩ := consistentPLoop_noFail B hw hF hm ax.arguments (fun as has => (B.arguments_typed hm has).length) s c
    simp only [consistentPPass, hr, Res.bind_ok]
    split
    · exact consistentPPass_noFail B hw hF l (fun a ha => hl a (by simp [ha])) _ _
    · exact ⟨_, rfl⟩

theorem consistentPFix_noFail (B : P.Built t) (hw : t.WellFormed) {n : Nat}
    (hF : ∀ op ∈ t.ops, ∀ as (s : PartialState), op.params.length = as.length → ∃ r, op.apply P.omap P.axioms n as s = .ok r) :
    ∀ (k : Nat) (s : PartialState), NoFail (consistentPFix P.omap P.axioms n k s)
  | 0, _ => Or.inl rfl
  | k + 1, s => by
    obtain ⟨r, hr⟩ := consistentPPass_noFail B hw hF P.axioms (fun _ h => h) s false
    simp only [consistentPFix, hr, Res.bind_ok]
    split
    · split
      · exact consistentPFix_noFail B hw hF k _
      · exact .ok _
    · exact .ok _

/-- **C68, partial.** In a well-formed domain whose axioms do not trigger themselves and do not undo each other,
`IsValidState` says true or false of every PartialState. -/
theorem C68_valid_partial_state_returns_partial (t : Ptree) (b : Bool) (k : Nat) (P : Pddl) (hP : Pddl.make t b k = .ok P)
    (hw : t.WellFormed) (hl : t.NoLoops) (hu : t.NoUndoing) : ∃ F, ∀ n, F ≤ n → ∀ s, ∃ v, P.isValidStateP n s = .ok v := by
  have B := Pddl.built hP
  obtain ⟨F, hF⟩ := C68_valid_partial_state_partial t b k P hP hl hu
  obtain ⟨G, hG⟩ := B.apply_returnsP hw hl
  refine ⟨F + G, fun n hn s => ?_⟩
  exact NoFail.returns (consistentPFix_noFail B hw (fun op ho as s hlen => hG op ho as s n (by omega) hlen) n s)
    (hF s n (by omega))

theorem axApplyPLoop_noFail (B : P.Built t) (hw : t.WellFormed) {n : Nat}
    (hF : ∀ op ∈ t.ops, ∀ as (s : PartialState), op.params.length = as.length → ∃ r, op.apply P.omap P.axioms n as s = .ok r)
    {ax : Ax} (hm : ax ∈ P.axioms) : ∀ (l : List (List Obj)), (∀ as ∈ l, ax.op.params.length = as.length) →
    ∀ (s : PartialState), ∃ r, axApplyPLoop P.omap P.axioms n ax l s = .ok r
  | [], _, s => ⟨_, rfl⟩
  | as :: l, hl, s => by
    have ho := (B.ax hm).1
    have ih := axApplyPLoop_noFail B hw hF hm l (fun a ha => hl a (by simp [ha]))
    have hlen := hl as (by simp)
    simp only [axApplyPLoop]
    have hk := eval_known _ s ax.op.pre ax.op.params as hlen (hw.pre _ ho)
    rw [← B.omap] at hk
    obtain ⟨v, hv⟩ : ∃ v, optionalOf (ax.op.isValid P.omap s as) = .ok v := by
      rw [Op.isValid]
      rcases hk with ⟨v, hv⟩ | hv <;> rw [hv]
      · exact ⟨some v, rfl⟩
      · exact ⟨none, rfl⟩
    obtain ⟨r, hr⟩ : ∃ r, (if v = some true then ax.op.apply P.omap P.axioms n as s else pure (0, s)) = .ok r := by
      split
      · exact hF ax.op ho as s hlen
      · exact ⟨_, rfl⟩
    obtain ⟨r', hr'⟩ := ih r.2
    exact ⟨(max r.1 r'.1, r'.2), by rw [hv, Res.bind_ok, hr, Res.bind_ok, hr']; rfl⟩

/-- Returned or threw `runtime_error`. -/
theorem consistentFixP_outcome (B : P.Built t) (hw : t.WellFormed) {n : Nat}
    (hF : ∀ op ∈ t.ops, ∀ as (s : PartialState), op.params.length = as.length → ∃ r, op.apply P.omap P.axioms n as s = .ok r)
    (i : Nat) (s : PartialState) : (∃ s', Pddl.consistentFixP P.omap P.axioms n i s = .ok s') ∨
      Pddl.consistentFixP P.omap P.axioms n i s = .exc .runtimeError := by
  have pass : ∀ (l : List Ax), (∀ ax ∈ l, ax ∈ P.axioms) → ∀ s : PartialState,
      (∃ r, Pddl.consistentPassP P.omap P.axioms n l s = .ok r) ∨
        Pddl.consistentPassP P.omap P.axioms n l s = .exc .runtimeError := by
    intro l
    induction l with
    | nil => exact fun _ s => Or.inl ⟨_, rfl⟩
    | cons ax l ih =>
      intro hl s
      have hm := hl ax (by simp)
      obtain ⟨r, hr⟩ := axApplyPLoop_noFail B hw hF hm ax.arguments
        (fun as has => (B.arguments_typed hm has).length) s
      simp only [Pddl.consistentPassP, Ax.applyP, hr, Res.bind_ok]
      split
      · exact Or.inr rfl
      · rcases ih (fun a ha => hl a (by simp [ha])) r.2 with ⟨r', hr'⟩ | hr'
        · exact Or.inl ⟨_, by rw [hr']; rfl⟩
        · exact Or.inr (by rw [hr']; rfl)
  induction h : Pddl.kMaxIterations + 1 - i generalizing i s with
  | zero =>
    rw [Pddl.consistentFixP]
    rcases pass P.axioms (fun _ h => h) s with ⟨r, hr⟩ | hr
    · simp only [hr, Res.bind_ok]
      rw [dif_pos (by omega)]
      exact Or.inr rfl
    · exact Or.inr (by rw [hr]; rfl)
  | succ m ih =>
    rw [Pddl.consistentFixP]
    rcases pass P.axioms (fun _ h => h) s with ⟨r, hr⟩ | hr
    · simp only [hr, Res.bind_ok]
      split
      · exact Or.inr rfl
      · split
        · exact ih (i + 1) r.2 (by omega)
        · exact Or.inl ⟨_, rfl⟩
    · exact Or.inr (by rw [hr]; rfl)

/-- **C68.** In a well-formed domain without loops, `ConsistentState` of a PartialState returns or throws
`runtime_error`; it never has undefined behaviour. -/
theorem C68_consistent_partial_state_outcome (t : Ptree) (b : Bool) (k : Nat) (P : Pddl) (hP : Pddl.make t b k = .ok P)
    (hw : t.WellFormed) (hl : t.NoLoops) : ∃ F, ∀ n, F ≤ n → ∀ s,
      (∃ s', P.consistentStateP n s = .ok s') ∨ P.consistentStateP n s = .exc .runtimeError := by
  have B := Pddl.built hP
  obtain ⟨G, hG⟩ := B.apply_returnsP hw hl
  exact ⟨G, fun n hn s => consistentFixP_outcome B hw (fun op ho as s hlen => hG op ho as s n hn hlen) 0 s⟩

/-! ## C91, C92 -/

/-- **C91, partial: calls return.** In such domains, `Create` with `apply_axioms` returns for a formula if it does without,
for every formula and all arguments; for regular effects it returns or throws `runtime_error`, the latter only if there are
conditional effects. -/
theorem C91_returns_partial (t : Ptree) (b : Bool) (k : Nat) (P : Pddl) (hP : Pddl.make t b k = .ok P)
    (hw : t.WellFormed) (hl : t.NoLoops) (hu : t.NoUndoing)
    (sig : Name → List Name) (hax : AxiomsSorted (t.constants ++ t.objects) sig t.ops) : ∃ F, ∀ n, F ≤ n →
    (∀ (g : Goal) (params args : List Obj), (∃ r, P.createDnf n g params args false = .ok r) →
      ∃ r, P.createDnf n g params args true = .ok r) ∧
    ∀ (e : Eff) (params args : List Obj), params.length = args.length → (∀ o ∈ args, o ∈ t.constants ++ t.objects) →
      e.WF (t.constants ++ t.objects) (params.map Obj.name) → (∀ c, e.HasConst c → c ∈ t.constants ++ t.objects) →
      e.Regular (t.constants ++ t.objects) (Env.none.bind params args) →
      (∃ r, P.createEffDnf n e params args true = .ok r) ∨
        (P.createEffDnf n e params args true = .exc .runtimeError ∧ ¬ e.NoCond) := by
  have B := Pddl.built hP
  obtain ⟨F, hF⟩ := C68_valid_partial_state_returns_partial t b k P hP hw hl hu
  refine ⟨F, fun n hn => ⟨?_, ?_⟩⟩
  · rintro g params args ⟨r, h⟩
    exact dnfA_returns (hF n hn) h
  · intro e params args hlen hargs hwf hc hreg
    simp only [Pddl.createEffDnf, if_true, Pddl.ctx, B.objects, B.omap]
    exact Eff.dnfA_returns hw.names (rejected_untrue hP hw.names hax n) (hF n hn) e params args hlen hargs hwf hreg hc

/-- **C92, partial: calls return.** The same for every `ConjunctiveFormula` over declared objects. -/
theorem C92_returns_partial (t : Ptree) (b : Bool) (k : Nat) (P : Pddl) (hP : Pddl.make t b k = .ok P)
    (hw : t.WellFormed) (hl : t.NoLoops) (hu : t.NoUndoing) : ∃ F, ∀ n, F ≤ n →
    ∀ cnf : List PartialState, (∀ d ∈ cnf, ConjGround (t.constants ++ t.objects) d) →
      ∃ r, P.createCnf n cnf true = .ok r := by
  have B := Pddl.built hP
  obtain ⟨F, hF⟩ := C68_valid_partial_state_returns_partial t b k P hP hw hl hu
  refine ⟨F, fun n hn cnf hg => ?_⟩
  obtain ⟨r, k1, -⟩ := conjoin_spec hw.names (convertCnf_spec hg).1
  simp only [Pddl.createCnf, if_true, Pddl.ctx, B.objects, B.omap]
  exact conjoinA_returns (hF n hn) k1

end

section
open Demo
attribute [local instance] lenHash

/-- The hypotheses are met, and the calls return. -/
example : ∃ F, ∀ n, F ≤ n → (∃ r, P.createDnf n prunedGoal [] [] true = .ok r) ∧
    ∃ r, P.createEffDnf n place.eff place.params [a, b] true = .ok r := by
  obtain ⟨F, hF⟩ := C91_returns_partial tree true 5 P P_made demo_wellFormed demo_noLoops demo_noUndoing demoSig demo_sorted
  refine ⟨F, fun n hn => ⟨(hF n hn).1 _ _ _ ?_, ?_⟩⟩
  · have h : (prunedGoal.dnf P.ctx [] []).isOk = true := by decide +kernel
    generalize hg : prunedGoal.dnf P.ctx [] [] = r at h
    refine ⟨get r h, ?_⟩
    simp only [Pddl.createDnf, Bool.false_eq_true, if_false, hg]
    exact get_eq r h
  · have h1 : place.eff.WF (tree.constants ++ tree.objects) (place.params.map Obj.name) := by
      simp [place, Eff.WF, FList.WF, CList.WF, WFLits, Term.Scoped, IsType, HasType, tree, a, b, table, x, y, tBox, tObj]
    have h2 : ∀ c, place.eff.HasConst c → c ∈ tree.constants ++ tree.objects := by
      simp [place, Eff.HasConst, FList.HasConst, CList.HasConst]
    have h3 : place.eff.Regular (tree.constants ++ tree.objects) (Env.none.bind place.params [a, b]) := by
      simp [place, Eff.Regular, FList.Regular, CList.Regular]
    have h4 : place.eff.NoCond := by simp [place, Eff.NoCond, FList.NoCond]
    rcases (hF n hn).2 place.eff place.params [a, b] rfl (by decide) h1 h2 h3 with h | ⟨-, h⟩
    · exact h
    · exact absurd h4 h

end

end Symbolic
