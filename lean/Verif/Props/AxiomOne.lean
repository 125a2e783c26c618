import Verif.Model.AxiomOne
import Verif.Props.PartialReturns

/-!
# C93: `Axiom::IsConsistent` of a single axiom
-/

namespace Symbolic

section
variable [StrHash] {t : Ptree} {P : Pddl}

/-! ## States -/

/-- **C93, States.** `axiom.IsConsistent(s)` is true iff this axiom holds in `s`: for every type-correct argument list for
which the context is true in `s`, the implication, read as a formula, is true in `s`. The other axioms do not matter. -/
theorem C93_state (t : Ptree) (b : Bool) (n : Nat) (P : Pddl) (hP : Pddl.make t b n = .ok P)
    (hnd : ((t.constants ++ t.objects).map Obj.name).Nodup) (ax : Ax) (hm : ax ∈ P.axioms)
    (hf : ax.op.Formed (t.constants ++ t.objects))
    (hc : ∀ c, ax.op.pre.HasConst c → c ∈ t.constants ++ t.objects) (fuel : Nat) (s : State) :
    ax.isConsistent P.omap P.axioms fuel s = .ok true ↔
      ∀ os, WellTyped (t.constants ++ t.objects) ax.op.params os → ax.op.HoldsFor (t.constants ++ t.objects) (· ∈ s) os := by
  have B := Pddl.built hP
  obtain ⟨h1, h2⟩ := B.arguments hnd hm hf.params hf.pre hc
  rw [Ax.isConsistent, consistentLoop_iff, B.omap]
  constructor
  · intro h os hw
    by_cases hin : os ∈ ax.arguments
    · exact (quiet_iff_holds hf hw s).1 (h os hin)
    · exact fun hs => absurd hs (h2 os hw hin _)
  · exact fun h as has => (quiet_iff_holds hf (h1 as has) s).2 (h as (h1 as has))

/-- **C93, States.** `axiom.Apply(&s)` returns false exactly if `axiom.IsConsistent(s)`, and then leaves `s` as it is. For
every Pddl, every axiom and every State. -/
theorem C93_apply (P : Pddl) (ax : Ax) (fuel : Nat) (s : State) :
    (ax.isConsistent P.omap P.axioms fuel s = .ok true ↔ ∃ s', ax.apply P.omap P.axioms fuel s = .ok (false, s')) ∧
    ∀ s', ax.apply P.omap P.axioms fuel s = .ok (false, s') → s' = s := by
  rw [Ax.isConsistent, consistentLoop_iff]
  refine ⟨⟨fun h => ⟨s, axApplyLoop_quiet _ h⟩, fun ⟨s', h⟩ => (axApplyLoop_ok _ s s' h).2⟩,
    fun s' h => (axApplyLoop_ok _ s s' h).1⟩

/-- **C93, States.** In a well-formed domain without loops, `axiom.IsConsistent(s)` says true or false of every State. -/
theorem C93_state_returns (t : Ptree) (b : Bool) (k : Nat) (P : Pddl) (hP : Pddl.make t b k = .ok P)
    (hw : t.WellFormed) (hl : t.NoLoops) :
    ∃ F, ∀ ax ∈ P.axioms, ∀ s n, F ≤ n → ∃ v, ax.isConsistent P.omap P.axioms n s = .ok v := by
  have B := Pddl.built hP
  obtain ⟨F, hF⟩ := B.apply_returns hw hl
  refine ⟨F, fun ax hm s n hn => ?_⟩
  have ho := (B.ax hm).1
  have key : ∀ (l : List (List Obj)), (∀ as ∈ l, ax.op.params.length = as.length) → ∀ s',
      ∃ v, consistentLoop P.omap P.axioms n ax s l s' = .ok v := by
    intro l
    induction l with
    | nil => exact fun _ s' => ⟨true, rfl⟩
    | cons as l ih =>
      intro hlen s'
      obtain ⟨v, hv, -⟩ := eval_sat _ s ax.op.pre ax.op.params as (hlen as (by simp)) (hw.pre _ ho)
      have hv : ax.op.isValid P.omap s as = .ok v := by rw [B.omap]; exact hv
      simp only [consistentLoop, hv, Res.bind_ok]
      have ih := ih (fun a ha => hlen a (by simp [ha]))
      cases v with
      | false => exact ih s'
      | true =>
        obtain ⟨r, hr⟩ := hF ax.op ho as s' n hn (hlen as (by simp))
        simp only [if_true, hr, catchExc, Res.bind_ok]
        split
        · exact ⟨false, rfl⟩
        · exact ih r.2
  exact key _ (fun as has => (B.arguments_typed hm has).length) s

/-! ## PartialStates -/

theorem oneAxiomFix_good {objects : List Obj} {sig : Name → List Name} {T : State} {axs : List Ax}
    (hax : ∀ ax ∈ axs, Guided objects sig T ax) {fuel : Nat} {ax : Ax} (hm : ax ∈ axs)
    (hargs : ∀ as ∈ ax.arguments, WellTyped objects ax.op.params as) :
    ∀ (k : Nat) (p : PartialState), Toward T p →
      oneAxiomFix (ObjMap.create objects) axs fuel ax k p = .fuel ∨
        oneAxiomFix (ObjMap.create objects) axs fuel ax k p = .ok true
  | 0, _, _ => Or.inl rfl
  | k + 1, p, hp => by
    rw [oneAxiomFix]
    rcases consistentPLoop_good hax (fuel := fuel) (c := false) hm hargs hp with h1 | ⟨c, q, h1, h2, -⟩
    · exact Or.inl (by simp [h1])
    · simp only [h1, Res.bind_ok, if_true]
      cases c
      · exact Or.inr rfl
      · exact oneAxiomFix_good hax hm hargs k q h2

/-- **C93, PartialStates, partial.** If `axiom.IsConsistent(p)` is false, no State that agrees with `p` satisfies all
axioms, and the call never throws while there is one.

Missing for the full claim: that no such State satisfies this axiom. The effects of the axiom trigger other axioms, which
may be what is violated (`C93_other_axiom_refuted`). The typing conditions are those of C34. -/
theorem C93_partial_state_partial (t : Ptree) (b : Bool) (n : Nat) (P : Pddl) (hP : Pddl.make t b n = .ok P)
    (hnd : ((t.constants ++ t.objects).map Obj.name).Nodup)
    (sig : Name → List Name) (hax : AxiomsSorted (t.constants ++ t.objects) sig t.ops) (ax : Ax) (hm : ax ∈ P.axioms)
    (fuel : Nat) (p : PartialState) (T : State) (hT : AxiomsHold (t.constants ++ t.objects) t.ops (· ∈ T))
    (hc : Compatible (· ∈ p.pos) (· ∈ p.neg) (· ∈ T)) :
    ax.isConsistentP P.omap P.axioms fuel p = .fuel ∨ ax.isConsistentP P.omap P.axioms fuel p = .ok true := by
  have B := Pddl.built hP
  rw [Ax.isConsistentP, B.omap]
  exact oneAxiomFix_good (guided B hax hT) hm (kept_typed B hnd hax ax hm) fuel p hc

theorem oneAxiomFix_approaches {m : ObjMap} {axs : List Ax} {n : Nat} {L : List (Bool × Atom)} (h : ApproachesP m axs n L)
    {ax : Ax} (hm : ax ∈ axs) : ∀ (k : Nat) (s : PartialState), gap L s < k → oneAxiomFix m axs n ax k s ≠ .fuel
  | 0, _, hk => by omega
  | k + 1, s, hk => by
    obtain ⟨h1, h2⟩ := consistentPLoop_approaches h hm ax.arguments s false (fun _ h => h)
    simp only [oneAxiomFix]
    refine Res.bind_ne_fuel' h1 fun r hr => ?_
    split
    · rename_i ht
      split
      · rename_i hc
        obtain ⟨h3, h4⟩ := h2 r hr ht
        have := (h4 hc).resolve_left (by simp)
        exact oneAxiomFix_approaches h hm k r.2.2 (by omega)
      · simp
    · simp

theorem oneAxiomFix_noFail (B : P.Built t) (hw : t.WellFormed) {n : Nat}
    (hF : ∀ op ∈ t.ops, ∀ as (s : PartialState), op.params.length = as.length → ∃ r, op.apply P.omap P.axioms n as s = .ok r)
    {ax : Ax} (hm : ax ∈ P.axioms) : ∀ (k : Nat) (s : PartialState), NoFail (oneAxiomFix P.omap P.axioms n ax k s)
  | 0, _ => Or.inl rfl
  | k + 1, s => by
    obtain ⟨r, hr⟩ := consistentPLoop_noFail B hw hF hm ax.arguments (fun as has => (B.arguments_typed hm has).length) s false
    simp only [oneAxiomFix, hr, Res.bind_ok]
    split
    · split
      · exact oneAxiomFix_noFail B hw hF hm k _
      · exact .ok _
    · exact .ok _

/-- **C93, PartialStates, partial.** In a well-formed domain whose axioms do not trigger themselves and do not undo each
other, `axiom.IsConsistent(p)` says true or false of every PartialState. -/
theorem C93_partial_state_returns_partial (t : Ptree) (b : Bool) (k : Nat) (P : Pddl) (hP : Pddl.make t b k = .ok P)
    (hw : t.WellFormed) (hl : t.NoLoops) (hu : t.NoUndoing) :
    ∃ F, ∀ ax ∈ P.axioms, ∀ s n, F ≤ n → ∃ v, ax.isConsistentP P.omap P.axioms n s = .ok v := by
  have B := Pddl.built hP
  obtain ⟨F, hF⟩ := apply_ne_fuelP B hl
  obtain ⟨G, hG⟩ := B.apply_returnsP hw hl
  have hM := B.monotone hu
  generalize hL : signedAtoms P.axioms (axiomNames (t.constants ++ t.objects) P.axioms) = L at hM
  refine ⟨F + G + L.length + 1, fun ax hm s n hn => ?_⟩
  have := gap_le L s
  refine NoFail.returns (oneAxiomFix_noFail B hw (fun op ho as s hlen => hG op ho as s n (by omega) hlen) hm n s)
    (oneAxiomFix_approaches (L := L) ?_ hm n s (by omega))
  intro ax hm as has s
  have hty := B.arguments_typed hm has
  refine ⟨by rw [B.omap]; exact eval_ne_fuel _ _ _ _ _, hF _ (B.ax hm).1 as s n (by omega), fun r hr => ?_⟩
  rw [B.omap] at hr
  obtain ⟨h1, h2⟩ := (Ax.run_monotone hM hm (fun o h => hM.objects o (hty.mem h).1) _ s).2 r hr
  exact ⟨h1.gap, h2⟩

end

/-! ## Refutation and examples -/

section
open Demo
attribute [local instance] lenHash

/-- **C93, refuted for PartialStates:** the axiom `(inhand ?x) => (on ?x table)` says that it is not consistent with
`{inhand(a)}` if there is a second axiom `(on ?x ?u) => (= ?x ?u)` that its effect triggers. The axiom holds in
`{inhand(a), on(a, table)}`, which agrees with `{inhand(a)}`. -/
theorem C93_other_axiom_refuted : ∃ ax ∈ rejP.axioms, ax.op = nar1 ∧
    ax.isConsistentP rejP.omap rejP.axioms 5 ⟨State.ofList [inhand a], State.empty⟩ = .ok false ∧
    ax.isConsistent rejP.omap rejP.axioms 5 (State.ofList [inhand a, on a table]) = .ok true := by
  have h1 : rejP.axioms.map (fun ax =>
      (ax.isConsistentP rejP.omap rejP.axioms 5 ⟨State.ofList [inhand a], State.empty⟩,
        ax.isConsistent rejP.omap rejP.axioms 5 (State.ofList [inhand a, on a table]))) =
      [(.ok false, .ok true), (.ok true, .ok true)] := by decide +kernel
  have h2 := (Pddl.built rejP_made).axioms
  have h3 : rejTree.ops.filter (·.isAxiom) = [nar1, rej2] := rfl
  rw [h3] at h2
  generalize rejP.omap = m, rejP.axioms = l, State.ofList [inhand a] = s₁, State.ofList [inhand a, on a table] = s₂ at h1 h2 ⊢
  cases h2 with
  | cons hmk h2 =>
    obtain ⟨axs, hmk⟩ := hmk
    obtain ⟨-, hop, -⟩ := Ax.make_ok hmk
    simp only [List.map_cons, List.cons.injEq, Prod.mk.injEq] at h1
    exact ⟨_, by simp, hop, h1.1⟩

/-- The demo axiom holds in `{inhand(a), on(b, table)}` and not in `{inhand(a), on(a, table)}`. -/
example : P.axioms.map (fun ax => (ax.isConsistent P.omap P.axioms 5 (State.ofList [inhand a, on b table]),
    ax.isConsistent P.omap P.axioms 5 (State.ofList [inhand a, on a table]))) = [(.ok true, .ok false)] := by decide +kernel

/-- It is consistent with `inhand(a)`, and not if also `on(a, b)` is known. -/
example : P.axioms.map (fun ax => (ax.isConsistentP P.omap P.axioms 5 ⟨State.ofList [inhand a], State.empty⟩,
    ax.isConsistentP P.omap P.axioms 5 ⟨State.ofList [inhand a, on a b], State.empty⟩)) = [(.ok true, .ok false)] := by
  decide +kernel

/-- The theorems apply to the demo domain. -/
example : (∃ F, ∀ ax ∈ P.axioms, ∀ s n, F ≤ n → ∃ v, ax.isConsistent P.omap P.axioms n s = .ok v) ∧
    ∃ F, ∀ ax ∈ P.axioms, ∀ s n, F ≤ n → ∃ v, ax.isConsistentP P.omap P.axioms n s = .ok v :=
  ⟨C93_state_returns tree true 5 P P_made demo_wellFormed demo_noLoops,
    C93_partial_state_returns_partial tree true 5 P P_made demo_wellFormed demo_noLoops demo_noUndoing⟩

/-- So does the partial theorem: no State that satisfies the axioms agrees with `{inhand(a), on(a, b)}`. -/
example : ∀ ax ∈ P.axioms, ax.isConsistentP P.omap P.axioms 5 ⟨State.ofList [inhand a, on a b], State.empty⟩ = .ok false →
    ¬ ∃ T : State, Compatible (· ∈ State.ofList [inhand a, on a b]) (· ∈ State.empty) (· ∈ T) ∧
      AxiomsHold (tree.constants ++ tree.objects) tree.ops (· ∈ T) := by
  rintro ax hm h ⟨T, hc, hT⟩
  rcases C93_partial_state_partial tree true 5 P P_made (by decide) demoSig demo_sorted ax hm 5
      ⟨State.ofList [inhand a, on a b], State.empty⟩ T hT hc with h1 | h1 <;>
    rw [h] at h1 <;> simp at h1

end

end Symbolic
