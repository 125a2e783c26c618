import Verif.Lemmas.Closure
import Verif.Lemmas.UniverseBuf
import Verif.Props.Buffers
import Verif.Props.Returns
import Verif.Props.Construct

/-!
# C27 and C68: axioms that do not undo each other
-/

namespace Symbolic

/-- Names of everything that occurs in a call. -/
def ActionCall.names {σ : Type} (c : ActionCall σ) : List Name := c.op.eff.names ++ c.args.map Obj.name

/-- The names that can occur in atoms the axioms write. -/
def axiomNames (objects : List Obj) (axs : List Ax) : List Name :=
  objects.map Obj.name ++ axs.flatMap fun ax => ax.op.params.map Obj.name ++ ax.op.eff.names

theorem run_no_undoing {σ : Type} [StateLike σ] [TotalState σ] [SignedState σ] (objects : List Obj) (axs : List Ax)
    (hsep : ∀ p, ¬ ((∃ ax ∈ axs, ax.op.eff.Touches true p) ∧ ∃ ax ∈ axs, ax.op.eff.Touches false p))
    (history : List (ActionCall σ)) (c : ActionCall σ) :
    ∃ F, ∀ n, F ≤ n → (c.op.run (ObjMap.create objects) axs n c.id c.args c.state
      (runCalls (ObjMap.create objects) axs n history Store.init)).1 ≠ .fuel := by
  have hM := monotone_of (objects := objects) (axs := axs)
    (N := axiomNames objects axs ++ (c :: history).flatMap ActionCall.names) hsep
    (fun o ho => by simp only [axiomNames, List.mem_append, List.mem_map]; exact .inl (.inl ⟨o, ho, rfl⟩))
    (fun ax hm o ho => by
      simp only [axiomNames, List.mem_append, List.mem_flatMap, List.mem_map]
      exact .inl (.inr ⟨ax, hm, .inl ⟨o, ho, rfl⟩⟩))
    (fun ax hm n hn => by
      simp only [axiomNames, List.mem_append, List.mem_flatMap]
      exact .inl (.inr ⟨ax, hm, .inr hn⟩))
  have hc : ∀ d ∈ c :: history, d.op.eff.TermsIn
      (fun o => o.name ∈ axiomNames objects axs ++ (c :: history).flatMap ActionCall.names) ∧
      ∀ o ∈ d.args, o.name ∈ axiomNames objects axs ++ (c :: history).flatMap ActionCall.names := by
    intro d hd
    refine ⟨Eff.termsIn_names _ fun n hn => ?_, fun o ho => ?_⟩
    · exact List.mem_append_right _ (List.mem_flatMap.2 ⟨d, hd, List.mem_append_left _ hn⟩)
    · exact List.mem_append_right _ (List.mem_flatMap.2 ⟨d, hd, List.mem_append_right _ (List.mem_map.2 ⟨o, ho, rfl⟩)⟩)
  refine ⟨_, fun n hn => (Op.run_monotone hM (hc c (by simp)).1 (hc c (by simp)).2 n c.id c.state _
    (runCalls_in hM n history _ (fun d hd => hc d (by simp [hd])) .init)).2.1 (Nat.lt_of_succ_le hn)⟩

/-- **C27, partial.** Axioms may also trigger each other in circles if none adds a predicate that one deletes: with the
shared buffers, which circles overwrite, applying any action to any State returns or throws, after any history.

Missing for the full claim: see `C27_termination_refuted`. -/
theorem C27_no_undoing_partial [StrHash] (objects : List Obj) (axs : List Ax)
    (hsep : ∀ p, ¬ ((∃ ax ∈ axs, ax.op.eff.Touches true p) ∧ ∃ ax ∈ axs, ax.op.eff.Touches false p))
    (history : List (ActionCall State)) (c : ActionCall State) :
    ∃ F, ∀ n, F ≤ n → (c.op.run (ObjMap.create objects) axs n c.id c.args c.state
      (runCalls (ObjMap.create objects) axs n history Store.init)).1 ≠ .fuel :=
  run_no_undoing objects axs hsep history c

/-- **C27, partial**, for PartialStates. -/
theorem C27_no_undoing_partial_state [StrHash] (objects : List Obj) (axs : List Ax)
    (hsep : ∀ p, ¬ ((∃ ax ∈ axs, ax.op.eff.Touches true p) ∧ ∃ ax ∈ axs, ax.op.eff.Touches false p))
    (history : List (ActionCall PartialState)) (c : ActionCall PartialState) :
    ∃ F, ∀ n, F ≤ n → (c.op.run (ObjMap.create objects) axs n c.id c.args c.state
      (runCalls (ObjMap.create objects) axs n history Store.init)).1 ≠ .fuel :=
  run_no_undoing objects axs hsep history c

section
variable [StrHash] {t : Ptree} {P : Pddl}

theorem Pddl.Built.arguments_typed (B : P.Built t) {ax : Ax} (hm : ax ∈ P.axioms) {as : List Obj}
    (has : as ∈ ax.arguments) : WellTyped (t.constants ++ t.objects) ax.op.params as := by
  obtain ⟨-, -, -, tuples, h1, h2⟩ := B.ax hm
  rw [B.omap] at h1
  exact gen_mem h1 (prepare_subset h2 as has)

theorem Pddl.Built.monotone (B : P.Built t) (hu : t.NoUndoing) :
    Monotone (t.constants ++ t.objects) P.axioms (fun o => o.name ∈ axiomNames (t.constants ++ t.objects) P.axioms)
      (signedAtoms P.axioms (axiomNames (t.constants ++ t.objects) P.axioms)) := by
  refine monotone_of ?_ ?_ ?_ ?_
  · rintro p ⟨⟨ax, h1, h2⟩, ax', h3, h4⟩
    exact hu p ⟨⟨ax.op, (B.ax h1).1, (B.ax h1).2.1, h2⟩, ax'.op, (B.ax h3).1, (B.ax h3).2.1, h4⟩
  · intro o ho
    exact List.mem_append_left _ (List.mem_map.2 ⟨o, ho, rfl⟩)
  · intro ax hm o ho
    exact List.mem_append_right _ (List.mem_flatMap.2 ⟨ax, hm, List.mem_append_left _ (List.mem_map.2 ⟨o, ho, rfl⟩)⟩)
  · intro ax hm n hn
    exact List.mem_append_right _ (List.mem_flatMap.2 ⟨ax, hm, List.mem_append_right _ hn⟩)

/-- **C68, partial.** `ConsistentState` returns for every State if no axiom triggers itself through others and no
predicate is both added and deleted by axioms.

Missing for the full claim: axioms that undo each other, see `C68_undoing_refuted`. -/
theorem C68_consistent_state_partial (t : Ptree) (b : Bool) (k : Nat) (P : Pddl) (hP : Pddl.make t b k = .ok P)
    (hw : t.WellFormed) (hl : t.NoLoops) (hu : t.NoUndoing) :
    ∃ F, ∀ s, ∃ s', ∀ n, F ≤ n → P.consistentState n s = .ok s' := by
  have B := Pddl.built hP
  obtain ⟨F, hF⟩ := B.apply_returns hw hl
  have hM := B.monotone hu
  generalize hL : signedAtoms P.axioms (axiomNames (t.constants ++ t.objects) P.axioms) = L at hM
  have ha : Approaches P.omap P.axioms (F + L.length + 1) L := by
    intro ax hm as has s
    have hty := B.arguments_typed hm has
    have ho := (B.ax hm).1
    obtain ⟨v, hv, -⟩ := eval_sat _ s ax.op.pre ax.op.params as hty.length (hw.pre _ ho)
    obtain ⟨r, hr⟩ := hF ax.op ho as s (F + L.length + 1) (by omega) hty.length
    refine ⟨⟨v, by rw [B.omap]; exact hv⟩, r, hr, ?_⟩
    rw [B.omap] at hr
    obtain ⟨h1, h2⟩ := (Ax.run_monotone hM hm (fun o h => hM.objects o (hty.mem h).1) _ s).2 r hr
    exact ⟨h1.gap, h2⟩
  refine ⟨F + L.length + 1, fun s => ?_⟩
  have := gap_le L s
  obtain ⟨s', hs⟩ := consistentFix_approaches ha (F + L.length + 1) s (by omega)
  refine ⟨s', fun n hn => ?_⟩
  rcases P.consistentState_le s hn with h | h
  · rw [Pddl.consistentState, hs] at h; cases h
  · rw [h, Pddl.consistentState, hs]

theorem Pddl.make_false (t : Ptree) (n k : Nat) : Pddl.make t false n = Pddl.make t false k := by
  simp only [Pddl.make, Bool.false_eq_true, if_false]

/-- **C68, partial.** So the constructor with `apply_axioms` returns if the one without does. -/
theorem C68_constructor_partial (t : Ptree) (k : Nat) (P : Pddl) (hP : Pddl.make t false k = .ok P)
    (hw : t.WellFormed) (hl : t.NoLoops) (hu : t.NoUndoing) :
    ∃ F Q, ∀ n, F ≤ n → Pddl.make t true n = .ok Q := by
  obtain ⟨F, hF⟩ := C68_consistent_state_partial t false k P hP hw hl hu
  obtain ⟨s', hs⟩ := hF (State.ofList t.init)
  refine ⟨F, { P with initial := s' }, fun n hn => ?_⟩
  have h0 : Pddl.make t false n = .ok P := by rw [Pddl.make_false t n k, hP]
  exact (Pddl.make_true_iff h0 _).2 ⟨s', hs n hn, rfl⟩

theorem apply_ne_fuelP (B : P.Built t) (hl : t.NoLoops) : ∃ F, ∀ op ∈ t.ops, ∀ as (s : PartialState) n, F ≤ n →
    op.apply P.omap P.axioms n as s ≠ .fuel := by
  obtain ⟨rank, hr⟩ := hl.axioms
  obtain ⟨N, hN⟩ := effs_bound rank t.ops
  refine ⟨N, fun op ho as s n hn => ?_⟩
  rw [B.omap]
  exact Eff.apply_ne_fuel _ (fireN_total _ (B.ranked hr) n) op.eff _ _ _ (fun sg p ht => by
      have := hN op ho sg p ht; show rank sg p < n; omega)

/-- **C68.** `ConsistentState` of a PartialState returns or throws: it gives up after 50 passes. -/
theorem C68_consistent_partial_state (t : Ptree) (b : Bool) (k : Nat) (P : Pddl) (hP : Pddl.make t b k = .ok P)
    (hl : t.NoLoops) : ∃ F, ∀ s n, F ≤ n → P.consistentStateP n s ≠ .fuel := by
  have B := Pddl.built hP
  obtain ⟨F, hF⟩ := apply_ne_fuelP B hl
  refine ⟨F, fun s n hn => consistentFixP_ne_fuel (fun ax hm as s => ⟨?_, hF _ (B.ax hm).1 as s n hn⟩) 0 s⟩
  rw [B.omap]
  exact eval_ne_fuel _ _ _ _ _

/-- **C68, partial.** `IsValidState` of a PartialState returns or throws under the same conditions as for States. -/
theorem C68_valid_partial_state_partial (t : Ptree) (b : Bool) (k : Nat) (P : Pddl) (hP : Pddl.make t b k = .ok P)
    (hl : t.NoLoops) (hu : t.NoUndoing) : ∃ F, ∀ s n, F ≤ n → P.isValidStateP n s ≠ .fuel := by
  have B := Pddl.built hP
  obtain ⟨F, hF⟩ := apply_ne_fuelP B hl
  have hM := B.monotone hu
  generalize hL : signedAtoms P.axioms (axiomNames (t.constants ++ t.objects) P.axioms) = L at hM
  refine ⟨F + L.length + 1, fun s n hn => ?_⟩
  have := gap_le L s
  refine consistentPFix_approaches (L := L) ?_ n s (by omega)
  intro ax hm as has s
  have hty := B.arguments_typed hm has
  refine ⟨by rw [B.omap]; exact eval_ne_fuel _ _ _ _ _, hF _ (B.ax hm).1 as s n (by omega), fun r hr => ?_⟩
  rw [B.omap] at hr
  obtain ⟨h1, h2⟩ := (Ax.run_monotone hM hm (fun o h => hM.objects o (hty.mem h).1) _ s).2 r hr
  exact ⟨h1.gap, h2⟩

theorem Pddl.make_true_fuel {t : Ptree} {k n : Nat} {P : Pddl} (hP : Pddl.make t false k = .ok P)
    (h : P.consistentState n (State.ofList t.init) = .fuel) : Pddl.make t true n = .fuel := by
  simp only [Pddl.make, Res.bind_eq_ok] at hP
  obtain ⟨axs0, h1, _, h2, _, h3, h4⟩ := hP
  split at h4
  · cases h4
  rename_i hne
  simp only [Res.bind_eq_ok, Bool.false_eq_true, if_false, Res.pure_eq, Res.ok.injEq] at h4
  obtain ⟨_, h5, axs, h6, _, h7, _, rfl, rfl⟩ := h4
  simp only [Pddl.consistentState] at h
  simp only [Pddl.make, h1, h2, h3, h5, h6, h7, if_neg hne, Res.bind_ok, if_true, h, Res.bind_fuel]

end

section
open Demo
attribute [local instance] lenHash

/-- The axiom `(p ?x ?y ?z) => (p ?y ?z ?x)` triggers itself, but deletes nothing. -/
example (history : List (ActionCall State)) (s : State) : ∃ F, ∀ n, F ≤ n →
    (Buffers.put.run (ObjMap.create [a, b, table]) Buffers.rotP.axioms n 0 [a, b, a] s
      (runCalls (ObjMap.create [a, b, table]) Buffers.rotP.axioms n history Store.init)).1 ≠ .fuel := by
  have hax : ∀ ax ∈ Buffers.rotP.axioms, ax.op = Buffers.rot := by
    intro ax hm
    obtain ⟨h1, h2, -⟩ := (Pddl.built Buffers.rotP_made).ax hm
    simp only [Buffers.rotTree, List.mem_cons, List.not_mem_nil, or_false] at h1
    rcases h1 with h | h
    · rw [h] at h2; cases h2
    · exact h
  refine C27_no_undoing_partial _ _ ?_ history ⟨0, Buffers.put, [a, b, a], s⟩
  rintro p ⟨-, ax, hm, h⟩
  rw [hax ax hm] at h
  simp [Buffers.rot, Eff.Touches, FList.Touches, CList.Touches, ListsPred] at h

/-- In the demo domain the only axiom deletes. -/
theorem demo_noUndoing : tree.NoUndoing := by
  rintro p ⟨⟨op, ho, ha, ht⟩, -⟩
  simp only [tree, List.mem_cons, List.not_mem_nil, or_false] at ho
  rcases ho with rfl | rfl | rfl
  · simp [pick] at ha
  · simp [place] at ha
  · simp [held, Eff.Touches, FList.Touches, CList.Touches, ListsPred] at ht

/-- The closure is computed for every State of the demo domain. -/
example : ∃ F, ∀ s, ∃ s', ∀ n, F ≤ n → P.consistentState n s = .ok s' :=
  C68_consistent_state_partial tree true 5 P P_made demo_wellFormed demo_noLoops demo_noUndoing

/-- It can differ from the State. -/
example : ∃ s s', P.consistentState 5 s = .ok s' ∧ s' ≠ s :=
  ⟨State.ofList [⟨n!"inhand", [n!"a"]⟩, ⟨n!"on", [n!"a", n!"table"]⟩], State.ofList [⟨n!"inhand", [n!"a"]⟩],
    by decide +kernel, by decide +kernel⟩

/-- `(inhand ?x) => (on ?x table)`, which `held` undoes. -/
def raise : Op := { held with eff := .mk .nil [(n!"on", [.var x, .const table])] [] .nil }

/-- The domain with both axioms and `a` in the hand. -/
def clashTree : Ptree := { tree with ops := [pick, place, raise, held], init := [⟨n!"inhand", [n!"a"]⟩] }

theorem clashMade : (Pddl.make clashTree false 0).isOk = true := by decide +kernel
def clashP : Pddl := get _ clashMade

/-- **C68, refuted** for axioms that undo each other: the domain is well-formed, no axiom triggers another, and the
constructor accepts it without `apply_axioms`. With `apply_axioms` it does not return, as `ConsistentState` does not
for the initial state. -/
theorem C68_undoing_refuted : Pddl.make clashTree false 0 = .ok clashP ∧
    (∀ n, clashP.consistentState n clashP.initial = .fuel) ∧ ∀ n, Pddl.make clashTree true n = .fuel := by
  have hP : Pddl.make clashTree false 0 = .ok clashP := get_eq _ _
  have h0 : Pddl.consistentPass clashP.omap clashP.axioms 0 clashP.axioms clashP.initial = .ok (true, clashP.initial) := by
    decide +kernel
  have h1 : ∀ n, Pddl.consistentPass clashP.omap clashP.axioms n clashP.axioms clashP.initial =
      .ok (true, clashP.initial) := by
    intro n
    induction n with
    | zero => exact h0
    | succ n ih =>
      rcases consistentPass_mono clashP.omap clashP.axioms n clashP.axioms clashP.initial with h | h
      · rw [ih] at h; cases h
      · rw [h, ih]
  have h2 : ∀ n k, Pddl.consistentFix clashP.omap clashP.axioms n k clashP.initial = .fuel := by
    intro n k
    induction k with
    | zero => rfl
    | succ k ih => simp only [Pddl.consistentFix, h1, Res.bind_ok, if_true, ih]
  refine ⟨hP, fun n => h2 n n, fun n => Pddl.make_true_fuel hP ?_⟩
  rw [← Pddl.make_false_initial hP]
  exact h2 n n

/-- The domain is well-formed without loops. -/
example : clashTree.WellFormed ∧ clashTree.NoLoops := by
  refine ⟨⟨by decide, ?_, ?_, ?_, ?_, by decide⟩, ⟨fun _ p => if p = n!"inhand" then 1 else 0, ?_⟩, demo_noLoops.rules⟩
  · intro op ho
    simp only [clashTree, tree, List.mem_cons, List.not_mem_nil, or_false] at ho
    rcases ho with rfl | rfl | rfl | rfl
    · exact demo_wellFormed.pre _ (by simp [tree])
    · exact demo_wellFormed.pre _ (by simp [tree])
    · exact demo_wellFormed.pre held (by simp [tree])
    · exact demo_wellFormed.pre _ (by simp [tree])
  · intro op ho
    simp only [clashTree, tree, List.mem_cons, List.not_mem_nil, or_false] at ho
    rcases ho with rfl | rfl | rfl | rfl
    · exact demo_wellFormed.eff _ (by simp [tree])
    · exact demo_wellFormed.eff _ (by simp [tree])
    · simp [clashTree, tree, raise, held, Eff.WF, FList.WF, CList.WF, WFLits, Term.Scoped, IsType, HasType, a, b, table, x,
        tBox, tObj]
    · exact demo_wellFormed.eff _ (by simp [tree])
  · exact demo_wellFormed.goal
  · exact demo_wellFormed.drvs
  · intro op ho ha sign p ht
    simp only [clashTree, List.mem_cons, List.not_mem_nil, or_false] at ho
    rcases ho with rfl | rfl | rfl | rfl
    · simp [pick] at ha
    · simp [place] at ha
    all_goals
      simp only [raise, held, Eff.Touches, FList.Touches, CList.Touches, ListsPred, List.not_mem_nil, exists_false,
        and_false, or_false, List.mem_singleton, Prod.mk.injEq, false_or] at ht
      obtain ⟨-, _, rfl, -⟩ := ht
      simp [raise, held, Op.ctxPred]

end

end Symbolic
