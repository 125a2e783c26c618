import Verif.Model.PddlBuf
import Verif.Props.Buffers

/-!
# C18, C55: argument buffers, for the calls of the API
-/

namespace Symbolic

section
variable [StrHash] (P : Pddl) (ids : Name → Nat) (fuel : Nat)

theorem applyOpB_det (op : Op) (args : List Obj) (s : State) : Det [] (P.applyOpB ids fuel op args s) :=
  Det.bind ((Eff.run_det (fireB_det P.omap P.axioms fuel) (ids op.name) op.eff [] op.params (.val args) s).ofVal) fun _ =>
    (Det.lift _).bind fun _ => .pure _

theorem nextStateB_det (s : State) (call : Name) : Det [] (P.nextStateB ids fuel s call) :=
  (Det.lift _).bind fun _ => applyOpB_det P ids fuel _ _ _

theorem applyActionsB_det : ∀ (calls : List Name) (s : State), Det [] (P.applyActionsB ids fuel s calls)
  | [], s => .pure s
  | call :: calls, s => by
    rw [Pddl.applyActionsB]
    exact (Det.lift _).bind fun _ => (applyOpB_det P ids fuel _ _ _).bind fun _ => applyActionsB_det calls _

theorem validPlanFromB_det : ∀ (calls : List Name) (s : State), Det [] (P.validPlanFromB ids fuel s calls)
  | [], s => by rw [Pddl.validPlanFromB]; exact .lift _
  | call :: calls, s => by
    rw [Pddl.validPlanFromB]
    refine (Det.lift _).bind fun _ => (Det.lift _).bind fun b => ?_
    split
    · exact (applyOpB_det P ids fuel _ _ _).bind fun _ => validPlanFromB_det calls _
    · exact .pure _

theorem runApi_inv : ∀ (cs : List Pddl.ApiCall) {st : Store}, BufInv st → BufInv (P.runApi ids fuel cs st)
  | [], _, h => h
  | .next s call :: cs, st, h => runApi_inv cs (nextStateB_det P ids fuel s call st st h h (by simp)).2.1
  | .apply s calls :: cs, st, h => runApi_inv cs (applyActionsB_det P ids fuel calls s st st h h (by simp)).2.1
  | .plan plan :: cs, st, h => runApi_inv cs (validPlanFromB_det P ids fuel plan P.initial st st h h (by simp)).2.1

/-- **C18 (API).** `NextState`, `ApplyActions` and `IsValidPlan` give the result that they give right after construction, whatever
calls were made before, successful or not. -/
theorem C18_api_history_independent (history : List Pddl.ApiCall) :
    (∀ s call, (P.nextStateB ids fuel s call (P.runApi ids fuel history Store.init)).1 =
      (P.nextStateB ids fuel s call Store.init).1) ∧
    (∀ s calls, (P.applyActionsB ids fuel s calls (P.runApi ids fuel history Store.init)).1 =
      (P.applyActionsB ids fuel s calls Store.init).1) ∧
    ∀ plan, (P.isValidPlanB ids fuel plan (P.runApi ids fuel history Store.init)).1 =
      (P.isValidPlanB ids fuel plan Store.init).1 := by
  have hi := runApi_inv P ids fuel history BufInv.init
  exact ⟨fun s call => (nextStateB_det P ids fuel s call _ _ hi BufInv.init (by simp)).1,
    fun s calls => (applyActionsB_det P ids fuel calls s _ _ hi BufInv.init (by simp)).1,
    fun plan => (validPlanFromB_det P ids fuel plan P.initial _ _ hi BufInv.init (by simp)).1⟩

variable {P}

/-- With admissible buffers `x` returns `res` and leaves admissible buffers. -/
def ByValue (x : BufM α) (res : Res α) : Prop := ∀ st, BufInv st → (x st).1 = res ∧ BufInv (x st).2

omit [StrHash] in
theorem ByValue.lift (res : Res α) : ByValue (BufM.lift res) res := fun _ h => ⟨rfl, h⟩

omit [StrHash] in
theorem ByValue.bind {x : BufM α} {res : Res α} {f : α → BufM β} {g : α → Res β} (hx : ByValue x res)
    (hf : ∀ a, ByValue (f a) (g a)) : ByValue (x >>= f) (res >>= g) := by
  intro st hi
  obtain ⟨h1, h2⟩ := hx st hi
  rw [BufM.bind_run]
  generalize x st = y at h1 h2 ⊢
  obtain ⟨r1, t1⟩ := y
  simp only at h1 h2
  subst h1
  cases r1 with
  | ok a => exact hf a t1 h2
  | exc _ => exact ⟨rfl, h2⟩
  | ub => exact ⟨rfl, h2⟩
  | fuel => exact ⟨rfl, h2⟩

theorem applyOpB_val {rank : Bool → Name → Nat} (hrank : Ranked rank P.axioms) (op : Op) (args : List Obj) (s : State) :
    ByValue (P.applyOpB ids fuel op args s) (P.applyOp fuel op args s) := by
  refine ByValue.bind (fun st hi => ?_) fun _ => (ByValue.lift _).bind fun _ => .lift (.ok _)
  obtain ⟨R, hR⟩ := Eff.bounded rank op.eff
  have := Eff.run_val (m := P.omap) (fireB_val (m := P.omap) hrank fuel) (ids op.name) op.eff [] op.params (.val args) args s trivial hR st hi rfl
  exact ⟨this.1, this.2.1⟩

/-- **C55 (API), partial.** If no axiom can (indirectly) trigger itself, `NextState`, `ApplyActions` and `IsValidPlan` with the shared
buffers give, after any calls, the results they give when all arguments are passed by value.

Missing for the full claim: an axiom that triggers itself overwrites its own arguments (`C55_reentrant_refuted`). -/
theorem C55_api_partial (rank : Bool → Name → Nat) (hrank : Ranked rank P.axioms) (history : List Pddl.ApiCall) :
    (∀ s call, (P.nextStateB ids fuel s call (P.runApi ids fuel history Store.init)).1 = P.nextState fuel s call) ∧
    (∀ s calls, (P.applyActionsB ids fuel s calls (P.runApi ids fuel history Store.init)).1 = P.applyActions fuel s calls) ∧
    ∀ plan, (P.isValidPlanB ids fuel plan (P.runApi ids fuel history Store.init)).1 = P.isValidPlan fuel plan := by
  have hi := runApi_inv P ids fuel history BufInv.init
  have h1 : ∀ s call, ByValue (P.nextStateB ids fuel s call) (P.nextState fuel s call) := fun s call =>
    (ByValue.lift _).bind fun _ => applyOpB_val ids fuel hrank _ _ _
  have h2 : ∀ calls s, ByValue (P.applyActionsB ids fuel s calls) (P.applyActions fuel s calls) := by
    intro calls
    induction calls with
    | nil => exact fun s => ByValue.lift (.ok s)
    | cons call calls ih =>
      intro s
      rw [Pddl.applyActionsB, Pddl.applyActions]
      exact (ByValue.lift _).bind fun _ => (applyOpB_val ids fuel hrank _ _ _).bind fun _ => ih _
  have h3 : ∀ calls s, ByValue (P.validPlanFromB ids fuel s calls) (P.validPlanFrom fuel s calls) := by
    intro calls
    induction calls with
    | nil => exact fun s => by rw [Pddl.validPlanFromB, Pddl.validPlanFrom]; exact .lift _
    | cons call calls ih =>
      intro s
      rw [Pddl.validPlanFromB, Pddl.validPlanFrom]
      refine (ByValue.lift _).bind fun _ => (ByValue.lift _).bind fun b => ?_
      split
      · exact (applyOpB_val ids fuel hrank _ _ _).bind fun _ => ih _
      · exact .lift (.ok false)
  exact ⟨fun s call => (h1 s call _ hi).1, fun s calls => (h2 calls s _ hi).1, fun plan => (h3 plan P.initial _ hi).1⟩

end

namespace Buffers
open Demo
attribute [local instance] lenHash

/-- In the demo domain no axiom triggers itself. -/
theorem demo_ranked : Ranked (fun _ p => if p = n!"inhand" then 1 else 0) P.axioms := by
  intro ax hm sign p ht
  have hB := (Pddl.built P_made).ax hm
  have h1 : ax.op = held := by
    have := hB.1
    simp only [tree, List.mem_cons, List.not_mem_nil, or_false] at this
    rcases this with h | h | h
    · rw [h] at hB; simp [pick] at hB
    · rw [h] at hB; simp [place] at hB
    · exact h
  rw [h1] at ht hB
  have h3 := hB.2.2.1
  simp only [held, contextOf, Res.ok.injEq, Prod.mk.injEq] at h3
  simp only [held, Eff.Touches, FList.Touches, CList.Touches, ListsPred] at ht
  rw [← h3.2.1]
  simp at ht
  rw [ht.2]
  show (0 : Nat) < 1; omega

/-- A plan is checked after an action was applied elsewhere and after a call that threw. -/
example (ids : Name → Nat) : (P.isValidPlanB ids 5 [n!"pick(a)", n!"place(a, b)"] (P.runApi ids 5
    [.next (State.ofList [on b table]) n!"pick(b)", .next State.empty n!"nosuch(b)"] Store.init)).1 = .ok true := by
  rw [(C55_api_partial ids 5 _ demo_ranked _).2.2]
  decide +kernel

/-- With an axiom that triggers itself, `NextState` gives an atom that no rotation explains. -/
theorem C55_api_refuted : (rotP.nextStateB (fun _ => 7) 4 State.empty n!"put(a, b, a)" Store.init).1 =
      .ok (State.ofList [p3 a b a, p3 b a a, p3 a a b, p3 a a a]) ∧
    rotP.nextState 4 State.empty n!"put(a, b, a)" = .ok (State.ofList [p3 a b a, p3 b a a, p3 a a b]) := by decide +kernel

end Buffers

end Symbolic
