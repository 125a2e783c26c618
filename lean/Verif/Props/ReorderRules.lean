import Verif.Props.Reorder
import Verif.Props.Strata

/-!
# C79: the order of recursive rules
-/

namespace Symbolic

section
variable {os₁ os₂ : List Obj} {ds₁ ds₂ : List Drv}

theorem leastModel_congr (ho : ∀ o, o ∈ os₁ ↔ o ∈ os₂) (hd : ∀ d, d ∈ ds₁ ↔ d ∈ ds₂) (S : Atom → Prop) :
    LeastModel os₁ ds₁ S = LeastModel os₂ ds₂ S := by
  funext x
  simp only [LeastModel, SameBase, ClosedUnder, isDerived_congr ho hd, hd, wellTyped_congr ho, Drv.Holds, sat_objects ho]

theorem stdModel_congr (ho : ∀ o, o ∈ os₁ ↔ o ∈ os₂) (hd : ∀ d, d ∈ ds₁ ↔ d ∈ ds₂) (strat : Name → Nat) (S : Atom → Prop) :
    ∀ k, StdModel os₁ ds₁ strat S k = StdModel os₂ ds₂ strat S k
  | 0 => by funext x; simp only [StdModel, isDerived_congr ho hd]
  | k + 1 => by
    rw [StdModel, StdModel, stdModel_congr ho hd strat S k]
    exact leastModel_congr ho (fun d => by rw [List.mem_filter, List.mem_filter, hd]) _

theorem lowRecursion_congr (hd : ∀ d, d ∈ ds₁ ↔ d ∈ ds₂) {rank : Name → Nat} (h : LowRecursion rank ds₁) :
    LowRecursion rank ds₂ := by
  have hh : IsHead ds₁ = IsHead ds₂ := funext fun p => propext (isHead_congr hd p)
  refine ⟨fun d hm h0 => ?_, fun d hm h0 p n hp hi => h.high d ((hd d).2 hm) h0 p n hp (by rw [hh]; exact hi)⟩
  have := h.low d ((hd d).2 hm) h0
  rwa [hh] at this

end

section
variable [StrHash] {t₁ t₂ : Ptree} {b₁ b₂ : Bool} {n₁ n₂ : Nat} {P₁ P₂ : Pddl}

/-- **C79, recursive rules, partial.** Rules with distinct heads of which only the lowest are recursive (positively, each
with any other) derive the same, whatever the order of rules and objects, from a State without derived atoms of the
lowest rules; and both calls return.

Missing for the full claim: stale atoms of recursive rules and recursion above a negation, see `C79_rules_refuted`,
`C90_stratified_refuted`. -/
theorem C79_recursive_partial (hP₁ : Pddl.make t₁ b₁ n₁ = .ok P₁) (hP₂ : Pddl.make t₂ b₂ n₂ = .ok P₂)
    (h : SameDomain t₁ t₂) (hwf : ∀ d ∈ t₁.drvs, d.WF (t₁.constants ++ t₁.objects))
    (hnd₁ : ((t₁.constants ++ t₁.objects).map Obj.name).Nodup) (hnd₂ : ((t₂.constants ++ t₂.objects).map Obj.name).Nodup)
    (hh₁ : (t₁.drvs.map Drv.head).Nodup) (hh₂ : (t₂.drvs.map Drv.head).Nodup) (rank : Name → Nat)
    (hl : LowRecursion rank t₁.drvs) (s : State)
    (hs : ∀ x ∈ s, IsDerived (t₁.constants ++ t₁.objects) t₁.drvs x → rank x.pred ≠ 0) :
    ∃ s' K, ∀ n, K ≤ n → P₁.derivedState n s = .ok s' ∧ P₂.derivedState n s = .ok s' := by
  obtain ⟨N, hN⟩ := rank_bound (fun d : Drv => rank d.head) t₁.drvs
  have hwf₂ : ∀ d ∈ t₂.drvs, d.WF (t₂.constants ++ t₂.objects) := fun d hd =>
    (drvWF_objects h.objects d).1 (hwf d ((h.drvs d).2 hd))
  obtain ⟨s1, K1, h1, h2⟩ := C90_low_recursion_partial t₁ b₁ n₁ P₁ hP₁ hwf hnd₁ hh₁ rank hl N hN s hs
  obtain ⟨s2, K2, h3, h4⟩ := C90_low_recursion_partial t₂ b₂ n₂ P₂ hP₂ hwf₂ hnd₂ hh₂ rank (lowRecursion_congr h.drvs hl) N
    (fun d hd => hN d ((h.drvs d).2 hd)) s (fun x hx hd => hs x hx ((isDerived_congr h.objects h.drvs x).2 hd))
  have e : s1 = s2 := by ext x; rw [h2, h4, stdModel_congr h.objects h.drvs]
  subst e
  exact ⟨s1, max K1 K2, fun n hle => ⟨h1 n (by omega), h3 n (by omega)⟩⟩

end

section
open Demo
attribute [local instance] lenHash

/-- Reachability and what is not reachable, in two orders. -/
def lostTree (ds : List Drv) (os : List Obj) : Ptree :=
  { reachTree with drvs := ds, objects := os, preds := ⟨n!"lost", [x]⟩ :: reachTree.preds }

theorem lostMade₁ : (Pddl.make (lostTree [lost, reach] [a, b]) true 5).isOk = true := by decide +kernel
theorem lostMade₂ : (Pddl.make (lostTree [reach, lost] [b, a]) true 5).isOk = true := by decide +kernel

/-- The theorem applies to both, with the stale `lost(b)`. -/
example (P₁ P₂ : Pddl) (h₁ : Pddl.make (lostTree [lost, reach] [a, b]) true 5 = .ok P₁)
    (h₂ : Pddl.make (lostTree [reach, lost] [b, a]) true 5 = .ok P₂) : ∃ s' K, ∀ n, K ≤ n →
    P₁.derivedState n (State.ofList [startA a, edgeA a b, ⟨n!"lost", [n!"b"]⟩]) = .ok s' ∧
    P₂.derivedState n (State.ofList [startA a, edgeA a b, ⟨n!"lost", [n!"b"]⟩]) = .ok s' := by
  have hall : ∀ d ∈ [lost, reach], d = lost ∨ d = reach := by simp
  refine C79_recursive_partial h₁ h₂ ⟨?_, ?_, ?_⟩ ?_ (by decide) (by decide) (by decide)
    (by decide) (fun p => if p = n!"lost" then 1 else 0) ⟨?_, ?_⟩ _ ?_
  · simp [lostTree, reachTree, or_comm]
  · simp [lostTree]
  · simp [lostTree, or_comm]
  · intro d hd
    rcases hall d hd with rfl | rfl
    · exact ⟨by simp [lost], by simp [lostTree, reachTree, lost, Goal.WF, Term.Scoped, IsType, HasType, a, b, x, tBox]⟩
    · exact ⟨by simp [reach], by
        simp [lostTree, reachTree, reach, Goal.WF, Goal.WFs, Term.Scoped, IsType, HasType, a, b, x, u, tBox]⟩
  · intro d hd h0
    rcases hall d hd with rfl | rfl
    · exact absurd h0 (by decide)
    · simp only [reach, Goal.Polar, Goal.PolarL, and_true]
      refine ⟨fun _ => by decide, fun _ => by decide, fun _ => by decide⟩
  · intro d hd h0 p n hm _
    rcases hall d hd with rfl | rfl
    · simp only [lost, Goal.Mentions] at hm
      rw [hm.1]
      decide
    · exact absurd (by decide) h0
  · intro q hq hd
    rw [State.mem_ofList] at hq
    obtain ⟨d, hd, os, -, e⟩ := hd
    simp only [List.mem_cons, List.not_mem_nil, or_false] at hq
    rcases hq with rfl | rfl | rfl
    · rcases hall d hd with rfl | rfl <;> simp [startA, Drv.atom, lost, reach] at e
    · rcases hall d hd with rfl | rfl <;> simp [edgeA, Drv.atom, lost, reach] at e
    · decide

example : (get _ lostMade₁).derivedState 6 (State.ofList [startA a, edgeA a b, ⟨n!"lost", [n!"b"]⟩]) =
    .ok (State.ofList [startA a, edgeA a b, reachA a, reachA b]) := by decide +kernel

end

end Symbolic
