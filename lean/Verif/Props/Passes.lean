import Verif.Lemmas.Closure
import Verif.Examples.Demo

/-!
# C73: how long the closure of a partial state is sought
-/

namespace Symbolic

section
variable [StrHash]

/-- `k` passes over the axioms, every one of which changes something, lead from `s` to `u`. -/
inductive Passes (pass : PartialState → Res (Bool × PartialState)) : Nat → PartialState → PartialState → Prop
  | none (s : PartialState) : Passes pass 0 s s
  | more {k : Nat} {s t u : PartialState} : pass s = .ok (true, t) → Passes pass k t u → Passes pass (k + 1) s u

theorem consistentFixP_iff {m : ObjMap} {axs : List Ax} {n : Nat} (i : Nat) (s q : PartialState) :
    Pddl.consistentFixP m axs n i s = .ok q ↔
      ∃ k, i + k ≤ 50 ∧ ∃ u, Passes (Pddl.consistentPassP m axs n axs) k s u ∧
        Pddl.consistentPassP m axs n axs u = .ok (false, q) := by
  rw [Pddl.consistentFixP, Res.bind_eq_ok]
  constructor
  · rintro ⟨⟨b, r⟩, h1, h⟩
    split at h
    · cases h
    rename_i hi
    simp only [Pddl.kMaxIterations, gt_iff_lt, Nat.not_lt] at hi
    split at h
    · rename_i hb
      simp only at hb
      subst hb
      obtain ⟨k, h2, u, h3, h4⟩ := (consistentFixP_iff (i + 1) r q).1 h
      exact ⟨k + 1, by omega, u, .more h1 h3, h4⟩
    · rename_i hb
      simp only [Bool.not_eq_true] at hb
      subst hb
      simp only [Res.pure_eq, Res.ok.injEq] at h
      subst h
      exact ⟨0, by omega, s, .none s, h1⟩
  · rintro ⟨k, h1, u, h2, h3⟩
    have hi : ¬ i > Pddl.kMaxIterations := by simp only [Pddl.kMaxIterations]; omega
    cases h2 with
    | none => exact ⟨(false, q), h3, by simp [hi]⟩
    | more h4 h5 =>
      rename_i k t
      exact ⟨(true, t), h4, by
        simp only [hi, dite_false, if_true]
        exact (consistentFixP_iff (i + 1) t q).2 ⟨k, by omega, u, h5, h3⟩⟩
termination_by 51 - i
decreasing_by all_goals simp only [Pddl.kMaxIterations] at *; omega

theorem consistentFixP_late {m : ObjMap} {axs : List Ax} {n : Nat} {k : Nat} {s u : PartialState}
    (h : Passes (Pddl.consistentPassP m axs n axs) k s u) :
    ∀ {i : Nat}, i + k = 51 → ∀ {r : Bool × PartialState}, Pddl.consistentPassP m axs n axs u = .ok r →
      Pddl.consistentFixP m axs n i s = .exc .runtimeError := by
  induction h with
  | none s =>
    intro i hi r hr
    rw [Pddl.consistentFixP, hr, Res.bind_ok, dif_pos (by simp only [Pddl.kMaxIterations]; omega)]
  | more h1 _ ih =>
    intro i hi r hr
    rw [Pddl.consistentFixP, h1, Res.bind_ok, dif_neg (by simp only [Pddl.kMaxIterations]; omega), if_pos rfl]
    exact ih (by omega) hr

/-- **C73.** `ConsistentState` returns for a partial state iff one of the first 51 passes over the axioms changes
nothing (and none before it throws); its answer is then the state after that pass. -/
theorem C73_returns (P : Pddl) (n : Nat) (s q : PartialState) :
    P.consistentStateP n s = .ok q ↔
      ∃ k ≤ 50, ∃ u, Passes (Pddl.consistentPassP P.omap P.axioms n P.axioms) k s u ∧
        Pddl.consistentPassP P.omap P.axioms n P.axioms u = .ok (false, q) := by
  rw [Pddl.consistentStateP, consistentFixP_iff]
  simp

/-- **C73.** If 51 passes change something then the call throws after one more pass, also if that one changes nothing. -/
theorem C73_throws (P : Pddl) (n : Nat) (s u : PartialState) (r : Bool × PartialState)
    (h : Passes (Pddl.consistentPassP P.omap P.axioms n P.axioms) 51 s u)
    (hr : Pddl.consistentPassP P.omap P.axioms n P.axioms u = .ok r) :
    P.consistentStateP n s = .exc .runtimeError :=
  consistentFixP_late h (by rfl) hr

end

section
open Demo

/-- A string hash that tells the predicates below apart. -/
@[reducible] def sumHash : StrHash := ⟨fun n => UInt64.ofNat (n.foldl (fun s c => 31 * s + c.toNat) 0)⟩
attribute [local instance] sumHash

/-- Names `aa`, `ab`, ... -/
def chainName (i : Nat) : Name := [Char.ofNat (97 + i / 26), Char.ofNat (97 + i % 26)]

/-- `(go ?x) => (when (r_i ?x) (r_(i+1) ?x))`. -/
def chainAxiom (i : Nat) : Op where
  name := n!"axiom"
  params := [x]
  pre := .atom n!"go" [.var x]
  eff := .mk .nil [] [] (.cons (.atom (chainName i) [.var x]) (.mk .nil [(chainName (i + 1), [.var x])] [] .nil) .nil)
  isAxiom := true

/-- `n` such axioms, the last one first. -/
def chainTree (n : Nat) : Ptree where
  types := some [tBox, tObj]
  constants := []
  objects := [a]
  ops := (List.range n).reverse.map chainAxiom
  preds := ⟨n!"go", [x]⟩ :: (List.range (n + 1)).map fun i => ⟨chainName i, [x]⟩
  drvs := []
  init := []
  goal := .atom n!"go" [.const a]

def chainStart : PartialState := ⟨State.ofList [⟨n!"go", [a.name]⟩, ⟨chainName 0, [a.name]⟩], State.empty⟩

/-- Do `k` passes, every one of which must change something. -/
def runPasses (P : Pddl) (n : Nat) : Nat → PartialState → Option PartialState
  | 0, s => some s
  | k + 1, s =>
    match Pddl.consistentPassP P.omap P.axioms n P.axioms s with
    | .ok (true, t) => runPasses P n k t
    | _ => none

theorem passes_of_run {P : Pddl} {n : Nat} : ∀ {k : Nat} {s u : PartialState}, runPasses P n k s = some u →
    Passes (Pddl.consistentPassP P.omap P.axioms n P.axioms) k s u
  | 0, s, u, h => by cases h; exact .none _
  | k + 1, s, u, h => by
    simp only [runPasses] at h
    split at h
    · rename_i t ht
      exact .more ht (passes_of_run h)
    · cases h

/-- The last pass changed nothing. -/
def quiet (P : Pddl) (n : Nat) (k : Nat) (s : PartialState) : Bool :=
  match runPasses P n k s with
  | none => false
  | some u =>
    match Pddl.consistentPassP P.omap P.axioms n P.axioms u with
    | .ok (false, _) => true
    | _ => false

theorem chain8Made : (Pddl.make (chainTree 8) false 5).isOk = true := by decide +kernel
def chain8 : Pddl := get _ chain8Made
theorem chain51Made : (Pddl.make (chainTree 51) false 5).isOk = true := by decide +kernel
def chain51 : Pddl := get _ chain51Made

theorem quiet_iff {P : Pddl} {n k : Nat} {s : PartialState} (h : quiet P n k s = true) :
    ∃ u q, Passes (Pddl.consistentPassP P.omap P.axioms n P.axioms) k s u ∧
      Pddl.consistentPassP P.omap P.axioms n P.axioms u = .ok (false, q) := by
  unfold quiet at h
  split at h
  · cases h
  rename_i u hu
  split at h
  · rename_i q hq
    exact ⟨u, q, passes_of_run hu, hq⟩
  · cases h

/-- Eight axioms that have to be applied one after the other are within the limit. -/
example : ∃ q, chain8.consistentStateP 5 chainStart = .ok q := by
  obtain ⟨u, q, h1, h2⟩ := quiet_iff (P := chain8) (n := 5) (k := 8) (s := chainStart) (by decide +kernel)
  exact ⟨q, (C73_returns _ _ _ _).2 ⟨8, by omega, u, h1, h2⟩⟩

/-- **C73, refuted** for longer chains: with one more axiom the call throws, although a state that no axiom changes any
more has been reached. -/
theorem C73_limit_refuted : chain51.consistentStateP 5 chainStart = .exc .runtimeError ∧
    ∃ u q, Passes (Pddl.consistentPassP chain51.omap chain51.axioms 5 chain51.axioms) 51 chainStart u ∧
      Pddl.consistentPassP chain51.omap chain51.axioms 5 chain51.axioms u = .ok (false, q) := by
  obtain ⟨u, q, h1, h2⟩ := quiet_iff (P := chain51) (n := 5) (k := 51) (s := chainStart) (by decide +kernel)
  exact ⟨C73_throws _ _ _ u _ h1 h2, u, q, h1, h2⟩

end

end Symbolic
