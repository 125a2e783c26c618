import Verif.Lemmas.Completion
import Verif.Props.Normal

/-!
# C60, C61: normalized conditions completed by the axioms, and `NormalizeConditions`
-/

namespace Symbolic

/-! ## C60 -/

/-- The conjunction is true in some State that satisfies the axioms. -/
def Possible [StrHash] (t : Ptree) (c : PartialState) : Prop :=
  ∃ T : State, AxiomsHold (t.constants ++ t.objects) t.ops (· ∈ T) ∧ ConjTrue (t.constants ++ t.objects) (· ∈ T) c

/-- What `apply_axioms` does to a normal form: an absent one stays absent; otherwise each conjunction is replaced by one
to which no axiom can add anything, and on every State that satisfies the axioms the normal form stays true if it was.
If every conjunction is possible, it is true in the same States, and no literal is lost. -/
def Completes [StrHash] (t : Ptree) (P : Pddl) (fuel : Nat) (r r' : Option Dnf) : Prop :=
  (r = none ∧ r' = none) ∨ ∃ d d', r = some d ∧ r' = some d' ∧ d'.length = d.length ∧
    (∀ c' ∈ d', ∀ ax ∈ P.axioms, ∀ as ∈ ax.arguments, ax.op.isValid P.omap c' as = .ok true →
      ax.op.apply P.omap P.axioms fuel as c' = .ok (0, c')) ∧
    (∀ T : State, AxiomsHold (t.constants ++ t.objects) t.ops (· ∈ T) →
      DnfTrue (t.constants ++ t.objects) (· ∈ T) r → DnfTrue (t.constants ++ t.objects) (· ∈ T) r') ∧
    ((∀ c ∈ d, Possible t c) → List.Forall₂ Subsumes d d' ∧
      ∀ T : State, AxiomsHold (t.constants ++ t.objects) t.ops (· ∈ T) →
        (DnfTrue (t.constants ++ t.objects) (· ∈ T) r ↔ DnfTrue (t.constants ++ t.objects) (· ∈ T) r'))

theorem completeDnf_completes [StrHash] {t : Ptree} {b : Bool} {n : Nat} {P : Pddl}
    (hP : Pddl.make t b n = .ok P) (hnd : ((t.constants ++ t.objects).map Obj.name).Nodup)
    {sig : Name → List Name} (hax : AxiomsSorted (t.constants ++ t.objects) sig t.ops) {fuel : Nat}
    {r r' : Option Dnf} (h : P.completeDnf fuel true r = .ok r') : Completes t P fuel r r' := by
  cases r with
  | none =>
    simp only [Pddl.completeDnf, Res.ok.injEq] at h
    exact Or.inl ⟨rfl, h.symm⟩
  | some d =>
    simp only [Pddl.completeDnf, if_true, Res.bind_eq_ok, Res.pure_eq, Res.ok.injEq] at h
    obtain ⟨d', h1, rfl⟩ := h
    have hf := consistentConjs_forall h1
    right
    refine ⟨d, d', rfl, rfl, hf.length_eq.symm, ?_, ?_, ?_⟩
    · intro c' hc'
      obtain ⟨c, -, hc⟩ := forall₂_left hf c' hc'
      exact C33_saturated P fuel c c' hc
    · rintro T hT (rfl | ⟨c, hc, ht⟩)
      · cases hf; exact Or.inl rfl
      · obtain ⟨c', hc', h2⟩ := forall₂_right hf c hc
        exact Or.inr ⟨c', hc', (consistentStateP_conj hP hnd hax h2 hT ht).1⟩
    · intro hposs
      have hsub : ∀ c c', c ∈ d → P.consistentStateP fuel c = .ok c' → Subsumes c c' := by
        intro c c' hc h2
        obtain ⟨T, hT, ht⟩ := hposs c hc
        exact (consistentStateP_conj hP hnd hax h2 hT ht).2
      refine ⟨?_, fun T hT => ⟨?_, ?_⟩⟩
      · clear h1
        induction hf with
        | nil => exact .nil
        | cons h2 _ ih =>
          exact .cons (hsub _ _ (by simp) h2) (ih (fun c hc => hposs c (by simp [hc]))
            (fun c c' hc => hsub c c' (by simp [hc])))
      · rintro (rfl | ⟨c, hc, ht⟩)
        · cases hf; exact Or.inl rfl
        · obtain ⟨c', hc', h2⟩ := forall₂_right hf c hc
          exact Or.inr ⟨c', hc', (consistentStateP_conj hP hnd hax h2 hT ht).1⟩
      · rintro (rfl | ⟨c', hc', ht⟩)
        · cases hf; exact Or.inl rfl
        · obtain ⟨c, hc, h2⟩ := forall₂_left hf c' hc'
          have hs := hsub c c' hc h2
          exact Or.inr ⟨c, hc, fun a ha => ht.1 a (hs.1 a ha), fun a ha => ht.2 a (hs.2 a ha)⟩

/-- **C60, partial.** With `apply_axioms`, `NormalizePreconditions`, `NormalizePostconditions` and `NormalizeGoal` return
the completion of what they return without it. Missing: disjuncts that contradict the axioms, where the code throws or
changes the meaning, and axioms with narrow parameter types (C33). -/
theorem C60_completion_partial [StrHash] (t : Ptree) (b : Bool) (n : Nat) (P : Pddl)
    (hP : Pddl.make t b n = .ok P) (hnd : ((t.constants ++ t.objects).map Obj.name).Nodup)
    (sig : Name → List Name) (hax : AxiomsSorted (t.constants ++ t.objects) sig t.ops) (fuel : Nat) :
    (∀ call r', P.normalizePre fuel call true = .ok r' →
      ∃ r, P.normalizePre fuel call false = .ok r ∧ Completes t P fuel r r') ∧
    (∀ call r', P.normalizePost fuel call true = .ok r' →
      ∃ r, P.normalizePost fuel call false = .ok r ∧ Completes t P fuel r r') ∧
    (∀ r', P.normalizeGoal fuel true = .ok r' →
      ∃ r, P.normalizeGoal fuel false = .ok r ∧ Completes t P fuel r r') := by
  have hno : ∀ r, P.completeDnf fuel false r = .ok r := by intro r; cases r <;> rfl
  refine ⟨fun call r' h => ?_, fun call r' h => ?_, fun r' h => ?_⟩
  · simp only [Pddl.normalizePre, Res.bind_eq_ok] at h ⊢
    obtain ⟨oa, h1, r, h2, h3⟩ := h
    exact ⟨r, ⟨oa, h1, r, h2, hno r⟩, completeDnf_completes hP hnd hax h3⟩
  · simp only [Pddl.normalizePost, Res.bind_eq_ok] at h ⊢
    obtain ⟨oa, h1, r, h2, h3⟩ := h
    exact ⟨r, ⟨oa, h1, r, h2, hno r⟩, completeDnf_completes hP hnd hax h3⟩
  · simp only [Pddl.normalizeGoal, Res.bind_eq_ok] at h ⊢
    obtain ⟨r, h2, h3⟩ := h
    exact ⟨r, ⟨r, h2, hno r⟩, completeDnf_completes hP hnd hax h3⟩

/-- **C60 for preconditions, partial.** On States that satisfy the axioms, an action call with a regular precondition is
valid iff its precondition normalized with `apply_axioms` is true, if every disjunct is possible. -/
theorem C60_preconditions_partial [StrHash] (t : Ptree) (b : Bool) (n : Nat) (P : Pddl)
    (hP : Pddl.make t b n = .ok P) (hnd : ((t.constants ++ t.objects).map Obj.name).Nodup)
    (sig : Name → List Name) (hax : AxiomsSorted (t.constants ++ t.objects) sig t.ops) (call : Name) (op : Op)
    (args : List Obj) (hcall : P.parseAction call = .ok (op, args))
    (hwf : op.pre.WF (t.constants ++ t.objects) (op.params.map Obj.name))
    (hconst : ∀ c, op.pre.HasConst c → c ∈ t.constants ++ t.objects)
    (hreg : op.pre.Regular (t.constants ++ t.objects) (Env.none.bind op.params args)) (fuel : Nat) (r' : Option Dnf)
    (h : P.normalizePre fuel call true = .ok r')
    (hposs : ∀ d, P.normalizePre fuel call false = .ok (some d) → ∀ c ∈ d, Possible t c)
    (s : State) (hs : AxiomsHold (t.constants ++ t.objects) t.ops (· ∈ s)) :
    ∃ v, P.isValidAction s call = .ok v ∧ (v = true ↔ DnfTrue (t.constants ++ t.objects) (· ∈ s) r') := by
  obtain ⟨r, h1, h2⟩ := (C60_completion_partial t b n P hP hnd sig hax fuel).1 call r' h
  obtain ⟨r0, h3, h4⟩ := C51_normalized_preconditions_partial t b n P hP hnd call op args hcall hwf hconst hreg fuel
  rw [h1] at h3
  cases h3
  obtain ⟨v, h5, h6⟩ := h4 s
  refine ⟨v, h5, h6.trans ?_⟩
  rcases h2 with ⟨rfl, rfl⟩ | ⟨d, d', rfl, rfl, -, -, -, h7⟩
  · exact Iff.rfl
  · exact (h7 (hposs d h1)).2 s hs

/-! ## C61 -/

/-- **C61.** `NormalizeConditions` is the pair of `NormalizePreconditions` and `NormalizePostconditions`: it returns a pair
exactly if both return a formula, and then it is these two; if it returns nothing, one of them returns nothing. For
every Pddl, call and choice of `apply_axioms`. -/
theorem C61_conditions_pair [StrHash] (P : Pddl) (fuel : Nat) (call : Name) (applyAxioms : Bool) :
    (∀ pre post, P.normalizeConditions fuel call applyAxioms = .ok (some (pre, post)) ↔
      P.normalizePre fuel call applyAxioms = .ok (some pre) ∧ P.normalizePost fuel call applyAxioms = .ok (some post)) ∧
    (P.normalizeConditions fuel call applyAxioms = .ok none →
      P.normalizePre fuel call applyAxioms = .ok none ∨ P.normalizePost fuel call applyAxioms = .ok none) ∧
    (∀ pre post, P.normalizePre fuel call applyAxioms = .ok pre → P.normalizePost fuel call applyAxioms = .ok post →
      pre = none ∨ post = none → P.normalizeConditions fuel call applyAxioms = .ok none) := by
  unfold Pddl.normalizeConditions Pddl.normalizePre Pddl.normalizePost
  cases hp : P.parseAction call with
  | ok oa =>
    simp only [Res.bind_ok]
    cases h1 : oa.1.pre.dnf P.ctx oa.1.params oa.2 with
    | ok pre =>
      cases h2 : oa.1.eff.dnf P.ctx oa.1.params oa.2 with
      | ok post =>
        cases pre <;> cases post <;> cases applyAxioms <;>
          simp [Pddl.completeDnf, Res.bind_eq_ok]
        rename_i pre post
        cases P.consistentConjs fuel pre <;> cases P.consistentConjs fuel post <;> simp
      | _ => cases pre <;> simp [Pddl.completeDnf]
    | _ => simp
  | _ => simp

section
open Demo
attribute [local instance] lenHash

/-! ## Refutations and examples for C60, C61 -/

/-- Precondition `(and (inhand ?x) (clear ?x))`. -/
def bothOp : Op := ⟨n!"both", [x], .conj [.atom n!"inhand" [.var x], .atom n!"clear" [.var x]],
  .mk .nil [(n!"on", [.var x, .const table])] [] .nil, false⟩
/-- Precondition `(or (and (inhand ?x) (clear ?x)) (on ?x table))`. -/
def eitherOp : Op := ⟨n!"either", [x], .disj [.conj [.atom n!"inhand" [.var x], .atom n!"clear" [.var x]],
  .atom n!"on" [.var x, .const table]], .mk .nil [] [(n!"on", [.var x, .const table])] .nil, false⟩
/-- `(inhand ?x) => (not (clear ?x))` -/
def notClear : Op := ⟨n!"axiom", [x], .atom n!"inhand" [.var x], .mk .nil [] [(n!"clear", [.var x])] .nil, true⟩
def twoTree : Ptree := { ovrTree with ops := [ovr1, ovr2, bothOp] }
def oneTree : Ptree := { ovrTree with ops := [notClear, eitherOp] }

theorem twoMade : (Pddl.make twoTree true 5).isOk = true := by decide +kernel
def twoP : Pddl := get _ twoMade
theorem twoP_made : Pddl.make twoTree true 5 = .ok twoP := get_eq _ _
theorem oneMade : (Pddl.make oneTree true 5).isOk = true := by decide +kernel
def oneP : Pddl := get _ oneMade
theorem oneP_made : Pddl.make oneTree true 5 = .ok oneP := get_eq _ _

/-- **C60, refuted: a disjunct that contradicts the axioms changes its meaning.** With the axioms "in the hand is busy"
and "busy is not clear", `both(a)` is valid in no State that satisfies the axioms; completing its precondition forgets
`clear(a)`, so the completed precondition is true in the State with `inhand(a)` and `busy(a)`, which satisfies the
axioms. -/
theorem C60_contradiction_refuted :
    twoP.isValidState 5 (State.ofList [inhand a, busyA a]) = .ok true ∧
    twoP.isValidAction (State.ofList [inhand a, busyA a]) n!"both(a)" = .ok false ∧
    twoP.normalizePre 5 n!"both(a)" true = .ok (some [⟨State.ofList [inhand a, busyA a], State.ofList [clear a]⟩]) ∧
    DnfTrue (twoTree.constants ++ twoTree.objects) (· ∈ State.ofList [inhand a, busyA a])
      (some [⟨State.ofList [inhand a, busyA a], State.ofList [clear a]⟩]) := by
  refine ⟨by decide +kernel, by decide +kernel, by decide +kernel, ?_⟩
  simp [DnfTrue, SomeTrue, ConjTrue, AtomTrue, inhand, busyA, clear, IsType, HasType, twoTree, ovrTree, tree, a, b, table,
    tBox, tObj]

/-- **C60, refuted: normalization throws.** With the axiom "in the hand is not clear" the call `either(a)` is valid where
`a` is on the table, but completing the disjunct that contradicts the axiom throws `runtime_error`. -/
theorem C60_throws_refuted :
    oneP.isValidState 5 (State.ofList [on a table]) = .ok true ∧
    oneP.isValidAction (State.ofList [on a table]) n!"either(a)" = .ok true ∧
    oneP.normalizePre 5 n!"either(a)" true = .exc .runtimeError := by
  refine ⟨by decide +kernel, by decide +kernel, by decide +kernel⟩

/-- Completing the precondition of `place(a, table)` adds that what is in the hand is on nothing. -/
example : P.normalizePre 5 n!"place(a, table)" false = .ok (some [⟨State.ofList [inhand a], State.empty⟩]) ∧
    P.normalizePre 5 n!"place(a, table)" true =
      .ok (some [⟨State.ofList [inhand a], State.ofList [on a a, on a b, on a table]⟩]) := by
  refine ⟨by decide +kernel, by decide +kernel⟩

/-- That disjunct is possible: the State with `inhand(a)` satisfies the axiom. -/
theorem place_possible : ∀ d, P.normalizePre 5 n!"place(a, table)" false = .ok (some d) → ∀ c ∈ d, Possible tree c := by
  intro d hd c hc
  have h : P.normalizePre 5 n!"place(a, table)" false = .ok (some [⟨State.ofList [inhand a], State.empty⟩]) := by
    decide +kernel
  rw [h] at hd
  cases hd
  simp only [List.mem_singleton] at hc
  subst hc
  refine ⟨State.ofList [inhand a], ?_, ?_⟩
  · refine (C32_valid_iff_axioms_hold tree true 5 P P_made (by decide) ?_ 5 _).1 (by decide +kernel)
    intro op hop ha
    exact ⟨(demo_sorted op hop ha).1.formed, (demo_sorted op hop ha).2⟩
  · simp [ConjTrue, AtomTrue, inhand, IsType, HasType, tree, a, b, table, tBox, tObj]

/-- The hypotheses of the partial theorem are met by `place(a, table)`. -/
example (s : State) (hs : AxiomsHold (tree.constants ++ tree.objects) tree.ops (· ∈ s)) :
    ∃ v, P.isValidAction s n!"place(a, table)" = .ok v ∧ (v = true ↔ DnfTrue (tree.constants ++ tree.objects) (· ∈ s)
      (some [⟨State.ofList [inhand a], State.ofList [on a a, on a b, on a table]⟩])) := by
  refine C60_preconditions_partial tree true 5 P P_made (by decide) demoSig demo_sorted n!"place(a, table)" place
    [a, table] (by rfl) ?_ ?_ ?_ 5 _ (by decide +kernel) place_possible s hs
  · simp [place, Goal.WF, Goal.WFs, Term.Scoped, IsType, HasType, tree, a, b, table, tBox, tObj, x, y]
  · simp [place, Goal.HasConst, Goal.HasConstL]
  · simp [place, Goal.Regular, Goal.Regulars]

example : P.normalizeConditions 5 n!"place(a, table)" true = .ok (some
    ([⟨State.ofList [inhand a], State.ofList [on a a, on a b, on a table]⟩],
     [⟨State.ofList [on a table], State.ofList [inhand a]⟩])) := by decide +kernel

end

end Symbolic
