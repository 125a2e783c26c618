import Verif.Lemmas.PartialAxiom
import Verif.Props.Axioms
import Verif.Examples.Demo

/-!
# C33, C34: axioms on partial states
-/

namespace Symbolic

theorem guided [StrHash] {t : Ptree} {P : Pddl} (B : P.Built t)
    {sig : Name → List Name} (hax : AxiomsSorted (t.constants ++ t.objects) sig t.ops) {T : State}
    (hT : AxiomsHold (t.constants ++ t.objects) t.ops (· ∈ T)) :
    ∀ ax ∈ P.axioms, Guided (t.constants ++ t.objects) sig T ax := by
  intro ax hm
  obtain ⟨hop, ha, hc, -⟩ := B.ax hm
  exact ⟨(hax _ hop ha).1, hc, hT _ hop ha⟩

theorem kept_typed [StrHash] {t : Ptree} {P : Pddl} (B : P.Built t)
    (hnd : ((t.constants ++ t.objects).map Obj.name).Nodup)
    {sig : Name → List Name} (hax : AxiomsSorted (t.constants ++ t.objects) sig t.ops) :
    ∀ ax ∈ P.axioms, ∀ as ∈ ax.arguments, WellTyped (t.constants ++ t.objects) ax.op.params as := by
  intro ax hm
  obtain ⟨hop, ha, -⟩ := B.ax hm
  obtain ⟨hs, hc⟩ := hax _ hop ha
  exact (B.arguments hnd hm hs.formed.params hs.formed.pre hc).1

/-! ## C33 -/

/-- **C33, entailment.** `ConsistentState(p)` only adds facts that hold in every valid completion: if a State `T`
satisfies all axioms and is compatible with `p`, it is compatible with the result, and the result knows everything that
`p` knows.

Missing for the full claim: without a valid completion, a triggered axiom may override what `p` knows
(`C33_override_refuted`); without the typing conditions a triggered axiom may run with arguments of a wrong type
(`C33_narrow_axiom_refuted`). -/
theorem C33_entailed_partial [StrHash] (t : Ptree) (b : Bool) (n : Nat) (P : Pddl)
    (hP : Pddl.make t b n = .ok P) (hnd : ((t.constants ++ t.objects).map Obj.name).Nodup)
    (sig : Name → List Name) (hax : AxiomsSorted (t.constants ++ t.objects) sig t.ops) (fuel : Nat)
    (p p' : PartialState) (h : P.consistentStateP fuel p = .ok p')
    (T : State) (hT : AxiomsHold (t.constants ++ t.objects) t.ops (· ∈ T))
    (hc : Compatible (· ∈ p.pos) (· ∈ p.neg) (· ∈ T)) :
    Compatible (· ∈ p'.pos) (· ∈ p'.neg) (· ∈ T) ∧ (∀ a ∈ p.pos, a ∈ p'.pos) ∧ ∀ a ∈ p.neg, a ∈ p'.neg := by
  have B := Pddl.built hP
  rw [Pddl.consistentStateP, B.omap] at h
  have := consistentFixP_good (fuel := fuel) (guided B hax hT) (kept_typed B hnd hax) 0 p hc
  rw [h] at this
  rcases this with h1 | h1 | ⟨q, h1, h2, h3⟩
  · simp at h1
  · simp at h1
  · cases h1
    exact ⟨h2, h3.1, h3.2⟩

/-- **C33.** While a valid completion exists, `ConsistentState(p)` does not fail, except by its iteration limit. -/
theorem C33_no_failure_partial [StrHash] (t : Ptree) (b : Bool) (n : Nat) (P : Pddl)
    (hP : Pddl.make t b n = .ok P) (hnd : ((t.constants ++ t.objects).map Obj.name).Nodup)
    (sig : Name → List Name) (hax : AxiomsSorted (t.constants ++ t.objects) sig t.ops) (fuel : Nat)
    (p : PartialState)
    (T : State) (hT : AxiomsHold (t.constants ++ t.objects) t.ops (· ∈ T))
    (hc : Compatible (· ∈ p.pos) (· ∈ p.neg) (· ∈ T)) :
    (∃ p', P.consistentStateP fuel p = .ok p') ∨ P.consistentStateP fuel p = .exc .runtimeError ∨
      P.consistentStateP fuel p = .fuel := by
  have B := Pddl.built hP
  rw [Pddl.consistentStateP, B.omap]
  rcases consistentFixP_good (fuel := fuel) (guided B hax hT) (kept_typed B hnd hax) 0 p hc with h1 | h1 | ⟨q, h1, -⟩
  · exact Or.inr (Or.inl h1)
  · exact Or.inr (Or.inr h1)
  · exact Or.inl ⟨q, h1⟩

/-- **C33, saturation.** If `ConsistentState(p)` returns `p'`, then applying any axiom instance whose context is known
to be true in `p'` reports no change and leaves `p'` as it is. For every Pddl and every PartialState. -/
theorem C33_saturated [StrHash] (P : Pddl) (fuel : Nat) (p p' : PartialState)
    (h : P.consistentStateP fuel p = .ok p') :
    ∀ ax ∈ P.axioms, ∀ as ∈ ax.arguments, ax.op.isValid P.omap p' as = .ok true →
      ax.op.apply P.omap P.axioms fuel as p' = .ok (0, p') :=
  consistentFixP_quiet 0 p p' h

/-- **C33, saturation, in terms of facts.** In the result, an axiom without conditional effects whose context is known to
be true has all its consequences known, for every type-correct argument list. -/
theorem C33_consequences_known [StrHash] (t : Ptree) (b : Bool) (n : Nat) (P : Pddl)
    (hP : Pddl.make t b n = .ok P) (hnd : ((t.constants ++ t.objects).map Obj.name).Nodup) (fuel : Nat)
    (p p' : PartialState) (h : P.consistentStateP fuel p = .ok p')
    (op : Op) (hop : op ∈ t.ops) (ha : op.isAxiom = true) (hf : op.Formed (t.constants ++ t.objects))
    (hconst : ∀ c, op.pre.HasConst c → c ∈ t.constants ++ t.objects) (hnc : op.eff.NoCond)
    (as : List Obj) (hw : WellTyped (t.constants ++ t.objects) op.params as)
    (hknown : op.isValid P.omap p' as = .ok true) (hcons : p'.isConsistent = true)
    (S : Atom → Prop) (sign : Bool) (x : Atom) (hne : x.pred ≠ n!"=") (hnt : ¬ IsType (t.constants ++ t.objects) x.pred)
    (hx : Makes (t.constants ++ t.objects) S sign (Env.none.bind op.params as) op.eff x) :
    if sign = true then x ∈ p'.pos else x ∈ p'.neg := by
  have B := Pddl.built hP
  obtain ⟨ax, hm, axs, hmk⟩ := forall₂_right B.axioms op (by simp [hop, ha])
  obtain ⟨-, rfl, -⟩ := Ax.make_ok hmk
  have hin : as ∈ ax.arguments := by
    by_contra hn
    have hs : Sat (t.constants ++ t.objects) (· ∈ p'.pos) (Env.none.bind ax.op.params as) ax.op.pre := by
      refine Toward.sat (T := p'.pos) (p := p') ⟨fun _ h => h, fun a h h' => ?_⟩ hw.length hf.pre
        (by rw [Op.isValid, B.omap] at hknown; exact hknown)
      exact PartialState.isConsistent_iff.1 hcons a h' h
    exact (B.arguments hnd hm hf.params hf.pre hconst).2 as hw hn _ hs
  have hq := consistentFixP_quiet 0 p p' h ax hm as hin hknown
  rw [B.omap, Op.apply] at hq
  exact Eff.apply_zero_known _ _ _ p' hw.length hf.eff hnc hq sign x hne hnt hx

/-! ## C34 -/

/-- **C34.** If a State satisfies all axioms and is compatible with `p`, then `IsValidState(p)` does not answer false (and
neither throws nor has undefined behaviour): it is true as soon as it returns.

Missing for the full claim: the typing conditions on triggered axioms, see `C34_narrow_axiom_refuted`. -/
theorem C34_never_rejects_partial [StrHash] (t : Ptree) (b : Bool) (n : Nat) (P : Pddl)
    (hP : Pddl.make t b n = .ok P) (hnd : ((t.constants ++ t.objects).map Obj.name).Nodup)
    (sig : Name → List Name) (hax : AxiomsSorted (t.constants ++ t.objects) sig t.ops) (fuel : Nat)
    (p : PartialState) (T : State) (hT : AxiomsHold (t.constants ++ t.objects) t.ops (· ∈ T))
    (hc : Compatible (· ∈ p.pos) (· ∈ p.neg) (· ∈ T)) :
    P.isValidStateP fuel p = .fuel ∨ P.isValidStateP fuel p = .ok true := by
  have B := Pddl.built hP
  rw [Pddl.isValidStateP, B.omap]
  exact consistentPFix_good (guided B hax hT) (kept_typed B hnd hax) fuel p hc

/-- **C34**, as stated: a rejected PartialState has no valid completion. -/
theorem C34_rejected_has_no_completion_partial [StrHash] (t : Ptree) (b : Bool) (n : Nat) (P : Pddl)
    (hP : Pddl.make t b n = .ok P) (hnd : ((t.constants ++ t.objects).map Obj.name).Nodup)
    (sig : Name → List Name) (hax : AxiomsSorted (t.constants ++ t.objects) sig t.ops) (fuel : Nat)
    (p : PartialState) (h : P.isValidStateP fuel p = .ok false) :
    ¬ ∃ T : State, Compatible (· ∈ p.pos) (· ∈ p.neg) (· ∈ T) ∧
      AxiomsHold (t.constants ++ t.objects) t.ops (· ∈ T) := by
  rintro ⟨T, hc, hT⟩
  rcases C34_never_rejects_partial t b n P hP hnd sig hax fuel p T hT hc with h1 | h1 <;> rw [h] at h1 <;> simp at h1

/-! ## Examples -/

section
open Demo
attribute [local instance] lenHash

/-- Signatures of the demo domain. -/
def demoSig : Name → List Name := fun n =>
  if n = n!"on" then [n!"box", n!"object"] else if n = n!"inhand" then [n!"box"] else []

theorem noOn : ¬ IsType (tree.constants ++ tree.objects) n!"on" := by
  simp [IsType, HasType, tree, a, b, table, tBox, tObj]

/-- The axiom of the demo domain meets the conditions. -/
theorem demo_sorted : AxiomsSorted (tree.constants ++ tree.objects) demoSig tree.ops := by
  intro op hop ha
  simp only [tree, List.mem_cons, List.not_mem_nil, or_false] at hop
  rcases hop with rfl | rfl | rfl
  · simp [pick] at ha
  · simp [place] at ha
  · refine ⟨⟨⟨by simp [held], ?_, ?_⟩, ?_, ?_, ?_, by decide, ?_⟩, ?_⟩
    · simp [held, Goal.WF, Term.Scoped, IsType, HasType, tree, a, b, table, tBox, tObj]
    · simp [held, Eff.Formed, FList.Formed, CList.Formed, AtomLits, Goal.WF, Term.Scoped, IsType, HasType, tree, a, b,
        table, tBox, tObj]
    · constructor <;> simp [held, Op.ctx, Term.Scoped, varNames]
    · simp [held, Eff.Fresh, FList.Fresh, CList.Fresh, x, z]
    · intro as hw
      simp only [held, Eff.Typed, FList.Typed, CList.Typed, LitsTyped, List.not_mem_nil, false_implies, implies_true,
        and_true, true_and, List.mem_singleton, Prod.mk.injEq]
      rintro os ho pred ts ⟨rfl, rfl⟩ - - us hu
      cases hw with
      | cons hw hn =>
        cases hn
        cases ho with
        | cons ho hn =>
          cases hn
          cases hu with
          | cons hu1 hn =>
            cases hn with
            | cons hu2 hn =>
              cases hn
              simp [Denotes, Env.bind, Env.set, x, z] at hu1 hu2
              subst hu1 hu2
              exact .cons ⟨hw.1, hw.2⟩ (.cons ⟨ho.1, ho.2⟩ .nil)
    · intro as os hr ht
      obtain ⟨hl, hm⟩ := ht
      match as, hl with
      | [o], _ =>
        cases hr with
        | cons hr hn =>
          cases hn
          cases hm with
          | cons hm _ =>
            simp [MatchTerm, Env.bind, held, x, Env.set] at hm
            subst hm
            exact .cons ⟨hr.1, hr.2⟩ .nil
    · simp [held, Goal.HasConst]

/-- From `inhand(a)` and `on(b, table)` unknown follows that `a` is on nothing. -/
example : P.consistentStateP 5 ⟨State.ofList [inhand a, on b table], State.empty⟩ =
    .ok ⟨State.ofList [inhand a, on b table], State.ofList [on a a, on a b, on a table]⟩ := by decide +kernel

/-- A partial state without a valid completion. -/
example : P.isValidStateP 5 ⟨State.ofList [inhand a, on a b], State.empty⟩ = .ok false := by decide +kernel

/-! ## Refutations -/

def clear (p : Obj) : Atom := ⟨n!"clear", [p.name]⟩

/-- `(inhand ?x) => (busy ?x)` and `(busy ?x) => (not (clear ?x))`. -/
def ovr1 : Op := ⟨n!"axiom", [x], .atom n!"inhand" [.var x], .mk .nil [(n!"busy", [.var x])] [] .nil, true⟩
def ovr2 : Op := ⟨n!"axiom", [x], .atom n!"busy" [.var x], .mk .nil [] [(n!"clear", [.var x])] .nil, true⟩
def ovrTree : Ptree :=
  { tree with ops := [ovr1, ovr2], drvs := [], preds := ⟨n!"clear", [x]⟩ :: tree.preds, init := [] }

theorem ovrMade : (Pddl.make ovrTree true 5).isOk = true := by decide +kernel
def ovrP : Pddl := get _ ovrMade
theorem ovrP_made : Pddl.make ovrTree true 5 = .ok ovrP := get_eq _ _

/-- **C33, refuted without a valid completion:** the change codes of triggered axioms are dropped, so `ConsistentState`
forgets `clear(a)`, which was known, and claims the opposite; `IsValidState` accepts the state although no completion
satisfies the axioms. -/
theorem C33_override_refuted :
    ovrP.consistentStateP 5 ⟨State.ofList [inhand a, clear a], State.empty⟩ =
      .ok ⟨State.ofList [inhand a, busyA a], State.ofList [clear a]⟩ ∧
    ovrP.isValidStateP 5 ⟨State.ofList [inhand a, clear a], State.empty⟩ = .ok true := by decide +kernel

/-- `(inhand ?x) => (on ?x table)` and, for boxes `?x ?u`, `(on ?x ?u) => (not (inhand ?x))`. -/
def nar1 : Op :=
  ⟨n!"axiom", [x], .atom n!"inhand" [.var x], .mk .nil [(n!"on", [.var x, .const table])] [] .nil, true⟩
def nar2 : Op :=
  ⟨n!"axiom", [x, u], .atom n!"on" [.var x, .var u], .mk .nil [] [(n!"inhand", [.var x])] .nil, true⟩
def narTree : Ptree := { tree with ops := [nar1, nar2], drvs := [], init := [] }

theorem narMade : (Pddl.make narTree true 5).isOk = true := by decide +kernel
def narP : Pddl := get _ narMade
theorem narP_made : Pddl.make narTree true 5 = .ok narP := get_eq _ _

/-- **C33, refuted for axioms with narrow parameter types:** `{inhand(a), on(a, table)}` satisfies both axioms (the table
is no box), but inferring `on(a, table)` triggers the second axiom for the table, and `ConsistentState` concludes that
`a` is not in the hand. -/
theorem C33_narrow_axiom_refuted :
    narP.isValidState 5 (State.ofList [inhand a, on a table]) = .ok true ∧
    AxiomsHold (narTree.constants ++ narTree.objects) narTree.ops (· ∈ State.ofList [inhand a, on a table]) ∧
    narP.consistentStateP 5 ⟨State.ofList [inhand a], State.empty⟩ =
      .ok ⟨State.ofList [on a table], State.ofList [inhand a]⟩ := by
  have hv : narP.isValidState 5 (State.ofList [inhand a, on a table]) = .ok true := by decide +kernel
  refine ⟨hv, ?_, by decide +kernel⟩
  refine (C32_valid_iff_axioms_hold narTree true 5 narP narP_made (by decide) ?_ 5 _).1 hv
  intro op hop ha
  simp only [narTree, List.mem_cons, List.not_mem_nil, or_false] at hop
  rcases hop with rfl | rfl
  · refine ⟨⟨by simp [nar1], ?_, ?_⟩, ?_⟩
    · simp [nar1, Goal.WF, Term.Scoped, IsType, HasType, narTree, tree, a, b, table, tBox, tObj]
    · simp [nar1, Eff.Formed, FList.Formed, CList.Formed, AtomLits, Goal.WF, Term.Scoped, IsType, HasType, narTree, tree,
        a, b, table, tBox, tObj, x]
    · simp [nar1, Goal.HasConst]
  · refine ⟨⟨by simp [nar2], ?_, ?_⟩, ?_⟩
    · simp [nar2, Goal.WF, Term.Scoped, IsType, HasType, narTree, tree, a, b, table, tBox, tObj]
    · simp [nar2, Eff.Formed, FList.Formed, CList.Formed, AtomLits, Goal.WF, Term.Scoped, IsType, HasType, narTree, tree,
        a, b, table, tBox, tObj]
    · simp [nar2, Goal.HasConst]

/-- For boxes `?x ?u`, `(on ?x ?u) => (= ?x ?u)`. -/
def rej2 : Op :=
  ⟨n!"axiom", [x, u], .atom n!"on" [.var x, .var u], .mk .nil [(n!"=", [.var x, .var u])] [] .nil, true⟩
def rejTree : Ptree := { tree with ops := [nar1, rej2], drvs := [], init := [] }

theorem rejMade : (Pddl.make rejTree true 5).isOk = true := by decide +kernel
def rejP : Pddl := get _ rejMade
theorem rejP_made : Pddl.make rejTree true 5 = .ok rejP := get_eq _ _

/-- **C34, refuted for axioms with narrow parameter types:** `IsValidState` rejects `{inhand(a)}`, although the State
`{inhand(a), on(a, table)}` is compatible with it and satisfies all axioms. -/
theorem C34_narrow_axiom_refuted :
    rejP.isValidStateP 5 ⟨State.ofList [inhand a], State.empty⟩ = .ok false ∧
    Compatible (· ∈ State.ofList [inhand a]) (· ∈ State.empty) (· ∈ State.ofList [inhand a, on a table]) ∧
    AxiomsHold (rejTree.constants ++ rejTree.objects) rejTree.ops (· ∈ State.ofList [inhand a, on a table]) := by
  have hv : rejP.isValidState 5 (State.ofList [inhand a, on a table]) = .ok true := by decide +kernel
  refine ⟨by decide +kernel, ⟨?_, by simp⟩, ?_⟩
  · intro x hx
    simp only [State.mem_ofList, List.mem_cons, List.not_mem_nil, or_false] at hx ⊢
    exact Or.inl hx
  refine (C32_valid_iff_axioms_hold rejTree true 5 rejP rejP_made (by decide) ?_ 5 _).1 hv
  intro op hop ha
  simp only [rejTree, List.mem_cons, List.not_mem_nil, or_false] at hop
  rcases hop with rfl | rfl
  · refine ⟨⟨by simp [nar1], ?_, ?_⟩, ?_⟩
    · simp [nar1, Goal.WF, Term.Scoped, IsType, HasType, rejTree, tree, a, b, table, tBox, tObj]
    · simp [nar1, Eff.Formed, FList.Formed, CList.Formed, AtomLits, Goal.WF, Term.Scoped, IsType, HasType, rejTree, tree,
        a, b, table, tBox, tObj, x]
    · simp [nar1, Goal.HasConst]
  · refine ⟨⟨by simp [rej2], ?_, ?_⟩, ?_⟩
    · simp [rej2, Goal.WF, Term.Scoped, IsType, HasType, rejTree, tree, a, b, table, tBox, tObj]
    · simp [rej2, Eff.Formed, FList.Formed, CList.Formed, AtomLits, Goal.WF, Term.Scoped, IsType, HasType, rejTree, tree,
        a, b, table, tBox, tObj, x, u]
    · simp [rej2, Goal.HasConst]

end

end Symbolic
