import Verif.Lemmas.FormulaSim
import Verif.Lemmas.FormulaBuf
import Verif.Examples.Demo

/-!
# C16-C20: formulas
-/

namespace Symbolic

/-! ## C16 -/

/-- **C16.** A well-formed formula over the declared objects can be constructed, and evaluating it on a State with any
argument list of the right length returns whether it is satisfied: `and`, `or`, `not`, quantifiers over the declared
objects of the types, inner variables shadowing outer ones, `=`, type tests, and membership for all other atoms. -/
theorem C16_evaluation_is_satisfaction [StrHash] (objects : List Obj) (g : Goal) (params : List Obj)
    (hwf : g.WF objects (params.map Obj.name)) :
    ∃ F, Formula.make (ObjMap.create objects) g params = .ok F ∧
      ∀ (s : State) (args : List Obj), args.length = params.length →
        ∃ b, F.evalState s args = .ok b ∧ (b = true ↔ Sat objects (· ∈ s) (Env.none.bind params args) g) := by
  refine ⟨⟨g, params, ObjMap.create objects⟩, by simp [Formula.make, create_of_WF objects g _ hwf], ?_⟩
  intro s args hlen
  exact eval_sat objects s g params args hlen.symm hwf

section
open Demo
attribute [local instance] lenHash

/-- The precondition of `pick` is well-formed, and so is a formula with shadowing, `=`, a type test, a constant and
nested quantifiers. -/
example : pick.pre.WF [table, a, b] (pick.params.map Obj.name) := by
  simp [pick, Goal.WF, Goal.WFs, Term.Scoped, IsType, HasType, a, b, table, x, u, tBox, tObj]

def shadow : Goal :=
  .conj [.ex [x] (.conj [.atom n!"box" [.var x], .all [y] (.disj [.atom n!"=" [.var x, .var y],
    .neg (.atom n!"on" [.var y, .var x])])]), .atom n!"on" [.var x, .const table]]

example : shadow.WF [table, a, b] [n!"x"] := by
  simp [shadow, Goal.WF, Goal.WFs, Term.Scoped, IsType, HasType, a, b, table, x, y, tBox, tObj]

example : (⟨shadow, [x], ObjMap.create [table, a, b]⟩ : Formula).evalState (State.ofList [on a table, on b table]) [a]
    = .ok true ∧
    (⟨shadow, [x], ObjMap.create [table, a, b]⟩ : Formula).evalState (State.ofList [on a b, on b a]) [a]
    = .ok false := by decide +kernel

end

/-- C12/C16, refuted: a quantifier with an empty variable list. `(forall () g)` should mean `g`; it evaluates to true on
every State, and `(exists () g)` to false. -/
theorem C12_empty_quantifier_refuted [StrHash] (objects : List Obj) (g : Goal) (params : List Obj) (s : State)
    (args : List Obj) :
    (Goal.all [] g).eval (ObjMap.create objects) params s args = .ok true ∧
    (Goal.ex [] g).eval (ObjMap.create objects) params s args = .ok false ∧
    (∀ env, Sat objects (· ∈ s) env (.all [] g) ↔ Sat objects (· ∈ s) env g) ∧
    (∀ env, Sat objects (· ∈ s) env (.ex [] g) ↔ Sat objects (· ∈ s) env g) := by
  refine ⟨rfl, rfl, fun env => ?_, fun env => ?_⟩
  · simp [Sat, WellTyped, Env.bind]
  · simp [Sat, WellTyped, Env.bind]

/-! ## C17 -/

section
open Demo
attribute [local instance] lenHash

/-- An action with a parameter `?table` and the constant `table` in precondition and effect. -/
def capturedParam : Obj := ⟨n!"table", tObj⟩
def capturing : Op where
  name := n!"clear"
  params := [capturedParam]
  pre := .atom n!"on" [.const a, .const table]
  eff := .mk .nil [(n!"on", [.const a, .const table])] [] .nil

/-- **C17, refuted.** A parameter that is called like a constant captures it: with `?table := b`, the precondition
`(on a table)` is evaluated as `on(a, b)` although `on(a, table)` holds, and the effect `(on a table)` adds
`on(a, b)`. -/
theorem C17_constants_captured_refuted :
    Sat [table, a, b] (· ∈ State.ofList [on a table]) (Env.none.bind capturing.params [b]) capturing.pre ∧
    capturing.isValid (ObjMap.create [table, a, b]) (State.ofList [on a table]) [b] = .ok false ∧
    capturing.apply (ObjMap.create [table, a, b]) [] 0 [b] State.empty = .ok (1, State.ofList [on a b]) := by
  refine ⟨?_, by decide +kernel, by decide +kernel⟩
  simp [Sat, SatAtom, capturing, IsType, HasType, Denotes, a, b, table, on, tBox, tObj, State.mem_ofList]
  exact ⟨_, List.Forall₂.cons rfl (List.Forall₂.cons rfl List.Forall₂.nil), rfl⟩

end

/-- **C17, partial.** If no parameter or quantified variable in scope is called like the constant, then it denotes itself:
the argument list an atom or effect is evaluated with has the constant itself at that position. Missing: names that
clash, where the code is wrong. -/
theorem C17_constants_partial (params args : List Obj) (ts : List Term) (hlen : args.length = params.length) (c : Obj)
    (k : Nat) (hk : ts[k]? = some (.const c)) (hc : c.name ∉ params.map Obj.name) :
    ∃ os, applyFn params (ts.map Term.obj) args = .ok os ∧ os.length = ts.length ∧ os[k]? = some c := by
  refine ⟨_, applyFn_terms params args ts (Nat.le_of_eq hlen.symm), by simp, ?_⟩
  rw [List.getElem?_map, hk]
  simp [Term.value, Term.obj, resolve_not_mem c params args c hc]

/-- A variable denotes the argument of the last parameter of that name. -/
theorem C17_variables (params args : List Obj) (ts : List Term) (hlen : args.length = params.length) (v : Obj)
    (k : Nat) (hk : ts[k]? = some (.var v)) (hv : v.name ∈ params.map Obj.name) :
    ∃ os, applyFn params (ts.map Term.obj) args = .ok os ∧ os[k]? = Env.none.bind params args v.name := by
  refine ⟨_, applyFn_terms params args ts (Nat.le_of_eq hlen.symm), ?_⟩
  rw [List.getElem?_map, hk, Env.bind_apply Env.none v params args v hlen.symm (Or.inr hv)]
  rfl

open Demo in
example : [Term.var x, .const table][1]? = some (.const table) ∧ table.name ∉ [x].map Obj.name := by decide

/-! ## C18 -/

/-- **C18 (formulas).** A Formula object, together with all copies that share its buffers, answers every call as a
freshly constructed one, whatever calls (on States and PartialStates, with whatever arguments, including ones that
ended with an exception) came before. -/
theorem C18_formula_history_independent [StrHash] (F : Formula) (history : List FormulaCall) (c : FormulaCall) :
    (F.call (F.calls F.bufs history).2 c).1 = F.fresh c := by
  have : ∀ (history : List FormulaCall) (bs : FormulaBufs), F.Inv bs → F.Inv (F.calls bs history).2 := by
    intro history
    induction history with
    | nil => intro bs h; exact h
    | cons c cs ih => intro bs h; exact ih _ (F.call_spec bs h c).2
  exact (F.call_spec _ (this history F.bufs ⟨Goal.inv_bufs _ _, Goal.inv_bufs _ _⟩) c).1

/-- **C18 (formulas).** All answers of a history are the fresh ones. -/
theorem C18_formula_answers [StrHash] (F : Formula) (history : List FormulaCall) :
    (F.calls F.bufs history).1 = history.map F.fresh := by
  have : ∀ (history : List FormulaCall) (bs : FormulaBufs), F.Inv bs →
      (F.calls bs history).1 = history.map F.fresh := by
    intro history
    induction history with
    | nil => intro bs h; rfl
    | cons c cs ih =>
      intro bs h
      obtain ⟨h1, h2⟩ := F.call_spec bs h c
      simp only [Formula.calls, List.map_cons, h1, ih _ h2]
  exact this history F.bufs ⟨Goal.inv_bufs _ _, Goal.inv_bufs _ _⟩

section
open Demo
attribute [local instance] lenHash

/-- The buffers really change: after a call they hold the arguments of that call. -/
example : let F : Formula := ⟨.atom n!"on" [.var x, .const table], [x], ObjMap.create [table, a, b]⟩
    (F.calls F.bufs [.onState (State.ofList [on a table]) [a], .onState (State.ofList [on a table]) [b]]).1
      = [.ok (some true), .ok (some false)] := by decide +kernel

example : ∃ buf, (Goal.run (.atom n!"on" [.var x, .const table]) (ObjMap.create [table, a, b]) [x] State.empty [a]
    (.leaf [x, table])).2 = .leaf buf ∧ buf = [a, table] := ⟨_, rfl, rfl⟩

end

/-! ## C19, C20 -/

/-- **C19.** A definite answer on a PartialState is the answer on every State compatible with it. For every formula, all
parameters and arguments. -/
theorem C19_partial_evaluation_sound [StrHash] (F : Formula) (p : PartialState) (args : List Obj) (b : Bool)
    (h : F.evalPartial p args = .ok (some b)) (s : State) (hs : Compatible (· ∈ p.pos) (· ∈ p.neg) (· ∈ s)) :
    F.evalState s args = .ok b := by
  have h' : F.goal.eval F.omap F.params p args = .ok b := by
    unfold Formula.evalPartial optionalOf at h
    split at h <;> simp_all
  refine eval_sim (s := p) (t := s) ⟨?_, ?_⟩ F.omap F.goal F.params args b h'
  · intro a c hc
    have hc' : (if p.pos.contains a then Res.ok true else if p.neg.contains a then Res.ok false
      else Res.exc .unknownEvaluation) = Res.ok c := hc
    show Res.ok (s.contains a) = Res.ok c
    rw [State.contains_eq] at hc' ⊢
    rw [State.contains_eq] at hc'
    by_cases h1 : a ∈ p.pos
    · simp only [h1, decide_true, if_true, Res.ok.injEq] at hc'
      simp [← hc', hs.1 a h1]
    · by_cases h2 : a ∈ p.neg
      · simp only [h1, h2, decide_true, decide_false, if_true, Bool.false_eq_true, if_false, Res.ok.injEq] at hc'
        simp [← hc', hs.2 a h2]
      · simp [h1, h2] at hc'
  · intro a c hc
    have hc' : (if p.pos.contains a then Res.ok false else if p.neg.contains a then Res.ok true
      else Res.exc .unknownEvaluation) = Res.ok c := hc
    show Res.ok (!s.contains a) = Res.ok c
    rw [State.contains_eq] at hc' ⊢
    rw [State.contains_eq] at hc'
    by_cases h1 : a ∈ p.pos
    · simp only [h1, decide_true, if_true, Res.ok.injEq] at hc'
      simp [← hc', hs.1 a h1]
    · by_cases h2 : a ∈ p.neg
      · simp only [h1, h2, decide_true, decide_false, if_true, Bool.false_eq_true, if_false, Res.ok.injEq] at hc'
        simp [← hc', hs.2 a h2]
      · simp [h1, h2] at hc'

/-- **C20.** A definite answer does not change when more becomes known: `q` knows all that `p` knows and is
consistent. -/
theorem C20_more_information [StrHash] (F : Formula) (p q : PartialState) (args : List Obj) (b : Bool)
    (h : F.evalPartial p args = .ok (some b)) (hpos : ∀ a, a ∈ p.pos → a ∈ q.pos) (hneg : ∀ a, a ∈ p.neg → a ∈ q.neg)
    (hq : ∀ a, a ∈ q.pos → a ∉ q.neg) : F.evalPartial q args = .ok (some b) := by
  have h' : F.goal.eval F.omap F.params p args = .ok b := by
    unfold Formula.evalPartial optionalOf at h
    split at h <;> simp_all
  have key : F.goal.eval F.omap F.params q args = .ok b := by
    refine eval_sim (s := p) (t := q) ⟨?_, ?_⟩ F.omap F.goal F.params args b h'
    · intro a c hc
      have hc' : (if p.pos.contains a then Res.ok true else if p.neg.contains a then Res.ok false
        else Res.exc .unknownEvaluation) = Res.ok c := hc
      show (if q.pos.contains a then Res.ok true else if q.neg.contains a then Res.ok false
        else Res.exc .unknownEvaluation) = Res.ok c
      simp only [State.contains_eq, decide_eq_true_eq] at hc' ⊢
      by_cases h1 : a ∈ p.pos
      · rw [if_pos h1] at hc'; rw [if_pos (hpos a h1)]; exact hc'
      · rw [if_neg h1] at hc'
        by_cases h2 : a ∈ p.neg
        · rw [if_pos h2] at hc'
          rw [if_neg (fun h3 => hq a h3 (hneg a h2)), if_pos (hneg a h2)]; exact hc'
        · simp [h2] at hc'
    · intro a c hc
      have hc' : (if p.pos.contains a then Res.ok false else if p.neg.contains a then Res.ok true
        else Res.exc .unknownEvaluation) = Res.ok c := hc
      show (if q.pos.contains a then Res.ok false else if q.neg.contains a then Res.ok true
        else Res.exc .unknownEvaluation) = Res.ok c
      simp only [State.contains_eq, decide_eq_true_eq] at hc' ⊢
      by_cases h1 : a ∈ p.pos
      · rw [if_pos h1] at hc'; rw [if_pos (hpos a h1)]; exact hc'
      · rw [if_neg h1] at hc'
        by_cases h2 : a ∈ p.neg
        · rw [if_pos h2] at hc'
          rw [if_neg (fun h3 => hq a h3 (hneg a h2)), if_pos (hneg a h2)]; exact hc'
        · simp [h2] at hc'
  simp [Formula.evalPartial, key, optionalOf]

/-- **C20.** If the PartialState decides every atom that the formula can mention (its predicates over the declared
objects), the answer is definite and is the answer on the State of the true facts. -/
theorem C20_decided_agrees [StrHash] (objects : List Obj) (g : Goal) (params : List Obj) (p : PartialState) (args : List Obj)
    (hwf : g.WF objects (params.map Obj.name)) (hconst : ∀ c, g.HasConst c → c ∈ objects)
    (hlen : args.length = params.length) (hargs : ∀ o ∈ args, o ∈ objects)
    (hdec : ∀ pred (os : List Obj), g.Mentions pred os.length → (∀ o ∈ os, o ∈ objects) →
      (⟨pred, os.map Obj.name⟩ : Atom) ∈ p.pos ∨ (⟨pred, os.map Obj.name⟩ : Atom) ∈ p.neg) :
    ∃ b, (⟨g, params, ObjMap.create objects⟩ : Formula).evalPartial p args = .ok (some b) ∧
      (⟨g, params, ObjMap.create objects⟩ : Formula).evalState p.pos args = .ok b := by
  obtain ⟨b, hb, -⟩ := eval_sat objects p.pos g params args hlen.symm hwf
  have e := eval_agree (s := p) (t := p.pos) (U := (· ∈ objects)) (M := g.Mentions) (objects := objects) (by
    intro pred os hM hU
    have := hdec pred os hM hU
    constructor
    · show (if p.pos.contains _ then Res.ok true else if p.neg.contains _ then Res.ok false
        else Res.exc .unknownEvaluation) = Res.ok (p.pos.contains _)
      simp only [State.contains_eq, decide_eq_true_eq, Atom.ofObjs]
      by_cases h1 : (⟨pred, os.map Obj.name⟩ : Atom) ∈ p.pos
      · simp [h1]
      · simp [h1, this.resolve_left h1]
    · show (if p.pos.contains _ then Res.ok false else if p.neg.contains _ then Res.ok true
        else Res.exc .unknownEvaluation) = Res.ok (!p.pos.contains _)
      simp only [State.contains_eq, decide_eq_true_eq, Atom.ofObjs]
      by_cases h1 : (⟨pred, os.map Obj.name⟩ : Atom) ∈ p.pos
      · simp [h1]
      · simp [h1, this.resolve_left h1]) (fun _ h => h) g params args hlen.symm hargs hwf hconst (fun _ _ h => h)
  refine ⟨b, ?_, hb⟩
  simp only [Formula.evalPartial]
  rw [e, hb]
  rfl

section
open Demo
attribute [local instance] lenHash

def halfKnown : PartialState := ⟨State.ofList [on a b], State.ofList [inhand a]⟩

/-- Definite true, definite false and unknown answers on one PartialState; a compatible State; a more informed
PartialState. -/
example : (⟨place.pre, place.params, ObjMap.create [table, a, b]⟩ : Formula).evalPartial halfKnown [a, b] =
    .ok (some false) ∧
    (⟨place.pre, place.params, ObjMap.create [table, a, b]⟩ : Formula).evalPartial halfKnown [b, a] = .ok none ∧
    Compatible (· ∈ halfKnown.pos) (· ∈ halfKnown.neg) (· ∈ State.ofList [on a b, inhand b]) := by
  refine ⟨by decide +kernel, by decide +kernel, ?_, ?_⟩
  · intro q hq; simp only [halfKnown, State.mem_ofList] at hq ⊢; simp_all
  · intro q hq; simp only [halfKnown, State.mem_ofList] at hq ⊢; simp only [List.mem_singleton] at hq; subst hq; decide

/-- All three `inhand` facts decided. -/
def decided : PartialState := ⟨State.ofList [inhand a], State.ofList [inhand b, inhand table]⟩

example : (Goal.ex [u] (.atom n!"inhand" [.var u])).WF [table, a, b] [] ∧
    ∀ pred (os : List Obj), (Goal.ex [u] (.atom n!"inhand" [.var u])).Mentions pred os.length →
      (∀ o ∈ os, o ∈ [table, a, b]) →
      (⟨pred, os.map Obj.name⟩ : Atom) ∈ decided.pos ∨ (⟨pred, os.map Obj.name⟩ : Atom) ∈ decided.neg := by
  refine ⟨by simp [Goal.WF, Term.Scoped, IsType, HasType, a, b, table, u, tBox, tObj], ?_⟩
  intro pred os hM hos
  simp only [Goal.Mentions, List.length_singleton] at hM
  obtain ⟨rfl, hl⟩ := hM
  obtain ⟨o, rfl⟩ := List.length_eq_one_iff.1 hl
  have := hos o (by simp)
  simp only [decided, State.mem_ofList, List.mem_cons, List.not_mem_nil, or_false] at this ⊢
  rcases this with rfl | rfl | rfl
  · right; right; rfl
  · left; rfl
  · right; left; rfl

end

end Symbolic
