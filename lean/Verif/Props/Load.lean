import Verif.Lemmas.Construct
import Verif.Lemmas.Load
import Verif.Examples.Demo

/-!
# C74, C75: a domain without a problem; text or path

C74: a Pddl made from a domain alone answers as one with an empty problem, except for everything about the problem.
C75: the text of a problem is recognised as a text.
-/

namespace Symbolic

section
variable [StrHash]

/-- **C74.** The constructor without a problem succeeds, throws or is undefined exactly when the constructor with the empty
problem is, and then all functions that do not read the problem give the same answers; the objects are the constants of the
domain, and the initial state is empty. -/
theorem C74_as_empty_problem (t : Ptree) (k : Nat) :
    (∀ e, DomainPddl.make t = .exc e ↔ Pddl.make t.emptyProblem false k = .exc e) ∧
    (DomainPddl.make t = .ub ↔ Pddl.make t.emptyProblem false k = .ub) ∧
    (∀ P, Pddl.make t.emptyProblem false k = .ok P → ∃ D, DomainPddl.make t = .ok D) ∧
    ∀ D, DomainPddl.make t = .ok D → ∃ P, Pddl.make t.emptyProblem false k = .ok P ∧ SameAnswers D.pddl P ∧
      D.pddl.objects = t.constants ∧ D.pddl.initial.elems = [] ∧ P.initial.elems = [] := by
  rw [DomainPddl.make_eq t k]
  cases h : Pddl.make t.emptyProblem false k with
  | ok P =>
    simp only [Res.bind]
    refine ⟨by simp, by simp, fun _ _ => ⟨_, rfl⟩, ?_⟩
    rintro _ ⟨rfl⟩
    have hP := h
    simp only [Pddl.make, Res.bind_eq_ok] at hP
    obtain ⟨axs0, _, _, _, _, _, hP⟩ := hP
    split at hP
    · cases hP
    · simp only [Res.bind_eq_ok] at hP
      obtain ⟨_, _, axs, _, _, _, init, hi, hP⟩ := hP
      simp only [Bool.false_eq_true, if_false] at hi
      cases hi
      cases hP
      refine ⟨_, rfl, SameRules.answers ⟨rfl, rfl, rfl, rfl, rfl, rfl, rfl⟩, ?_, rfl, rfl⟩
      show t.constants ++ [] = t.constants
      simp
  | exc e => simp [Res.bind]
  | ub => simp [Res.bind]
  | fuel => simp [Res.bind]

/-- The outcome for a plan, given that for a goal that is always true. -/
def withoutGoal : Res Bool → Res Bool
  | .ok true => .exc .badFunctionCall
  | r => r

theorem validPlanFrom_domain {D : DomainPddl} {P : Pddl} (h : SameRules D.pddl P) (hg : P.tree.goal = .conj []) (k : Nat) :
    ∀ (plan : List Name) (s : State), D.validPlanFrom k s plan = withoutGoal (P.validPlanFrom k s plan)
  | [], s => by
    simp [DomainPddl.validPlanFrom, Pddl.validPlanFrom, DomainPddl.isGoalSatisfied, Pddl.isGoalSatisfied, hg, Goal.eval,
      Goal.evalAll, withoutGoal]
  | call :: plan, s => by
    simp only [DomainPddl.validPlanFrom, Pddl.validPlanFrom, h.parseAction, h.omap, h.applyOp, bind, Res.bind]
    cases P.parseAction call with
    | ok oa =>
      dsimp only
      cases oa.1.isValid P.omap s oa.2 with
      | ok b =>
        cases b with
        | true =>
          simp only [if_true]
          cases P.applyOp k oa.1 oa.2 s with
          | ok s' => exact validPlanFrom_domain h hg k plan s'
          | exc e => rfl
          | ub => rfl
          | fuel => rfl
        | false => rfl
      | exc e => rfl
      | ub => rfl
      | fuel => rfl
    | exc e => rfl
    | ub => rfl
    | fuel => rfl

/-- **C74, plans.** IsGoalSatisfied throws for every state, and IsValidPlan never returns true: it behaves as for a goal that
is always true, but throws where it would return true. -/
theorem C74_goal (t : Ptree) (k : Nat) (D : DomainPddl) (P : Pddl) (hD : DomainPddl.make t = .ok D)
    (hP : Pddl.make t.emptyProblem false k = .ok P) :
    (∀ s, D.isGoalSatisfied s = .exc .badFunctionCall) ∧
    (∀ fuel plan, D.isValidPlan fuel plan ≠ .ok true) ∧
    (∀ fuel plan, D.isValidPlan fuel plan = .exc .badFunctionCall ↔
      P.isValidPlan fuel plan = .ok true ∨ P.isValidPlan fuel plan = .exc .badFunctionCall) ∧
    ∀ fuel plan, D.isValidPlan fuel plan = .ok false ↔ P.isValidPlan fuel plan = .ok false := by
  obtain ⟨rfl, hg, hi⟩ : D = dropProblem t P ∧ P.tree = t.emptyProblem ∧ P.initial = State.empty := by
    rw [DomainPddl.make_eq t k, hP] at hD
    simp only [Res.bind] at hD
    refine ⟨by cases hD; rfl, ?_⟩
    simp only [Pddl.make, Res.bind_eq_ok] at hP
    obtain ⟨axs0, _, _, _, _, _, hP⟩ := hP
    split at hP
    · cases hP
    · simp only [Res.bind_eq_ok] at hP
      obtain ⟨_, _, axs, _, _, _, init, hi, hP⟩ := hP
      simp only [Bool.false_eq_true, if_false] at hi
      cases hi
      cases hP
      exact ⟨rfl, rfl⟩
  have h : SameRules (dropProblem t P).pddl P := by
    refine ⟨?_, ?_, ?_, rfl, rfl, rfl, rfl⟩
    · rw [hg]; rfl
    · rw [hg]; rfl
    · simp only [Pddl.symbols, hg]; rfl
  have hv : ∀ fuel plan, (dropProblem t P).isValidPlan fuel plan = withoutGoal (P.isValidPlan fuel plan) := by
    intro fuel plan
    have := validPlanFrom_domain h (by rw [hg]; rfl) fuel plan State.empty
    simp only [DomainPddl.isValidPlan, Pddl.isValidPlan, hi]
    exact this
  refine ⟨fun _ => rfl, ?_, ?_, ?_⟩ <;> intro fuel plan <;> rw [hv] <;>
    rcases P.isValidPlan fuel plan with (_ | _) | _ | _ | _ <;> simp [withoutGoal]

/-- **C74, goals on strings.** `IsGoalSatisfied` on strings never returns: it throws `bad_function_call` where the Pddl with the empty
problem returns, and the parser's exceptions where that one throws. -/
theorem C74_goal_strings (t : Ptree) (k : Nat) (D : DomainPddl) (P : Pddl) (hD : DomainPddl.make t = .ok D)
    (hP : Pddl.make t.emptyProblem false k = .ok P) (strings : List Name) :
    (∀ b, D.isGoalSatisfiedStr strings ≠ .ok b) ∧
    (∀ b, P.isGoalSatisfiedStr strings = .ok b → D.isGoalSatisfiedStr strings = .exc .badFunctionCall) ∧
    ∀ e, P.isGoalSatisfiedStr strings = .exc e → D.isGoalSatisfiedStr strings = .exc e := by
  have B := Pddl.built hP
  have hs : D.pddl.symbols = P.symbols := by
    rw [DomainPddl.make_eq t k, hP] at hD
    cases hD
    simp only [Pddl.symbols, dropProblem, B.tree]
    rfl
  have hg : ∀ s, P.isGoalSatisfied s = .ok true := fun s => by
    simp [Pddl.isGoalSatisfied, B.tree, Ptree.emptyProblem, Goal.eval, Goal.evalAll]
  simp only [DomainPddl.isGoalSatisfiedStr, Pddl.isGoalSatisfiedStr, hs, DomainPddl.isGoalSatisfied, hg]
  cases parseState P.symbols strings <;> simp

/-- **C74, refuted** for what a user may do to it: adding an object is undefined, so is removing one that exists, and
unpickling never gives a Pddl; for every domain. -/
theorem C74_change_refuted (t : Ptree) (D : DomainPddl) (hD : DomainPddl.make t = .ok D) :
    (∀ name type, D.addObject name type = .ub) ∧ (∀ o ∈ t.constants, D.removeObject o.name = .ub) ∧
    ∀ parse files k, DomainPddl.pickled t parse files k = .ub := by
  have ho : D.pddl.objects = t.constants := by
    obtain ⟨P, _, _, ho, _⟩ := (C74_as_empty_problem t 0).2.2.2 D hD
    exact ho
  refine ⟨fun _ _ => rfl, ?_, ?_⟩
  · intro o h
    rw [DomainPddl.removeObject, if_pos]
    rw [ho, List.any_eq_true]
    exact ⟨o, h, by simp⟩
  · intro parse files k
    simp only [DomainPddl.make, Res.bind_eq_ok] at hD
    obtain ⟨axs0, h1, _, h2, _, h3, _⟩ := hD
    simp [DomainPddl.pickled, Pddl.load, readSource, problemSource, Pddl.makeAbsent, h1, h2, h3, Res.bind_ok]

/-- **C74.** With an empty second argument, the constructor with two arguments never returns. It throws only what the constructor
with one argument throws. In a domain without axioms it throws whatever that one throws about predicates and rules. -/
theorem C74_no_problem (t : Ptree) (parse : Name → Option (List Obj × List Atom × Goal)) (files : Name → Name) (b : Bool) (k : Nat) :
    (∀ P, Pddl.load t parse files [] b k ≠ .ok P) ∧
    (∀ e, Pddl.load t parse files [] b k = .exc e → DomainPddl.make t = .exc e) ∧
    (t.ops.filter (fun op => op.isAxiom) = [] → ∀ e, DomainPddl.make { t with ops := [] } = .exc e →
      Pddl.load t parse files [] b k = .exc e) := by
  have hl : Pddl.load t parse files [] b k = Pddl.makeAbsent t := by simp [Pddl.load, readSource, problemSource]
  rw [hl]
  unfold Pddl.makeAbsent DomainPddl.make
  dsimp only
  refine ⟨fun P => ?_, fun e => ?_, fun ha e => ?_⟩
  · generalize Pddl.makeAxioms ⟨t.constants, ObjMap.create t.constants, []⟩ [] (t.ops.filter fun op => op.isAxiom) = r
    cases r <;> simp
    cases Pddl.createPreds (ObjMap.create t.constants) t.preds <;> simp
    cases Pddl.createDrvs (ObjMap.create t.constants) t.drvs <;> simp
  · generalize Pddl.makeAxioms ⟨t.constants, ObjMap.create t.constants, []⟩ [] (t.ops.filter fun op => op.isAxiom) = r
    cases r <;> simp
    cases Pddl.createPreds (ObjMap.create t.constants) t.preds <;> simp
    cases Pddl.createDrvs (ObjMap.create t.constants) t.drvs <;> simp
  · rw [ha]
    simp only [List.filter_nil, Pddl.makeAxioms, Res.bind_ok]
    cases Pddl.createPreds (ObjMap.create t.constants) t.preds <;> simp
    cases Pddl.createDrvs (ObjMap.create t.constants) t.drvs <;> simp
    intro h
    split at h <;> simp [Pddl.createOps] at h

/-- **C74, refuted** for `constants()`: always empty, whatever constants the domain has. -/
theorem C74_constants_refuted (t : Ptree) (D : DomainPddl) (hD : DomainPddl.make t = .ok D) : D.pddl.constants = [] := by
  rw [DomainPddl.make_eq t 0] at hD
  cases h : Pddl.make t.emptyProblem false 0 <;> rw [h] at hD <;> simp only [Res.bind] at hD <;> cases hD
  rfl

/-! ## Text or path -/

omit [StrHash] in
/-- **C75.** Every text that reads as a problem is taken for a text. -/
theorem C75_text (S : Symbols) (s : Name) (r : ProblemText) (h : readProblem S s = some r) : problemSource s = .text := by
  unfold readProblem at h
  split at h
  · rename_i heq
    apply problemSource_text
    apply find_last_of_list s.reverse (e := _)
    rw [List.reverse_reverse]
    exact heq
  · cases h

omit [StrHash] in
theorem pprintAll_append : ∀ (l l' : List Py.Formula) (k : Nat),
    Py.pprintAll (l ++ l') k = Py.pprintAll l k ++ Py.pprintAll l' k
  | [], _, _ => rfl
  | f :: l, l', k => by simp [Py.pprintAll, pprintAll_append l l' k]

omit [StrHash] in
/-- **C75, the module.** Whatever was put into a `Problem`, its text is taken for a text, so the constructor gives what VAL
makes of the text, and no file is read. -/
theorem C75_problem (p : Py.Problem) : problemSource p.repr = .text := by
  apply problemSource_text
  have h : ∃ t, p.repr = t ++ [')', '\n'] := by
    rw [Py.Problem.repr, Py.Problem.definition, Py.group, Py.pprint, Py.pprintAll, Py.pprintAll, Py.pprintAll]
    exact ⟨_, (List.append_assoc _ _ _).symm⟩
  obtain ⟨t, h⟩ := h
  simp [h, List.find?, isPddlSpace]

/-- **C75, loading.** -/
theorem C75_problem_loads (t : Ptree) (parse : Name → Option (List Obj × List Atom × Goal)) (files : Name → Name)
    (p : Py.Problem) (applyAxioms : Bool) (k : Nat) :
    (∀ objects init goal, parse p.repr = some (objects, init, goal) →
      Pddl.load t parse files p.repr applyAxioms k = Pddl.make { t with objects, init, goal } applyAxioms k) ∧
    (parse p.repr = none → Pddl.load t parse files p.repr applyAxioms k = .exc .runtimeError) := by
  constructor
  · intro objects init goal h
    simp [Pddl.load, readSource, C75_problem, h, Res.bind_ok]
  · intro h
    simp [Pddl.load, readSource, C75_problem, h, bind, Res.bind]

/-- **C75, paths.** A path whose last character is no bracket: the file of that name is read, nothing else. -/
theorem C75_path_loads (t : Ptree) (parse : Name → Option (List Obj × List Atom × Goal)) (files : Name → Name)
    (dir : Name) (c : Char) (hc : c ∉ [')', ' ', '\t', '\n', '\r']) (applyAxioms : Bool) (k : Nat) :
    (∀ objects init goal, parse (files (dir ++ [c])) = some (objects, init, goal) →
      Pddl.load t parse files (dir ++ [c]) applyAxioms k = Pddl.make { t with objects, init, goal } applyAxioms k) ∧
    (parse (files (dir ++ [c])) = none → Pddl.load t parse files (dir ++ [c]) applyAxioms k = .exc .runtimeError) := by
  have hs : problemSource (dir ++ [c]) = .file := by
    simp only [List.mem_cons, List.not_mem_nil, or_false, not_or] at hc
    simp [problemSource, isPddlSpace, hc]
  constructor
  · intro objects init goal h
    simp [Pddl.load, readSource, hs, h, Res.bind_ok]
  · intro h
    simp [Pddl.load, readSource, hs, h, bind, Res.bind]

omit [StrHash] in
/-- **C75, exactly.** An argument is taken for a text iff it ends with a closing bracket, apart from blanks; any other that is
not empty for a path. So a path is taken for a path if its last character is something else.

Missing for the full claim: paths that end with a closing bracket and texts that end with a comment
(`C75_path_refuted`). -/
theorem C75_path_partial (s : Name) :
    (problemSource s = .text ↔ ∃ t blanks, s = t ++ ')' :: blanks ∧ ∀ c ∈ blanks, c ∈ [' ', '\t', '\n', '\r']) ∧
    (problemSource s = .absent ↔ s = []) ∧
    (problemSource s = .file ↔ s ≠ [] ∧ ¬ ∃ t blanks, s = t ++ ')' :: blanks ∧ ∀ c ∈ blanks, c ∈ [' ', '\t', '\n', '\r']) := by
  have hsp : ∀ c, isPddlSpace c = true ↔ c ∈ [' ', '\t', '\n', '\r'] := by
    intro c
    simp [isPddlSpace, or_assoc]
  have key : s.reverse.find? (fun c => !isPddlSpace c) = some ')' ↔
      ∃ t blanks, s = t ++ ')' :: blanks ∧ ∀ c ∈ blanks, c ∈ [' ', '\t', '\n', '\r'] := by
    rw [List.find?_eq_some_iff_append]
    constructor
    · rintro ⟨_, as, bs, h1, h2⟩
      refine ⟨bs.reverse, as.reverse, ?_, ?_⟩
      · rw [← List.reverse_reverse s, h1]
        simp
      · intro c hc
        have := h2 c (List.mem_reverse.1 hc)
        exact (hsp c).1 (by simpa using this)
    · rintro ⟨t, blanks, h1, h2⟩
      refine ⟨by simp [isPddlSpace], blanks.reverse, t.reverse, by simp [h1], ?_⟩
      intro c hc
      simp [(hsp c).2 (h2 c (List.mem_reverse.1 hc))]
  rw [← key]
  unfold problemSource
  by_cases hs : s = []
  · subst hs; simp
  · rw [if_neg hs]
    cases hf : s.reverse.find? (fun c => !isPddlSpace c) with
    | none => simp [hs]
    | some c =>
      by_cases hc : c = ')'
      · simp [hc, hs]
      · simp [hc, hs]

omit [StrHash] in
/-- **C75, refuted** for paths that end with a closing bracket, and for texts that end with a comment or a form feed: taken
for a text and for a path. -/
theorem C75_path_refuted : (∀ dir stem : Name, problemSource (dir ++ stem ++ n!")") = .text) ∧
    (∀ text comment : Name, comment.getLast? ≠ some ')' → comment.getLast?.any (fun c => !isPddlSpace c) = true →
      problemSource (text ++ n!";" ++ comment) = .file) ∧
    ∀ text : Name, problemSource (text ++ [Char.ofNat 12]) = .file := by
  refine ⟨?_, ?_, ?_⟩
  · intro dir stem
    simp [problemSource, isPddlSpace]
  · intro text comment h1 h2
    rcases List.eq_nil_or_concat comment with rfl | ⟨l, c, rfl⟩
    · simp at h2
    · simp only [List.concat_eq_append, List.getLast?_append, List.getLast?_singleton, Option.some_or, Option.any_some] at h1 h2
      simp only [Bool.not_eq_true'] at h2
      have hc : c ≠ ')' := by simpa using h1
      simp [problemSource, h2, hc]
  · intro text
    simp [problemSource, isPddlSpace]

end

section
open Demo
attribute [local instance] lenHash

/-! ## Examples -/

/-- An axiom about everything that is not in the hand: `(not (inhand ?x)) => (busy ?x)`. -/
def idleAxiom : Op := { held with
  pre := .neg (.atom n!"inhand" [.var x]), eff := .mk .nil [(n!"busy", [.var x])] [] .nil }
/-- Two boxes as constants of the domain. -/
def idleTree : Ptree := { tree with constants := [table, a, b], objects := [], ops := [pick, place, idleAxiom], drvs := [] }

theorem idleMade : (DomainPddl.make idleTree).isOk = true := by decide +kernel
def idleD : DomainPddl := get _ idleMade
theorem idleD_made : DomainPddl.make idleTree = .ok idleD := get_eq _ _

/-- A domain with constants, actions and an axiom; its actions can be used. -/
example : idleD.pddl.objects.map Obj.name = [n!"table", n!"a", n!"b"] ∧
    (idleD.pddl.listValidActions State.empty = .ok [n!"pick(a)", n!"pick(b)"]) ∧
    (idleD.isValidPlan 5 [n!"place(a, b)"] = .ok false) ∧
    (idleD.isValidPlan 5 [n!"pick(a)", n!"place(a, b)"] = .exc .badFunctionCall) := by
  decide +kernel

/-- The goal on strings: a state that parses, and one that names an unknown object. -/
example : idleD.isGoalSatisfiedStr [n!"inhand(a)"] = .exc .badFunctionCall ∧
    (∃ e, idleD.isGoalSatisfiedStr [n!"inhand(c)"] = .exc e ∧ e ≠ .badFunctionCall) ∧
    (∃ P, Pddl.make idleTree.emptyProblem false 5 = .ok P) := by
  refine ⟨by decide +kernel, ?_, ?_⟩
  · have h : (match idleD.isGoalSatisfiedStr [n!"inhand(c)"] with | .exc e => e != .badFunctionCall | _ => false) = true := by
      decide +kernel
    cases he : idleD.isGoalSatisfiedStr [n!"inhand(c)"] <;> simp [he] at h ⊢
    exact h
  · obtain ⟨P, hP, _⟩ := (C74_as_empty_problem idleTree 5).2.2.2 idleD idleD_made
    exact ⟨P, hP⟩

/-- A domain with a rule that cannot be read. -/
example : DomainPddl.make { tree with ops := [], drvs := [{ busy with body := .other }] } = .exc .runtimeError ∧
    Pddl.load { tree with ops := [pick], drvs := [{ busy with body := .other }] } (fun _ => none) id [] true 5 = .exc .runtimeError := by
  have h : DomainPddl.make { tree with ops := [], drvs := [{ busy with body := .other }] } = .exc .runtimeError := by rfl
  exact ⟨h, (C74_no_problem { tree with ops := [pick], drvs := [{ busy with body := .other }] } _ _ _ _).2.2 rfl _ h⟩

/-- **C74, refuted** for the initial state: it need not satisfy the axioms, which are never applied to it. -/
theorem C74_initial_refuted : idleD.pddl.isValidState 5 idleD.pddl.initial = .ok false := by decide +kernel

/-- The text of a problem, and of one with a formula that is no PDDL. -/
example : problemSource (Py.Problem.new n!"p" n!"d").repr = .text := C75_problem _
example : problemSource ((Py.Problem.new n!"p" n!"d").setGoal (.seq [.str n!"((", .seq []])).repr = .text := C75_problem _

/-- Usual paths, and a copy of a file. -/
example : problemSource n!"../resources/problem.pddl" = .file ∧ problemSource n!"problem (1)" = .text ∧
    problemSource [] = .absent := by decide

end

end Symbolic
