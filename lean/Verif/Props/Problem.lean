import Verif.Lemmas.Problem
import Verif.Examples.Demo

/-!
# C65, C66: the Python module problem.py
-/

namespace Symbolic

/-! ## C65 -/

/-- **C65.** `parse_proposition`, `parse_head` and `parse_args` agree with each other, and raise exactly on the strings
without an opening bracket. -/
theorem C65_functions_agree (s : Name) :
    (Py.parseProposition s = none ↔ '(' ∉ s) ∧
    Py.parseHead s = (Py.parseProposition s).map Prod.fst ∧ Py.parseArgs s = (Py.parseProposition s).map Prod.snd := by
  rcases split_first '(' s with h | ⟨h, r, rfl, hc⟩
  · simp [Py.parseProposition, Py.parseHead, Py.parseArgs, findFirst_none _ _ h, h]
  · simp [Py.parseProposition, Py.parseHead, Py.parseArgs, findFirst_append _ _ _ hc]

/-- **C65.** Whenever the Python module returns a head, it is the head that the library reads. -/
theorem C65_head (s h : Name) (hs : Py.parseHead s = some h) : h = parseHead s := by
  rcases split_first '(' s with hn | ⟨h', r, rfl, hc⟩
  · simp [Py.parseHead, findFirst_none _ _ hn] at hs
  · simp only [Py.parseHead, findFirst_append _ _ _ hc, Option.map_some, Option.some.injEq] at hs
    simp [parseHead, findFirst_append _ _ _ hc, ← hs]

/-- **C65.** On the string of a proposition with arguments the Python module and the library find the same head and the
same arguments, those that were printed.

Missing for the full claim: propositions without arguments, arguments separated by blanks and strings without
brackets (`C65_disagree_refuted`). -/
theorem C65_arguments_partial (p : Name) (ws : List Name) (hp : CleanHead p) (hne : ws ≠ [])
    (h : ∀ w ∈ ws, CleanArg w ∧ ')' ∉ w) :
    Py.parseProposition (callString p ws) = some (p, ws) ∧
    parseHead (callString p ws) = p ∧ tokenizeArguments (callString p ws) = ws := by
  have hs := callShape_callString p ws hp (fun w hw => (h w hw).1)
  refine ⟨?_, hs.head_eq, hs.words_eq⟩
  rw [py_parse_callString p ws hp, if_neg hne]
  intro w hw
  refine ⟨fun hc => (h w hw).1.2 _ hc (by simp [IsSep]), fun hc => (h w hw).1.2 _ hc (by simp [IsSep]), (h w hw).2⟩

/-- **C65, refuted** for every proposition without arguments: the Python module finds one empty argument. -/
theorem C65_nullary_refuted (p : Name) (hp : CleanHead p) :
    Py.parseArgs (callString p []) = some [[]] ∧ tokenizeArguments (callString p []) = [] := by
  have hs := callShape_callString p [] hp (by simp)
  refine ⟨?_, hs.words_eq⟩
  rw [(C65_functions_agree _).2.2, py_parse_callString p [] hp (by simp)]
  rfl

/-- **C65, refuted** for other strings that the library reads: arguments separated by blanks, a proposition followed by
another bracket, a call without brackets. -/
theorem C65_disagree_refuted :
    Py.parseProposition n!"on(a b)" = some (n!"on", [n!"ab"]) ∧ tokenizeArguments n!"on(a b)" = [n!"a", n!"b"] ∧
    Py.parseProposition n!"on(a), b)" = some (n!"on", [n!"a"]) ∧ tokenizeArguments n!"on(a), b)" = [n!"a)", n!"b"] ∧
    Py.parseProposition n!"done" = none ∧ parseHead n!"done" = n!"done" := by decide

/-! ## C66 -/

/-- A problem written with the module: objects, then the strings of propositions, then a goal. -/
def Py.Problem.build (name domain : Name) (objects : List (Name × Name)) (strings : List Name) (goal : Py.Formula) :
    Option Py.Problem :=
  ((objects.foldl (fun p o => p.addObject o.1 o.2) (Py.Problem.new name domain)).setInitialState strings).map
    fun p => p.setGoal goal

/-- Words that can be written in a problem. -/
structure Py.Clean (name domain : Name) (objects : List (Name × Name)) (init : List Atom) : Prop where
  name : CleanWord name
  domain : CleanWord domain
  objects : ∀ o ∈ objects, CleanWord o.1 ∧ o.1 ≠ ['-'] ∧ (o.2 = [] ∨ CleanWord o.2)
  preds : ∀ a ∈ init, CleanWord a.pred
  args : ∀ a ∈ init, ∀ w ∈ a.args, CleanWord w ∧ ',' ∉ w

theorem Py.Problem.addObjects (objects : List (Name × Name)) : ∀ (p : Py.Problem),
    objects.foldl (fun p o => p.addObject o.1 o.2) p = { p with objects := p.objects ++ objects } := by
  induction objects with
  | nil => intro p; simp
  | cons o l ih => intro p; rw [List.foldl_cons, ih]; simp [Py.Problem.addObject]

/-- The line of a proposition. -/
def Py.line (a : Atom) : Name := Py.prop a.pred (if a.args = [] then [[]] else a.args)

theorem Py.Problem.setInitial : ∀ (init : List Atom) (p : Py.Problem), (∀ a ∈ init, CleanWord a.pred) →
    (∀ a ∈ init, ∀ w ∈ a.args, CleanWord w ∧ ',' ∉ w) →
    p.setInitialState (init.map Atom.toString) = some { p with init := p.init ++ init.map Py.line }
  | [], p, _, _ => by simp [Py.Problem.setInitialState]
  | a :: l, p, h1, h2 => by
    have hp := h1 a (by simp)
    have hparse := py_parse_callString a.pred a.args (fun hc => (hp.2 _ hc).1 rfl) (fun w hw => by
      obtain ⟨h3, h4⟩ := h2 a (by simp) w hw
      exact ⟨h4, fun hc => by have := (h3.2 _ hc).2.2; simp [isBlank] at this, fun hc => (h3.2 _ hc).2.1 rfl⟩)
    have hne : a.toString ≠ [] ∧ a.toString.head? ≠ some '(' := by
      rw [Atom.toString, callString]
      cases hpr : a.pred with
      | nil => exact absurd hpr hp.1
      | cons c cs =>
        have := (hp.2 c (by simp [hpr])).1
        simp [this]
    rw [List.map_cons, Py.Problem.setInitialState, Py.Problem.addInitialProp, if_pos hne, Atom.toString, hparse]
    simp only
    rw [Py.Problem.setInitial l _ (fun b hb => h1 b (by simp [hb])) (fun b hb => h2 b (by simp [hb]))]
    simp [Py.line]

theorem Py.lex_line {a : Atom} (hp : CleanWord a.pred) (h : ∀ w ∈ a.args, CleanWord w) :
    lex (Py.line a) [] = (Sexp.list (.word a.pred :: a.args.map .word)).toks := by
  rw [Py.line]
  split
  · rename_i hn
    rw [Py.prop, lex_inlineGroup hp, hn]
    simp [Py.joinBlank, lex_rp, flush, lex, Sexp.toks, Sexp.toksAll]
  · exact lex_prop hp h

theorem Py.toks_init : ∀ (init : List Atom), (∀ a ∈ init, CleanWord a.pred) → (∀ a ∈ init, ∀ w ∈ a.args, CleanWord w) →
    Py.Formula.toksAll ((init.map Py.line).map .str) =
      Sexp.toksAll (init.map fun a => .list (.word a.pred :: a.args.map .word))
  | [], _, _ => rfl
  | a :: l, h1, h2 => by
    rw [List.map_cons, List.map_cons, List.map_cons, Py.Formula.toksAll, Py.Formula.toks,
      Py.lex_line (h1 a (by simp)) (h2 a (by simp)), Sexp.toksAll,
      Py.toks_init l (fun b hb => h1 b (by simp [hb])) (fun b hb => h2 b (by simp [hb]))]

theorem Py.Formula.toksAll_append : ∀ (l r : List Py.Formula),
    Py.Formula.toksAll (l ++ r) = Py.Formula.toksAll l ++ Py.Formula.toksAll r
  | [], r => by simp [Py.Formula.toksAll]
  | e :: l, r => by simp [Py.Formula.toksAll, Py.Formula.toksAll_append l r]

theorem Py.toks_goalLines (p : Py.Problem) :
    Py.Formula.toksAll p.goalLines = .lp :: .word n!":goal" :: p.goal.toks ++ [.rp] := by
  have hg : CleanWord n!":goal" := by constructor <;> decide
  rw [Py.Problem.goalLines]
  split
  · rename_i s hs
    rw [hs]
    simp only [Py.Formula.toksAll, Py.Formula.toks, lex_inlineGroup hg, lex_append_rp]
    simp
  · have e : lex n!"(:goal" [] = [.lp, .word n!":goal"] := by decide
    simp only [Py.Formula.toksAll, Py.Formula.toks, e, lex_close]
    simp

theorem Py.toks_problem {name domain : Name} {objects : List (Name × Name)} {init : List Atom}
    (h : Py.Clean name domain objects init) {goal : Py.Formula} {e : Sexp} (hg : goal.toks = e.toks) :
    (Py.Problem.mk name domain objects (init.map Py.line) goal).definition.toks =
      Sexp.toksAll [.list [.word n!"define", .list [.word n!"problem", .word name],
        .list [.word n!":domain", .word domain], .list (.word n!":objects" :: objSexps objects),
        .list (.word n!":init" :: init.map fun a => .list (.word a.pred :: a.args.map .word)),
        .list [.word n!":goal", e]]] := by
  have h1 : CleanWord n!"define" := by constructor <;> decide
  have h2 : CleanWord n!"problem" := by constructor <;> decide
  have h3 : CleanWord n!":domain" := by constructor <;> decide
  have e1 : lex ('(' :: (n!"define " ++ Py.inlineGroup n!"problem" name)) [] =
      [.lp, .word n!"define", .lp, .word n!"problem", .word name, .rp] := by
    rw [lex_lp, show n!"define " ++ Py.inlineGroup n!"problem" name = n!"define" ++ ' ' :: Py.inlineGroup n!"problem" name
      from rfl, lex_clean h1, lex_blank, lex_inlineGroup h2, lex_append_rp, lex_clean_end h.name]
    simp [flush]
  have e2 : lex (Py.inlineGroup n!":domain" domain) [] = [.lp, .word n!":domain", .word domain, .rp] := by
    rw [lex_inlineGroup h3, lex_append_rp, lex_clean_end h.domain]; simp
  have e3 : lex n!"(:objects" [] = [.lp, .word n!":objects"] := by decide
  have e4 : lex n!"(:init" [] = [.lp, .word n!":init"] := by decide
  simp only [Py.Problem.definition, Py.group, Py.Formula.toks, Py.Formula.toksAll, Py.Formula.toksAll_append, e1, e2, e3,
    e4, lex_close, Py.toks_goalLines, hg,
    toks_objects objects (fun o ho => ⟨(h.objects o ho).1, (h.objects o ho).2.2⟩),
    Py.toks_init init h.preds (fun a ha w hw => (h.args a ha w hw).1)]
  simp [Sexp.toks, Sexp.toksAll]

theorem readProblem_repr {name domain : Name} {objects : List (Name × Name)} {init : List Atom}
    (h : Py.Clean name domain objects init) {goal : Py.Formula} {e : Sexp} (hg : goal.toks = e.toks) (S : Symbols) :
    ∃ p, Py.Problem.build name domain objects (init.map Atom.toString) goal = some p ∧
      readProblem S p.repr = (readGoal S e).map fun g => ⟨name, domain, borrowTypes objects, init, g⟩ := by
  refine ⟨⟨name, domain, objects, init.map Py.line, goal⟩, ?_, ?_⟩
  · rw [Py.Problem.build, Py.Problem.addObjects, Py.Problem.setInitial init _ h.preds h.args]
    simp [Py.Problem.new, Py.Problem.setGoal]
  · rw [readProblem, Py.Problem.repr, lex_pprint', Py.toks_problem h hg, bracket_toks_all]
    dsimp only
    rw [if_pos ⟨rfl, rfl, rfl, rfl, rfl, rfl⟩, readTyped_objects objects [] fun o ho => (h.objects o ho).2.1,
      readAtoms_atoms]
    cases readGoal S e <;> rfl

/-- **C66, exactly what is read** for a goal without quantifiers: the name, the domain, the propositions and the goal that
were given, and the objects, of which each one without a type takes the type of the next one that has a type. -/
theorem C66_reads_exactly (S : Symbols) (sp : Term → Name) (name domain : Name) (objects : List (Name × Name))
    (init : List Atom) (g : Goal) (h : Py.Clean name domain objects init) (hg : g.Spelled S sp) :
    ∃ p, Py.Problem.build name domain objects (init.map Atom.toString) (g.py sp) = some p ∧
      readProblem S p.repr = some ⟨name, domain, borrowTypes objects, init, g⟩ := by
  obtain ⟨p, h1, h2⟩ := readProblem_repr h (toks_py g (Goal.Spelled.wordly g hg)) S
  exact ⟨p, h1, by rw [h2, readGoal_spelled g hg]; rfl⟩

/-- **C66.** A problem whose goal was never set is read with the empty conjunction. -/
theorem C66_default_goal (S : Symbols) (name domain : Name) (objects : List (Name × Name)) (init : List Atom)
    (h : Py.Clean name domain objects init) :
    ∃ p, (objects.foldl (fun p o => p.addObject o.1 o.2) (Py.Problem.new name domain)).setInitialState
        (init.map Atom.toString) = some p ∧
      readProblem S p.repr = some ⟨name, domain, borrowTypes objects, init, .conj []⟩ := by
  refine ⟨⟨name, domain, objects, init.map Py.line, (Py.Problem.new name domain).goal⟩, ?_, ?_⟩
  · rw [Py.Problem.addObjects, Py.Problem.setInitial init _ h.preds h.args]
    simp [Py.Problem.new]
  · have hg : (Py.Problem.new name domain).goal.toks = (Sexp.list [.word n!"and"]).toks := by
      rw [Py.Problem.new, Py.Formula.toks]
      decide
    rw [readProblem, Py.Problem.repr, lex_pprint', Py.toks_problem h hg, bracket_toks_all]
    dsimp only
    rw [if_pos ⟨rfl, rfl, rfl, rfl, rfl, rfl⟩, readTyped_objects objects [] fun o ho => (h.objects o ho).2.1,
      readAtoms_atoms]
    rfl

/-- **C66.** A conditional effect `_when(condition, effect)` is read as the keyword, the condition and the effect, in this
order, each as it is read on its own. -/
theorem C66_when (sp : Term → Name) (c e : Goal) (hc : c.Wordly sp) (he : e.Wordly sp) :
    ∃ x y, bracket (lex (Py.pprint (c.py sp) 0) []) [[]] = some [x] ∧
      bracket (lex (Py.pprint (e.py sp) 0) []) [[]] = some [y] ∧
      bracket (lex (Py.pprint (Py.when (c.py sp) (e.py sp)) 0) []) [[]] = some [.list [.word n!"when", x, y]] := by
  have one : ∀ {f : Py.Formula} {x : Sexp}, f.toks = x.toks → bracket (lex (Py.pprint f 0) []) [[]] = some [x] := by
    intro f x h
    rw [lex_pprint', h, show x.toks = Sexp.toksAll [x] by simp [Sexp.toksAll], bracket_toks_all]
  have hw : CleanWord n!"when" := by constructor <;> decide
  refine ⟨_, _, one (toks_py c hc), one (toks_py e he), one ?_⟩
  rw [Py.when, Py.toks_group hw, Py.Formula.toks, Py.Formula.toksAll, Py.Formula.toksAll, Py.Formula.toksAll,
    toks_py c hc, toks_py e he]
  simp [Sexp.toks, Sexp.toksAll]

theorem nextType_none {l : List (Name × Name)} (h : ∀ o ∈ l, o.2 = []) : nextType l = [] := by
  induction l with
  | nil => rfl
  | cons o l ih => rw [nextType, if_pos (h o (by simp)), ih fun o ho => h o (by simp [ho])]

theorem nextType_some {l : List (Name × Name)} {o : Name × Name} (ho : o ∈ l) (ht : o.2 ≠ []) : nextType l ≠ [] := by
  induction l with
  | nil => simp at ho
  | cons o' l ih =>
    rw [nextType]
    split
    · rename_i hn
      rcases List.mem_cons.1 ho with rfl | ho
      · exact absurd hn ht
      · exact ih ho
    · assumption

/-- The objects come out as given iff none without a type stands before one with a type. -/
theorem borrowTypes_eq_iff (l : List (Name × Name)) :
    borrowTypes l = l ↔ l.Pairwise (fun o o' => o.2 = [] → o'.2 = []) := by
  induction l with
  | nil => simp [borrowTypes]
  | cons o l ih =>
    obtain ⟨n, t⟩ := o
    simp only [borrowTypes, List.cons.injEq, Prod.mk.injEq, true_and, ih, List.pairwise_cons, nextType]
    refine and_congr_left fun _ => ?_
    split
    · rename_i ht
      subst ht
      refine ⟨fun h o ho _ => ?_, fun h => nextType_none fun o ho => h o ho rfl⟩
      by_contra hc
      exact nextType_some ho hc h
    · rename_i ht
      exact ⟨fun _ o _ h => absurd h ht, fun _ => rfl⟩

/-- **C66.** The text of a Problem reads back as the problem that was built, if its goal has no quantifiers and no object
without a type is added before one with a type.

Missing for the full claim: the two cases left out, in which the text never reads back
(`C66_untyped_first_refuted`, `C66_quantified_refuted`). -/
theorem C66_text_partial (S : Symbols) (sp : Term → Name) (name domain : Name) (objects : List (Name × Name))
    (init : List Atom) (g : Goal) (h : Py.Clean name domain objects init) (hg : g.Spelled S sp)
    (ho : objects.Pairwise (fun o o' => o.2 = [] → o'.2 = [])) :
    ∃ p, Py.Problem.build name domain objects (init.map Atom.toString) (g.py sp) = some p ∧
      readProblem S p.repr = some ⟨name, domain, objects, init, g⟩ := by
  have := C66_reads_exactly S sp name domain objects init g h hg
  rwa [(borrowTypes_eq_iff objects).2 ho] at this

/-- **C66, refuted** for every problem that adds an object without a type before one with a type: the text is read with
other types. -/
theorem C66_untyped_first_refuted (S : Symbols) (sp : Term → Name) (name domain : Name) (objects : List (Name × Name))
    (init : List Atom) (g : Goal) (h : Py.Clean name domain objects init) (hg : g.Spelled S sp)
    (ho : ¬ objects.Pairwise (fun o o' => o.2 = [] → o'.2 = [])) :
    ∃ p r, Py.Problem.build name domain objects (init.map Atom.toString) (g.py sp) = some p ∧
      readProblem S p.repr = some r ∧ r.objects ≠ objects := by
  obtain ⟨p, h1, h2⟩ := C66_reads_exactly S sp name domain objects init g h hg
  exact ⟨p, _, h1, h2, fun hc => ho ((borrowTypes_eq_iff objects).1 hc)⟩

/-- **C66, refuted** for every goal with a quantifier: the module writes the variable without brackets, and the text is no
problem, whatever the symbols mean. -/
theorem C66_quantified_refuted (S : Symbols) (sp : Term → Name) (name domain : Name) (objects : List (Name × Name))
    (init : List Atom) (g : Goal) (h : Py.Clean name domain objects init) (hg : g.Wordly sp) (hq : g.Quantified) :
    ∃ p, Py.Problem.build name domain objects (init.map Atom.toString) (g.py sp) = some p ∧
      readProblem S p.repr = none := by
  obtain ⟨p, h1, h2⟩ := readProblem_repr h (toks_py g hg) S
  exact ⟨p, h1, by rw [h2, readGoal_quantified S g hg hq]; rfl⟩

namespace ProblemText
open Demo

/-- Terms spelled as in PDDL. -/
def spell : Term → Name
  | .const o => o.name
  | .var o => '?' :: o.name

def demoGoal : Goal := .conj [.atom n!"on" [.const a, .const b], .neg (.atom n!"inhand" [.const b])]

def demoProblem (objects : List (Name × Name)) (goal : Goal) : Option Py.Problem :=
  Py.Problem.build n!"stack" n!"boxes" objects ([on a table, ⟨n!"ready", []⟩].map Atom.toString) (goal.py spell)

/-- The text of a problem. -/
example : (demoProblem [(n!"a", n!"box"), (n!"b", n!"box"), (n!"c", [])] demoGoal).map Py.Problem.repr = some
    n!"(define (problem stack)\n\t(:domain boxes)\n\t(:objects\n\t\ta - box\n\t\tb - box\n\t\tc\n\t)\n\t(:init\n\t\t(on a table)\n\t\t(ready )\n\t)\n\t(:goal\n\t\t(and\n\t\t\t(on a b)\n\t\t\t(not (inhand b))\n\t\t)\n\t)\n)\n" := by
  decide +kernel

example : Py.Clean n!"stack" n!"boxes" [(n!"a", n!"box"), (n!"b", n!"box"), (n!"c", [])] [on a table, ⟨n!"ready", []⟩] := by
  refine ⟨⟨by decide, by decide⟩, ⟨by decide, by decide⟩, ?_, ?_, ?_⟩ <;>
    simp [CleanWord, on, a, table, isBlank]

example : demoGoal.Spelled (Symbols.pddl [table, a, b] [] (fun _ => none)) spell := by
  simp only [demoGoal, Goal.Spelled, Goal.SpelledAll, and_true]
  refine ⟨⟨⟨by decide, by decide⟩, by decide, ?_⟩, ⟨⟨by decide, by decide⟩, by decide, ?_⟩⟩
  · intro t ht
    simp only [List.mem_cons, List.not_mem_nil, or_false] at ht
    rcases ht with rfl | rfl <;> exact ⟨⟨by decide, by decide⟩, by decide⟩
  · intro t ht
    simp only [List.mem_cons, List.not_mem_nil, or_false] at ht
    rcases ht with rfl; exact ⟨⟨by decide, by decide⟩, by decide⟩

/-- An object without a type before one with a type. -/
example : borrowTypes [(n!"c", []), (n!"a", n!"box")] = [(n!"c", n!"box"), (n!"a", n!"box")] ∧
    ¬ [(n!"c", ([] : Name)), (n!"a", n!"box")].Pairwise (fun o o' => o.2 = [] → o'.2 = []) := by decide

/-- A goal with a quantifier. -/
example : (Goal.all [x] (.atom n!"on" [.var x, .const table])).Wordly spell ∧
    (Goal.all [x] (.atom n!"on" [.var x, .const table])).Quantified := by
  simp [Goal.Wordly, Goal.Quantified, CleanWord, spell, x, table, tBox, Obj.typeName, isBlank]

example : Py.pprint ((Goal.all [x] (.atom n!"on" [.var x, .const table])).py spell) 0 =
    n!"(forall ?x - box\n(on ?x table)\n)\n" := by decide

end ProblemText

end Symbolic
