import Verif.Spec.Load
import Verif.Spec.Problem
import Verif.Lemmas.Problem
import Verif.Lemmas.Res

/-!
# Lemmas: loading a Pddl
-/

namespace Symbolic

/-! ## The last character of a text -/

theorem lex_snoc_lp : ∀ (s cur : Name), lex (s ++ ['(']) cur = lex s cur ++ [.lp]
  | [], cur => by simp [lex]; rfl
  | c :: cs, cur => by
    simp only [List.cons_append, lex]
    split
    · rw [lex_snoc_lp]; simp
    · split
      · rw [lex_snoc_lp]; simp
      · split
        · rw [lex_snoc_lp]; simp
        · rw [lex_snoc_lp]

theorem lex_snoc_word {c : Char} (h1 : c ≠ '(') (h2 : c ≠ ')') (h3 : isBlank c = false) :
    ∀ (s cur : Name), ∃ ts w, lex (s ++ [c]) cur = ts ++ [.word w]
  | [], cur => ⟨[], cur ++ [c], by simp [lex, h1, h2, h3, flush]⟩
  | d :: cs, cur => by
    simp only [List.cons_append, lex]
    split
    · obtain ⟨ts, w, h⟩ := lex_snoc_word h1 h2 h3 cs []
      exact ⟨flush cur ++ .lp :: ts, w, by rw [h]; simp⟩
    · split
      · obtain ⟨ts, w, h⟩ := lex_snoc_word h1 h2 h3 cs []
        exact ⟨flush cur ++ .rp :: ts, w, by rw [h]; simp⟩
      · split
        · obtain ⟨ts, w, h⟩ := lex_snoc_word h1 h2 h3 cs []
          exact ⟨flush cur ++ ts, w, by rw [h]; simp⟩
        · exact lex_snoc_word h1 h2 h3 cs _

theorem lex_snoc_blank {b : Char} (hb : isBlank b = true) : ∀ (s cur : Name), lex (s ++ [b]) cur = lex s cur
  | [], cur => by
    have h1 : b ≠ '(' := by rintro rfl; simp [isBlank] at hb
    have h2 : b ≠ ')' := by rintro rfl; simp [isBlank] at hb
    simp [lex, h1, h2, hb, flush]
  | c :: cs, cur => by
    simp only [List.cons_append, lex]
    split
    · rw [lex_snoc_blank hb]
    · split
      · rw [lex_snoc_blank hb]
      · split
        · rw [lex_snoc_blank hb]
        · rw [lex_snoc_blank hb]

/-- An expression is not finished by an opening bracket. -/
theorem bracket_snoc_lp : ∀ (ts : List Tok) (st : List (List Sexp)), st ≠ [] → bracket (ts ++ [.lp]) st = none
  | [], st, h => by
    cases st with
    | nil => exact absurd rfl h
    | cons a st => cases st <;> rfl
  | .lp :: ts, st, h => by
    show bracket (ts ++ [.lp]) ([] :: st) = none
    exact bracket_snoc_lp ts _ (by simp)
  | .rp :: ts, [], h => absurd rfl h
  | .rp :: ts, [a], h => rfl
  | .rp :: ts, a :: b :: st, h => by
    show bracket (ts ++ [.lp]) _ = none
    exact bracket_snoc_lp ts _ (by simp)
  | .word w :: ts, [], h => absurd rfl h
  | .word w :: ts, a :: st, h => by
    show bracket (ts ++ [.lp]) _ = none
    exact bracket_snoc_lp ts _ (by simp)

/-- A word at the end is the last expression. -/
theorem bracket_snoc_word {w : Name} {es : List Sexp} : ∀ (ts : List Tok) (st : List (List Sexp)), st ≠ [] →
    bracket (ts ++ [.word w]) st = some es → es.getLast? = some (.word w)
  | [], st, h, hb => by
    cases st with
    | nil => exact absurd rfl h
    | cons a st =>
      cases st with
      | nil =>
        simp only [List.nil_append, bracket, Option.some.injEq] at hb
        simp [← hb]
      | cons b st => simp [bracket] at hb
  | .lp :: ts, st, h, hb => bracket_snoc_word ts ([] :: st) (by simp) hb
  | .rp :: ts, [], h, hb => absurd rfl h
  | .rp :: ts, [a], h, hb => by simp [bracket] at hb
  | .rp :: ts, a :: b :: st, h, hb => bracket_snoc_word ts _ (by simp) hb
  | .word _ :: ts, [], h, hb => absurd rfl h
  | .word v :: ts, a :: st, h, hb => bracket_snoc_word ts ((.word v :: a) :: st) (by simp) hb

theorem isPddlSpace_eq (c : Char) : isPddlSpace c = isBlank c := rfl

/-- A bracketed expression ends with a closing bracket, apart from blanks. -/
theorem find_last_of_list {e : List Sexp} : ∀ (r : Name), bracket (lex r.reverse []) [[]] = some [.list e] →
    r.find? (fun c => !isPddlSpace c) = some ')'
  | [], h => by simp [lex, flush, bracket] at h
  | c :: r, h => by
    simp only [List.reverse_cons] at h
    by_cases hb : isBlank c = true
    · rw [lex_snoc_blank hb] at h
      rw [List.find?_cons_of_neg (by simp [isPddlSpace_eq, hb])]
      exact find_last_of_list r h
    · simp only [Bool.not_eq_true] at hb
      rw [List.find?_cons_of_pos (by simp [isPddlSpace_eq, hb])]
      by_cases h1 : c = '('
      · subst h1
        rw [lex_snoc_lp, bracket_snoc_lp _ _ (by simp)] at h
        cases h
      · by_cases h2 : c = ')'
        · rw [h2]
        · obtain ⟨ts, w, hw⟩ := lex_snoc_word h1 h2 hb r.reverse []
          rw [hw] at h
          simpa using bracket_snoc_word ts _ (by simp) h

theorem problemSource_text {s : Name} (h : s.reverse.find? (fun c => !isPddlSpace c) = some ')') :
    problemSource s = .text := by
  unfold problemSource
  rw [if_neg (by rintro rfl; simp at h), h]
  simp

/-! ## Functions that do not read the problem -/

variable [StrHash]

/-- Equal in all members that are not about the problem. -/
structure SameRules (P Q : Pddl) : Prop where
  ops : P.tree.ops = Q.tree.ops
  drvs : P.tree.drvs = Q.tree.drvs
  symbols : P.symbols = Q.symbols
  objects : P.objects = Q.objects
  omap : P.omap = Q.omap
  axioms : P.axioms = Q.axioms
  actions : P.actions = Q.actions

namespace SameRules

variable {P Q : Pddl}

theorem parseAction (h : SameRules P Q) (call : Name) : P.parseAction call = Q.parseAction call := by
  simp only [Pddl.parseAction, Pddl.getOp, h.ops, h.omap, h.axioms, h.symbols]

theorem applyOp (h : SameRules P Q) (k : Nat) (op : Op) (args : List Obj) (s : State) :
    P.applyOp k op args s = Q.applyOp k op args s := by
  simp only [Pddl.applyOp, Pddl.drvs, h.drvs, h.omap, h.axioms]

theorem applyActions (h : SameRules P Q) (k : Nat) : ∀ (calls : List Name) (s : State),
    P.applyActions k s calls = Q.applyActions k s calls
  | [], s => rfl
  | call :: calls, s => by
    simp only [Pddl.applyActions, h.parseAction, h.applyOp, applyActions h k calls]

theorem filterValid (h : SameRules P Q) (s : State) (op : Op) : ∀ (l : List (List Obj)),
    P.filterValid s op l = Q.filterValid s op l
  | [] => rfl
  | as :: l => by simp only [Pddl.filterValid, h.omap, filterValid h s op l]

theorem listValidArguments (h : SameRules P Q) (s : State) (op : Op) :
    P.listValidArguments s op = Q.listValidArguments s op := by
  simp only [Pddl.listValidArguments, h.omap, h.filterValid]

theorem listLoop (h : SameRules P Q) (s : State) : ∀ (ops : List Op), P.listLoop s ops = Q.listLoop s ops
  | [] => rfl
  | op :: ops => by simp only [Pddl.listLoop, h.listValidArguments, listLoop h s ops]

theorem consistentStateP (h : SameRules P Q) (k : Nat) (s : PartialState) :
    P.consistentStateP k s = Q.consistentStateP k s := by
  simp only [Pddl.consistentStateP, h.omap, h.axioms]

theorem consistentConjs (h : SameRules P Q) (k : Nat) : ∀ (d : Dnf), P.consistentConjs k d = Q.consistentConjs k d
  | [] => rfl
  | c :: d => by simp only [Pddl.consistentConjs, h.consistentStateP, consistentConjs h k d]

theorem answers (h : SameRules P Q) : SameAnswers P Q where
  objects := h.objects
  objectMap := h.omap
  nextState k s call := by simp only [Pddl.nextState, h.parseAction, h.applyOp]
  applyActions k s calls := h.applyActions k calls s
  derivedState k s := by simp only [Pddl.derivedState, Pddl.drvs, h.omap, h.drvs]
  consistentState k s := by simp only [Pddl.consistentState, h.omap, h.axioms]
  consistentStateP := h.consistentStateP
  isValidAction s call := by simp only [Pddl.isValidAction, h.parseAction, h.omap]
  isValidState k s := by simp only [Pddl.isValidState, h.omap, h.axioms]
  isValidStateP k s := by simp only [Pddl.isValidStateP, h.omap, h.axioms]
  isValidTuple k s call s' := by simp only [Pddl.isValidTuple, h.parseAction, h.applyOp, h.omap]
  listValidArguments := h.listValidArguments
  listValidActions s := by simp only [Pddl.listValidActions, h.actions, h.listLoop]
  normalizeConditions k call b := by
    simp only [Pddl.normalizeConditions, h.parseAction, Pddl.ctx, h.objects, h.omap, h.consistentConjs]
  parseState strings := by rw [h.symbols]

end SameRules

/-- The members of a Pddl with the empty problem, without those of the problem. -/
def dropProblem (t : Ptree) (P : Pddl) : DomainPddl :=
  ⟨{ P with tree := { t with objects := [], init := [], goal := .other }, constants := [], initial := State.empty }⟩

/-- The constructor without a problem does what the one with the empty problem does. -/
theorem DomainPddl.make_eq (t : Ptree) (k : Nat) :
    DomainPddl.make t = (Pddl.make t.emptyProblem false k).bind (fun P => .ok (dropProblem t P)) := by
  have hg : Goal.create (.conj []) (ObjMap.create (t.constants ++ [])) = .ok () := by
    simp [Goal.create, Goal.createAll]
  simp only [DomainPddl.make, Pddl.make, Ptree.emptyProblem, List.append_nil] at hg ⊢
  simp only [bind, Res.bind]
  cases Pddl.makeAxioms ⟨t.constants, ObjMap.create t.constants, []⟩ [] (t.ops.filter (·.isAxiom)) with
  | ok axs0 =>
    dsimp only
    cases Pddl.createPreds (ObjMap.create t.constants) t.preds with
    | ok _ =>
      dsimp only
      cases Pddl.createDrvs (ObjMap.create t.constants) t.drvs with
      | ok _ =>
        dsimp only
        cases t.preds.isEmpty with
        | true => rfl
        | false =>
          simp only [Bool.false_eq_true, if_false, hg]
          cases Pddl.makeAxioms ⟨t.constants, ObjMap.create t.constants, []⟩ axs0 (t.ops.filter (·.isAxiom)) with
          | ok axs =>
            dsimp only
            cases Pddl.createOps (ObjMap.create t.constants) axs (t.ops.filter (!·.isAxiom)) <;> rfl
          | exc e => rfl
          | ub => rfl
          | fuel => rfl
      | exc e => rfl
      | ub => rfl
      | fuel => rfl
    | exc e => rfl
    | ub => rfl
    | fuel => rfl
  | exc e => rfl
  | ub => rfl
  | fuel => rfl

end Symbolic
