import Verif.Spec.Problem
import Verif.Lemmas.FormulaString
import Verif.Lemmas.Parse

/-!
# The text of a problem

Tokens of the printed text, for any nesting of strings, and what the reader makes of them.
-/

namespace Symbolic

/-! ## Tokens -/

mutual
/-- The tokens of an expression. -/
def Sexp.toks : Sexp → List Tok
  | .word w => [.word w]
  | .list es => .lp :: Sexp.toksAll es ++ [.rp]
def Sexp.toksAll : List Sexp → List Tok
  | [] => []
  | e :: es => Sexp.toks e ++ Sexp.toksAll es
end

theorem Sexp.toksAll_append : ∀ (l r : List Sexp), Sexp.toksAll (l ++ r) = Sexp.toksAll l ++ Sexp.toksAll r
  | [], r => by simp [Sexp.toksAll]
  | e :: l, r => by simp [Sexp.toksAll, Sexp.toksAll_append l r]

theorem Sexp.toksAll_words : ∀ (ws : List Name), Sexp.toksAll (ws.map .word) = ws.map .word
  | [] => rfl
  | w :: ws => by simp [Sexp.toksAll, Sexp.toks, Sexp.toksAll_words ws]

mutual
theorem bracket_sexp : ∀ (e : Sexp) (ts : List Tok) (top : List Sexp) (st : List (List Sexp)),
    bracket (e.toks ++ ts) (top :: st) = bracket ts ((e :: top) :: st)
  | .word w, ts, top, st => by simp [Sexp.toks, bracket]
  | .list es, ts, top, st => by
    simp only [Sexp.toks, List.cons_append, List.append_assoc, bracket, List.nil_append]
    rw [bracket_sexps es (.rp :: ts) [] (top :: st)]
    simp [bracket]
theorem bracket_sexps : ∀ (es : List Sexp) (ts : List Tok) (top : List Sexp) (st : List (List Sexp)),
    bracket (Sexp.toksAll es ++ ts) (top :: st) = bracket ts ((es.reverse ++ top) :: st)
  | [], ts, top, st => by simp [Sexp.toksAll]
  | e :: es, ts, top, st => by
    rw [Sexp.toksAll, List.append_assoc, bracket_sexp e, bracket_sexps es]
    simp
end

theorem bracket_toks_all (es : List Sexp) : bracket (Sexp.toksAll es) [[]] = some es := by
  have := bracket_sexps es [] [] []
  simp only [List.append_nil] at this
  simp [this, bracket]

theorem lex_append_blank {b : Char} (hb : isBlank b = true) : ∀ (s t cur : Name),
    lex (s ++ b :: t) cur = lex s cur ++ lex t []
  | [], t, cur => by
    have h1 : b ≠ '(' := by rintro rfl; simp [isBlank] at hb
    have h2 : b ≠ ')' := by rintro rfl; simp [isBlank] at hb
    simp [lex, h1, h2, hb]
  | c :: s, t, cur => by
    simp only [List.cons_append, lex]
    split
    · simp [lex_append_blank hb s t]
    · split
      · simp [lex_append_blank hb s t]
      · split
        · simp [lex_append_blank hb s t]
        · exact lex_append_blank hb s t _

theorem lex_tabs (n : Nat) (t : Name) : lex (List.replicate n '\t' ++ t) [] = lex t [] := by
  induction n with
  | zero => rfl
  | succ n ih =>
    rw [List.replicate_succ, List.cons_append, lex, if_neg (by decide), if_neg (by decide), if_pos (by decide), ih]
    simp [flush]

mutual
/-- The tokens of a formula of the Python module. -/
def Py.Formula.toks : Py.Formula → List Tok
  | .str s => lex s []
  | .seq l => Py.Formula.toksAll l
def Py.Formula.toksAll : List Py.Formula → List Tok
  | [] => []
  | f :: fs => Py.Formula.toks f ++ Py.Formula.toksAll fs
end

mutual
theorem lex_pprint : ∀ (f : Py.Formula) (k : Nat) (t : Name), lex (Py.pprint f k ++ t) [] = f.toks ++ lex t []
  | .str s, k, t => by
    rw [Py.pprint, List.append_assoc, List.append_assoc, lex_tabs, List.singleton_append, lex_append_blank (by decide),
      Py.Formula.toks]
  | .seq l, k, t => by rw [Py.pprint, lex_pprintAll l, Py.Formula.toks]
theorem lex_pprintAll : ∀ (l : List Py.Formula) (k : Nat) (t : Name),
    lex (Py.pprintAll l k ++ t) [] = Py.Formula.toksAll l ++ lex t []
  | [], k, t => by simp [Py.pprintAll, Py.Formula.toksAll]
  | f :: l, k, t => by
    rw [Py.pprintAll, List.append_assoc, lex_pprint f, lex_pprintAll l, Py.Formula.toksAll, List.append_assoc]
end

theorem lex_pprint' (f : Py.Formula) (k : Nat) : lex (Py.pprint f k) [] = f.toks := by
  have := lex_pprint f k []
  simpa [lex, flush] using this

theorem lex_clean {w : Name} (h : CleanWord w) (t : Name) : lex (w ++ t) [] = lex t w := by
  simpa using lex_word w t [] h.2

theorem lex_clean_end {w : Name} (h : CleanWord w) : lex w [] = [.word w] := by
  have := lex_clean h []
  simpa [lex, flush_word h.1] using this

theorem Py.lex_group_open {w : Name} (h : CleanWord w) : lex ('(' :: w) [] = [.lp, .word w] := by
  rw [lex_lp, lex_clean_end h]; simp [flush]

theorem lex_close : lex [')'] [] = [.rp] := by simp [lex_rp, flush, lex]

/-- `(name token)` for any token that leaves no open word problem. -/
theorem lex_inlineGroup {w : Name} (h : CleanWord w) (s : Name) :
    lex (Py.inlineGroup w s) [] = .lp :: .word w :: lex (s ++ [')']) [] := by
  simp only [Py.inlineGroup, List.append_assoc, List.singleton_append, List.cons_append, List.nil_append]
  rw [lex_lp, lex_clean h, lex_blank]
  simp [flush, h.1]

theorem lex_joinBlank : ∀ (ws : List Name) (t : Name), (∀ w ∈ ws, CleanWord w) →
    lex (Py.joinBlank ws ++ ')' :: t) [] = ws.map .word ++ .rp :: lex t []
  | [], t, _ => by simp [Py.joinBlank, lex_rp, flush]
  | [w], t, h => by
    have hw := h w (by simp)
    simp [Py.joinBlank, lex_clean hw, lex_rp, flush_word hw.1]
  | w :: v :: ws, t, h => by
    have hw := h w (by simp)
    have ih := lex_joinBlank (v :: ws) t (fun u hu => h u (by simp at hu ⊢; tauto))
    rw [Py.joinBlank, List.append_assoc, List.append_assoc, lex_clean hw, List.singleton_append, lex_blank,
      flush_word hw.1, ih]
    simp

theorem lex_prop {p : Name} {ws : List Name} (hp : CleanWord p) (h : ∀ w ∈ ws, CleanWord w) :
    lex (Py.prop p ws) [] = (Sexp.list (.word p :: ws.map .word)).toks := by
  rw [Py.prop, lex_inlineGroup hp, lex_joinBlank ws [] h]
  simp [Sexp.toks, Sexp.toksAll, Sexp.toksAll_words, lex, flush]

/-- A text that ends in a bracket. -/
theorem lex_append_rp : ∀ (s cur : Name), lex (s ++ [')']) cur = lex s cur ++ [.rp]
  | [], cur => by simp [lex, flush]
  | c :: s, cur => by
    simp only [List.cons_append, lex]
    split
    · simp [lex_append_rp s]
    · split
      · simp [lex_append_rp s]
      · split
        · simp [lex_append_rp s]
        · exact lex_append_rp s _

/-! ## Formulas -/

/-- `(quantifier ?x - type body)`, as it is written. -/
def quantSexp (q : Name) (v : Obj) (e : Sexp) : Sexp :=
  .list [.word q, .word ('?' :: v.name), .word ['-'], .word v.typeName, e]

mutual
/-- The expression of the printed formula. -/
def Goal.pySexp (sp : Term → Name) : Goal → Sexp
  | .atom pred ts => .list (.word pred :: (ts.map sp).map .word)
  | .conj gs => .list (.word n!"and" :: Goal.pySexps sp gs)
  | .disj gs => .list (.word n!"or" :: Goal.pySexps sp gs)
  | .neg g => .list [.word n!"not", Goal.pySexp sp g]
  | .all vars g => vars.foldr (quantSexp n!"forall") (Goal.pySexp sp g)
  | .ex vars g => vars.foldr (quantSexp n!"exists") (Goal.pySexp sp g)
  | .other => .list []
def Goal.pySexps (sp : Term → Name) : List Goal → List Sexp
  | [] => []
  | g :: gs => Goal.pySexp sp g :: Goal.pySexps sp gs
end

theorem Py.toks_group {w : Name} (h : CleanWord w) (f : Py.Formula) :
    (Py.group w f).toks = .lp :: .word w :: f.toks ++ [.rp] := by
  simp [Py.group, Py.Formula.toks, Py.Formula.toksAll, Py.lex_group_open h, lex_close]

theorem Py.toks_neg (f : Py.Formula) : (Py.neg f).toks = .lp :: .word n!"not" :: f.toks ++ [.rp] := by
  cases f with
  | str s => rw [Py.neg, Py.Formula.toks, lex_inlineGroup clean_not, lex_append_rp, Py.Formula.toks]; simp
  | seq l => rw [Py.neg, Py.toks_group clean_not]; simp

theorem clean_quest {v : Name} (h : CleanWord v) : CleanWord ('?' :: v) :=
  ⟨by simp, fun c hc => by
    rcases List.mem_cons.1 hc with rfl | hc
    · decide
    · exact h.2 c hc⟩

theorem clean_dash : CleanWord ['-'] := by constructor <;> decide

theorem toks_quant {q : Name} (hq : CleanWord q) {v : Obj} (hv : CleanWord v.name) (ht : CleanWord v.typeName)
    {f : Py.Formula} {e : Sexp} (h : f.toks = e.toks) :
    (Py.group (q ++ [' '] ++ Py.objRepr ('?' :: v.name) v.typeName) f).toks = (quantSexp q v e).toks := by
  have h1 : lex ('(' :: (q ++ [' '] ++ Py.objRepr ('?' :: v.name) v.typeName)) [] =
      [.lp, .word q, .word ('?' :: v.name), .word ['-'], .word v.typeName] := by
    rw [Py.objRepr, if_neg ht.1, lex_lp]
    have e : q ++ [' '] ++ ('?' :: v.name ++ n!" - " ++ v.typeName) =
        q ++ ' ' :: (('?' :: v.name) ++ ' ' :: (['-'] ++ ' ' :: v.typeName)) := by simp
    rw [e, lex_clean hq, lex_blank, lex_clean (clean_quest hv), lex_blank, lex_clean clean_dash, lex_blank,
      lex_clean_end ht]
    simp [flush, hq.1]
  simp only [Py.group, Py.Formula.toks, Py.Formula.toksAll, h1, h, lex_close]
  simp [quantSexp, Sexp.toks, Sexp.toksAll]

theorem clean_forall : CleanWord n!"forall" := by constructor <;> decide
theorem clean_exists : CleanWord n!"exists" := by constructor <;> decide

mutual
theorem toks_py {sp : Term → Name} : ∀ (g : Goal), g.Wordly sp → (g.py sp).toks = (g.pySexp sp).toks
  | .atom pred ts, h => by
    rw [Goal.py, Py.Formula.toks, Goal.pySexp, lex_prop h.1]
    intro w hw
    obtain ⟨t, ht, rfl⟩ := List.mem_map.1 hw
    exact h.2 t ht
  | .conj gs, h => by
    rw [Goal.py, Py.conj, Py.toks_group clean_and, Goal.pySexp, Py.Formula.toks, toks_pys gs h]
    simp [Sexp.toks, Sexp.toksAll]
  | .disj gs, h => by
    rw [Goal.py, Py.disj, Py.toks_group clean_or, Goal.pySexp, Py.Formula.toks, toks_pys gs h]
    simp [Sexp.toks, Sexp.toksAll]
  | .neg g, h => by
    rw [Goal.py, Py.toks_neg, Goal.pySexp, toks_py g h]
    simp [Sexp.toks, Sexp.toksAll]
  | .all vars g, h => by
    have ih := toks_py g h.2.2
    have hv := h.2.1
    rw [Goal.py, Goal.pySexp]
    clear h
    induction vars with
    | nil => exact ih
    | cons v vars ihv =>
      have h1 := hv v (by simp)
      exact toks_quant clean_forall h1.1 h1.2 (ihv fun u hu => hv u (by simp [hu]))
  | .ex vars g, h => by
    have ih := toks_py g h.2.2
    have hv := h.2.1
    rw [Goal.py, Goal.pySexp]
    clear h
    induction vars with
    | nil => exact ih
    | cons v vars ihv =>
      have h1 := hv v (by simp)
      exact toks_quant clean_exists h1.1 h1.2 (ihv fun u hu => hv u (by simp [hu]))
  | .other, h => h.elim
theorem toks_pys {sp : Term → Name} : ∀ (gs : List Goal), Goal.WordlyAll sp gs →
    Py.Formula.toksAll (Goal.pys sp gs) = Sexp.toksAll (Goal.pySexps sp gs)
  | [], _ => rfl
  | g :: gs, h => by
    rw [Goal.pys, Goal.pySexps, Py.Formula.toksAll, Sexp.toksAll, toks_py g h.1, toks_pys gs h.2]
end

mutual
theorem Goal.Spelled.wordly {S : Symbols} {sp : Term → Name} : ∀ (g : Goal), g.Spelled S sp → g.Wordly sp
  | .atom _ _, h => ⟨h.1, fun t ht => (h.2.2 t ht).1⟩
  | .conj gs, h => Goal.SpelledAll.wordly gs h
  | .disj gs, h => Goal.SpelledAll.wordly gs h
  | .neg g, h => Goal.Spelled.wordly g h
  | .all _ _, h => h.elim
  | .ex _ _, h => h.elim
  | .other, h => h.elim
theorem Goal.SpelledAll.wordly {S : Symbols} {sp : Term → Name} : ∀ (gs : List Goal), Goal.SpelledAll S sp gs →
    Goal.WordlyAll sp gs
  | [], _ => trivial
  | g :: gs, h => ⟨Goal.Spelled.wordly g h.1, Goal.SpelledAll.wordly gs h.2⟩
end

theorem readTerms_spelled {S : Symbols} {sp : Term → Name} : ∀ (ts : List Term), (∀ t ∈ ts, S.term (sp t) = some t) →
    readTerms S ((ts.map sp).map .word) = some ts
  | [], _ => rfl
  | t :: ts, h => by
    simp only [List.map_cons, readTerms, h t (by simp), readTerms_spelled ts (fun t' ht => h t' (by simp [ht]))]
    rfl

mutual
theorem readGoal_spelled {S : Symbols} {sp : Term → Name} : ∀ (g : Goal), g.Spelled S sp →
    readGoal S (g.pySexp sp) = some g
  | .atom pred ts, h => by
    have hk := h.2.1
    simp only [keywords, List.mem_cons, List.not_mem_nil, or_false, not_or] at hk
    rw [Goal.pySexp, readGoal, readList.eq_def]; dsimp only; rw [if_neg hk.1, if_neg hk.2.1, if_neg hk.2.2.1, if_neg hk.2.2.2.1,
      if_neg hk.2.2.2.2, readTerms_spelled ts (fun t ht => (h.2.2 t ht).2)]
    rfl
  | .conj gs, h => by
    rw [Goal.pySexp, readGoal, readList.eq_def]; dsimp only; rw [if_pos rfl, readGoals_spelled gs h]; rfl
  | .disj gs, h => by
    rw [Goal.pySexp, readGoal, readList.eq_def]; dsimp only; rw [if_neg (by decide), if_pos rfl, readGoals_spelled gs h]; rfl
  | .neg g, h => by
    rw [Goal.pySexp, readGoal, readList.eq_def]; dsimp only; rw [if_neg (by decide), if_neg (by decide), if_pos rfl]
    simp only [readGoal_spelled g h]; rfl
  | .all _ _, h => h.elim
  | .ex _ _, h => h.elim
  | .other, h => h.elim
theorem readGoals_spelled {S : Symbols} {sp : Term → Name} : ∀ (gs : List Goal), Goal.SpelledAll S sp gs →
    readGoals S (Goal.pySexps sp gs) = some gs
  | [], _ => rfl
  | g :: gs, h => by
    rw [Goal.pySexps, readGoals, readGoal_spelled g h.1, readGoals_spelled gs h.2]; rfl
end

theorem readGoal_quant (S : Symbols) {q : Name} (hq : q = n!"forall" ∨ q = n!"exists") (v : Obj) (e : Sexp) :
    readGoal S (quantSexp q v e) = none := by
  rcases hq with rfl | rfl
  · rw [quantSexp, readGoal, readList.eq_def]; dsimp only; rw [if_neg (by decide), if_neg (by decide), if_neg (by decide), if_pos rfl]
  · rw [quantSexp, readGoal, readList.eq_def]; dsimp only; rw [if_neg (by decide), if_neg (by decide), if_neg (by decide), if_neg (by decide),
      if_pos rfl]

mutual
theorem readGoal_quantified {sp : Term → Name} (S : Symbols) : ∀ (g : Goal), g.Wordly sp → g.Quantified →
    readGoal S (g.pySexp sp) = none
  | .atom _ _, _, hq => hq.elim
  | .conj gs, h, hq => by
    rw [Goal.pySexp, readGoal, readList.eq_def]; dsimp only; rw [if_pos rfl, readGoals_quantified S gs h hq]; rfl
  | .disj gs, h, hq => by
    rw [Goal.pySexp, readGoal, readList.eq_def]; dsimp only; rw [if_neg (by decide), if_pos rfl, readGoals_quantified S gs h hq]; rfl
  | .neg g, h, hq => by
    rw [Goal.pySexp, readGoal, readList.eq_def]; dsimp only; rw [if_neg (by decide), if_neg (by decide), if_pos rfl]
    simp only [readGoal_quantified S g h hq]; rfl
  | .all vars g, h, _ => by
    rw [Goal.pySexp]
    cases vars with
    | nil => exact absurd rfl h.1
    | cons v vars => exact readGoal_quant S (.inl rfl) v _
  | .ex vars g, h, _ => by
    rw [Goal.pySexp]
    cases vars with
    | nil => exact absurd rfl h.1
    | cons v vars => exact readGoal_quant S (.inr rfl) v _
  | .other, h, _ => h.elim
theorem readGoals_quantified {sp : Term → Name} (S : Symbols) : ∀ (gs : List Goal), Goal.WordlyAll sp gs →
    Goal.QuantifiedAny gs → readGoals S (Goal.pySexps sp gs) = none
  | [], _, hq => hq.elim
  | g :: gs, h, hq => by
    rw [Goal.pySexps, readGoals]
    rcases hq with hq | hq
    · rw [readGoal_quantified S g h.1 hq]; rfl
    · rw [readGoals_quantified S gs h.2 hq]
      cases readGoal S (g.pySexp sp) <;> rfl
end

/-! ## Objects -/

/-- The words of the objects section. -/
def objSexps (l : List (Name × Name)) : List Sexp :=
  l.flatMap fun o => if o.2 = [] then [.word o.1] else [.word o.1, .word ['-'], .word o.2]

theorem toks_objects : ∀ (l : List (Name × Name)), (∀ o ∈ l, CleanWord o.1 ∧ (o.2 = [] ∨ CleanWord o.2)) →
    Py.Formula.toksAll (l.map fun o => .str (Py.objRepr o.1 o.2)) = Sexp.toksAll (objSexps l)
  | [], _ => rfl
  | (n, t) :: l, h => by
    obtain ⟨h1, h2⟩ := h _ (List.mem_cons_self ..)
    simp only at h1 h2
    have ih := toks_objects l fun o ho => h o (by simp [ho])
    have e : objSexps ((n, t) :: l) = (if t = [] then [.word n] else [.word n, .word ['-'], .word t]) ++ objSexps l := rfl
    rw [e, Sexp.toksAll_append, ← ih, List.map_cons, Py.Formula.toksAll, Py.Formula.toks]
    congr 1
    simp only [Py.objRepr]
    split
    · simp [lex_clean_end h1, Sexp.toksAll, Sexp.toks]
    · rename_i ht
      have h2 := h2.resolve_left ht
      have e : n ++ n!" - " ++ t = n ++ ' ' :: (['-'] ++ ' ' :: t) := by simp
      rw [e, lex_clean h1, lex_blank, lex_clean clean_dash, lex_blank, lex_clean_end h2]
      simp [flush, h1.1, Sexp.toksAll, Sexp.toks]

theorem readTyped_objects : ∀ (l : List (Name × Name)) (acc : List Name), (∀ o ∈ l, o.1 ≠ ['-']) →
    readTyped (objSexps l) acc = some (acc.map (fun n => (n, nextType l)) ++ borrowTypes l)
  | [], acc, _ => by simp [objSexps, readTyped, nextType, borrowTypes]
  | (n, t) :: l, acc, h => by
    have hn : n ≠ ['-'] := h _ (List.mem_cons_self ..)
    have hl : ∀ o ∈ l, o.1 ≠ ['-'] := fun o ho => h o (by simp [ho])
    have e : objSexps ((n, t) :: l) = (if t = [] then [.word n] else [.word n, .word ['-'], .word t]) ++ objSexps l := rfl
    rw [e]
    split
    · rename_i ht
      rw [List.singleton_append, readTyped.eq_def]
      split
      · simp_all
      · simp_all
      · rename_i w es _ hw
        simp only [List.cons.injEq, Sexp.word.injEq] at hw
        obtain ⟨rfl, rfl⟩ := hw
        rw [if_neg hn, readTyped_objects l _ hl]
        simp [nextType, borrowTypes, ht]
      · simp_all
    · rename_i ht
      rw [List.cons_append, readTyped.eq_def]
      split
      · simp_all
      · simp_all
      · rename_i w es _ hw
        simp only [List.cons.injEq, Sexp.word.injEq] at hw
        obtain ⟨rfl, rfl⟩ := hw
        rw [if_neg hn]
        simp only [List.cons_append, List.nil_append, readTyped, readTyped_objects l [] hl]
        simp [nextType, borrowTypes, ht]
      · simp_all

/-! ## Initial propositions -/

theorem readWords_words : ∀ (ws : List Name), readWords (ws.map .word) = some ws
  | [] => rfl
  | w :: ws => by simp [readWords, readWords_words ws]

theorem readAtoms_atoms : ∀ (l : List Atom),
    readAtoms (l.map fun a => .list (.word a.pred :: a.args.map .word)) = some l
  | [] => rfl
  | a :: l => by simp [readAtoms, readWords_words, readAtoms_atoms l]

theorem splitComma_piece : ∀ (w t cur : Name), ',' ∉ w → Py.splitComma (w ++ t) cur = Py.splitComma t (cur ++ w)
  | [], t, cur, _ => by simp
  | c :: w, t, cur, h => by
    simp only [List.mem_cons, not_or] at h
    rw [List.cons_append, Py.splitComma, if_neg (Ne.symm h.1), splitComma_piece w t _ h.2]
    simp

/-- What the Python module makes of the text between the brackets. -/
theorem splitComma_joinArgs : ∀ (ws : List Name), ws ≠ [] → (∀ w ∈ ws, ',' ∉ w ∧ ' ' ∉ w) →
    Py.splitComma ((joinArgs ws).filter (fun c => decide (c ≠ ' '))) [] = ws
  | [], h, _ => absurd rfl h
  | [w], _, h => by
    have hw := h w (by simp)
    have e : w.filter (fun c => decide (c ≠ ' ')) = w := by
      rw [List.filter_eq_self]; intro c hc; simp; rintro rfl; exact hw.2 hc
    rw [joinArgs, e]
    have := splitComma_piece w [] [] hw.1
    simpa [Py.splitComma] using this
  | w :: v :: ws, _, h => by
    have hw := h w (by simp)
    have ih := splitComma_joinArgs (v :: ws) (by simp) (fun u hu => h u (by simp at hu ⊢; tauto))
    have e : w.filter (fun c => decide (c ≠ ' ')) = w := by
      rw [List.filter_eq_self]; intro c hc; simp; rintro rfl; exact hw.2 hc
    rw [joinArgs, List.filter_append, List.filter_append, e, List.append_assoc, splitComma_piece w _ _ hw.1]
    have e2 : (n!", ").filter (fun c => decide (c ≠ ' ')) = [','] := by decide
    rw [e2, List.singleton_append, Py.splitComma, if_pos rfl, ih]
    simp

theorem not_mem_joinArgs {c : Char} (h1 : c ≠ ',') (h2 : c ≠ ' ') : ∀ (ws : List Name), (∀ w ∈ ws, c ∉ w) →
    c ∉ joinArgs ws
  | [], _ => by simp [joinArgs]
  | [w], h => by simpa [joinArgs] using h
  | w :: v :: ws, h => by
    have ih := not_mem_joinArgs h1 h2 (v :: ws) (fun u hu => h u (by simp at hu ⊢; tauto))
    have := h w (by simp)
    simp only [joinArgs, List.mem_append, not_or]
    exact ⟨⟨this, by simp [h1, h2]⟩, ih⟩

/-- The arguments that `parse_proposition` finds in a printed call. -/
theorem py_parse_callString (p : Name) (ws : List Name) (hp : CleanHead p) (h : ∀ w ∈ ws, ',' ∉ w ∧ ' ' ∉ w ∧ ')' ∉ w) :
    Py.parseProposition (callString p ws) = some (p, if ws = [] then [[]] else ws) := by
  have e1 : callString p ws = p ++ '(' :: (joinArgs ws ++ [')']) := by simp [callString]
  rw [Py.parseProposition, e1, findFirst_append _ _ _ hp]
  have e2 : (p ++ '(' :: (joinArgs ws ++ [')'])).drop (p.length + 1) = joinArgs ws ++ [')'] := by
    rw [List.drop_append]; simp
  have e3 : (joinArgs ws ++ [')']).takeWhile (fun c => decide (c ≠ ')')) = joinArgs ws := by
    rw [List.takeWhile_append_of_pos]
    · simp
    · intro c hc
      simp only [decide_eq_true_eq]
      rintro rfl
      exact not_mem_joinArgs (by decide) (by decide) ws (fun w hw => (h w hw).2.2) hc
  simp only [e2, e3]
  refine congrArg some (Prod.ext (by simp) ?_)
  dsimp only
  split
  · subst ws; rfl
  · exact splitComma_joinArgs ws (by assumption) fun w hw => ⟨(h w hw).1, (h w hw).2.1⟩

end Symbolic
