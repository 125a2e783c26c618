import Verif.Model.FormulaString
import Verif.Spec.Pddl
import Mathlib.Tactic.IntervalCases

/-!
# Strings of formulas

Reading what was printed, and counting brackets.
-/

namespace Symbolic

/-! ## Reading back -/

theorem flush_nil : flush [] = [] := rfl

theorem flush_word {w : Name} (h : w ≠ []) : flush w = [.word w] := by simp [flush, h]

theorem lex_word : ∀ (w t cur : Name), (∀ c ∈ w, c ≠ '(' ∧ c ≠ ')' ∧ isBlank c = false) → lex (w ++ t) cur = lex t (cur ++ w)
  | [], t, cur, _ => by simp
  | c :: w, t, cur, h => by
    obtain ⟨h1, h2, h3⟩ := h c (by simp)
    rw [List.cons_append, lex, if_neg h1, if_neg h2, h3, if_neg (by simp),
      lex_word w t (cur ++ [c]) (fun c' hc => h c' (by simp [hc]))]
    simp

theorem lex_rp (t cur : Name) : lex (')' :: t) cur = flush cur ++ .rp :: lex t [] := by
  rw [lex, if_neg (by decide), if_pos rfl]

theorem lex_lp (t cur : Name) : lex ('(' :: t) cur = flush cur ++ .lp :: lex t [] := by
  rw [lex, if_pos rfl]

theorem lex_blank (t cur : Name) : lex (' ' :: t) cur = flush cur ++ lex t [] := by
  rw [lex, if_neg (by decide), if_neg (by decide), if_pos (by decide)]

theorem lex_args : ∀ (ns : List Name) (t cur : Name), (∀ w ∈ ns, CleanWord w) →
    lex (ns.flatMap (fun n => ' ' :: n) ++ ')' :: t) cur = flush cur ++ ns.map .word ++ .rp :: lex t []
  | [], t, cur, _ => by simp [lex_rp]
  | w :: ns, t, cur, h => by
    have hw := h w (by simp)
    rw [List.flatMap_cons, List.append_assoc, List.cons_append, lex_blank, lex_word w _ _ hw.2,
      lex_args ns t _ (fun w' hm => h w' (by simp [hm]))]
    simp [flush_word hw.1]

mutual
/-- The tokens of the printed formula. -/
def Goal.toks : Goal → List Tok
  | .atom pred ts => .lp :: .word pred :: ts.map (fun t => .word t.obj.name) ++ [.rp]
  | .conj gs => .lp :: .word n!"and" :: Goal.toksAll gs ++ [.rp]
  | .disj gs => .lp :: .word n!"or" :: Goal.toksAll gs ++ [.rp]
  | .neg g => .lp :: .word n!"not" :: Goal.toks g ++ [.rp]
  | _ => []
def Goal.toksAll : List Goal → List Tok
  | [] => []
  | g :: gs => Goal.toks g ++ Goal.toksAll gs
end

mutual
/-- The bracketed expression of the printed formula. -/
def Goal.sexp : Goal → Sexp
  | .atom pred ts => .list (.word pred :: ts.map (fun t => .word t.obj.name))
  | .conj gs => .list (.word n!"and" :: Goal.sexps gs)
  | .disj gs => .list (.word n!"or" :: Goal.sexps gs)
  | .neg g => .list [.word n!"not", Goal.sexp g]
  | _ => .list []
def Goal.sexps : List Goal → List Sexp
  | [] => []
  | g :: gs => Goal.sexp g :: Goal.sexps gs
end

theorem clean_and : CleanWord n!"and" := by constructor <;> decide
theorem clean_or : CleanWord n!"or" := by constructor <;> decide
theorem clean_not : CleanWord n!"not" := by constructor <;> decide

mutual
theorem lex_str {S : Symbols} : ∀ (g : Goal) (params : List Obj) (t : Name), g.Writable S →
    lex (g.str params ++ t) [] = g.toks ++ lex t []
  | .atom pred ts, _, t, h => by
    simp only [Goal.Writable] at h
    obtain ⟨hp, -, ht⟩ := h
    have e : pddlAtom pred (ts.map Term.obj) ++ t =
        '(' :: (pred ++ (((ts.map (fun t => t.obj.name)).flatMap (fun n => ' ' :: n)) ++ ')' :: t)) := by
      simp [pddlAtom, List.flatMap_map]
    rw [Goal.str, e, lex_lp, lex_word _ _ _ hp.2, lex_args]
    · simp [Goal.toks, flush_word hp.1, flush_nil]
    · intro w hw
      obtain ⟨u, hu, rfl⟩ := List.mem_map.1 hw
      exact (ht u hu).1
  | .conj gs, params, t, h => by
    simp only [Goal.Writable] at h
    have e : Goal.str (.conj gs) params ++ t = '(' :: (n!"and" ++ (Goal.strs gs params ++ ')' :: t)) := by
      simp [Goal.str]
    rw [e, lex_lp, lex_word _ _ _ clean_and.2, lex_strs gs params t _ h]
    simp [Goal.toks, flush]
  | .disj gs, params, t, h => by
    simp only [Goal.Writable] at h
    have e : Goal.str (.disj gs) params ++ t = '(' :: (n!"or" ++ (Goal.strs gs params ++ ')' :: t)) := by
      simp [Goal.str]
    rw [e, lex_lp, lex_word _ _ _ clean_or.2, lex_strs gs params t _ h]
    simp [Goal.toks, flush]
  | .neg g, params, t, h => by
    simp only [Goal.Writable] at h
    have e : Goal.str (.neg g) params ++ t = '(' :: (n!"not" ++ (' ' :: (Goal.str g params ++ ')' :: t))) := by
      simp [Goal.str]
    rw [e, lex_lp, lex_word _ _ _ clean_not.2, lex_blank, lex_str g params _ h, lex_rp]
    simp [Goal.toks, flush]
  | .all _ _, _, _, h => by simp [Goal.Writable] at h
  | .ex _ _, _, _, h => by simp [Goal.Writable] at h
  | .other, _, _, h => by simp [Goal.Writable] at h
theorem lex_strs {S : Symbols} : ∀ (gs : List Goal) (params : List Obj) (t cur : Name), Goal.WritableAll S gs →
    lex (Goal.strs gs params ++ ')' :: t) cur = flush cur ++ Goal.toksAll gs ++ .rp :: lex t []
  | [], _, t, cur, _ => by simp [Goal.strs, Goal.toksAll, lex_rp]
  | g :: gs, params, t, cur, h => by
    simp only [Goal.WritableAll] at h
    have e : Goal.strs (g :: gs) params ++ ')' :: t =
        ' ' :: (Goal.str g params ++ (Goal.strs gs params ++ ')' :: t)) := by simp [Goal.strs]
    rw [e, lex_blank, lex_str g params _ h.1, lex_strs gs params t [] h.2]
    simp [Goal.toksAll, flush_nil]
end

theorem bracket_words : ∀ (ns : List Name) (ts : List Tok) (top : List Sexp) (st : List (List Sexp)),
    bracket (ns.map .word ++ ts) (top :: st) = bracket ts (((ns.map .word).reverse ++ top) :: st)
  | [], ts, top, st => by simp
  | w :: ns, ts, top, st => by
    simp only [List.map_cons, List.cons_append, bracket]
    rw [bracket_words ns ts]
    simp

mutual
theorem bracket_toks {S : Symbols} : ∀ (g : Goal) (ts : List Tok) (top : List Sexp) (st : List (List Sexp)),
    g.Writable S → bracket (g.toks ++ ts) (top :: st) = bracket ts ((g.sexp :: top) :: st)
  | .atom pred us, ts, top, st, _ => by
    have e : us.map (fun t => Tok.word t.obj.name) = (us.map (fun t => t.obj.name)).map Tok.word := by simp
    simp only [Goal.toks, List.cons_append, bracket]
    rw [e, List.append_assoc, bracket_words]
    simp [bracket, Goal.sexp, Function.comp_def]
  | .conj gs, ts, top, st, h => by
    simp only [Goal.Writable] at h
    simp only [Goal.toks, List.cons_append, bracket]
    rw [List.append_assoc, bracket_toksAll gs _ _ _ h]
    simp [bracket, Goal.sexp]
  | .disj gs, ts, top, st, h => by
    simp only [Goal.Writable] at h
    simp only [Goal.toks, List.cons_append, bracket]
    rw [List.append_assoc, bracket_toksAll gs _ _ _ h]
    simp [bracket, Goal.sexp]
  | .neg g, ts, top, st, h => by
    simp only [Goal.Writable] at h
    simp only [Goal.toks, List.cons_append, bracket]
    rw [List.append_assoc, bracket_toks g _ _ _ h]
    simp [bracket, Goal.sexp]
  | .all _ _, _, _, _, h => by simp [Goal.Writable] at h
  | .ex _ _, _, _, _, h => by simp [Goal.Writable] at h
  | .other, _, _, _, h => by simp [Goal.Writable] at h
theorem bracket_toksAll {S : Symbols} : ∀ (gs : List Goal) (ts : List Tok) (top : List Sexp) (st : List (List Sexp)),
    Goal.WritableAll S gs → bracket (Goal.toksAll gs ++ ts) (top :: st) =
      bracket ts (((Goal.sexps gs).reverse ++ top) :: st)
  | [], _, _, _, _ => by simp [Goal.toksAll, Goal.sexps]
  | g :: gs, ts, top, st, h => by
    simp only [Goal.WritableAll] at h
    rw [Goal.toksAll, List.append_assoc, bracket_toks g _ _ _ h.1, bracket_toksAll gs _ _ _ h.2]
    simp [Goal.sexps]
end

theorem readTerms_words {S : Symbols} : ∀ (ts : List Term), (∀ t ∈ ts, S.term t.obj.name = some t) →
    readTerms S (ts.map (fun t => .word t.obj.name)) = some ts
  | [], _ => rfl
  | t :: ts, h => by
    simp only [List.map_cons, readTerms, h t (by simp), readTerms_words ts (fun t hm => h t (by simp [hm]))]
    rfl

mutual
theorem readGoal_sexp {S : Symbols} : ∀ (g : Goal), g.Writable S → readGoal S g.sexp = some g
  | .atom pred ts, h => by
    simp only [Goal.Writable, keywords, List.mem_cons, List.not_mem_nil, or_false, not_or] at h
    obtain ⟨-, ⟨h1, h2, h3, h4, h5⟩, ht⟩ := h
    rw [Goal.sexp, readGoal, readList.eq_def]
    dsimp only
    rw [if_neg h1, if_neg h2, if_neg h3, if_neg h4, if_neg h5, readTerms_words ts (fun t hm => (ht t hm).2)]
    rfl
  | .conj gs, h => by
    simp only [Goal.Writable] at h
    simp [Goal.sexp, readGoal, readList, readGoals_sexps gs h]
  | .disj gs, h => by
    simp only [Goal.Writable] at h
    simp [Goal.sexp, readGoal, readList, readGoals_sexps gs h]
  | .neg g, h => by
    simp only [Goal.Writable] at h
    simp [Goal.sexp, readGoal, readList, readGoal_sexp g h]
  | .all _ _, h => by simp [Goal.Writable] at h
  | .ex _ _, h => by simp [Goal.Writable] at h
  | .other, h => by simp [Goal.Writable] at h
theorem readGoals_sexps {S : Symbols} : ∀ (gs : List Goal), Goal.WritableAll S gs →
    readGoals S (Goal.sexps gs) = some gs
  | [], _ => by simp [Goal.sexps, readGoals]
  | g :: gs, h => by
    simp only [Goal.WritableAll] at h
    simp only [Goal.sexps, readGoals, readGoal_sexp g h.1, readGoals_sexps gs h.2]
    rfl
end

theorem readPddl_str {S : Symbols} (g : Goal) (params : List Obj) (h : g.Writable S) :
    readPddl S (g.str params) = some g := by
  have e := lex_str g params [] h
  simp only [List.append_nil, lex, flush_nil] at e
  have hb := bracket_toks g [] [] [] h
  simp only [List.append_nil] at hb
  simp only [readPddl, e, hb, bracket, List.reverse_cons, List.reverse_nil, List.nil_append, readGoal_sexp g h]

mutual
theorem Goal.Writable.mono {S S' : Symbols} (h : ∀ w t, S.term w = some t → S'.term w = some t) :
    ∀ g : Goal, g.Writable S → g.Writable S'
  | .atom _ _, hg => by
    simp only [Goal.Writable] at hg ⊢
    exact ⟨hg.1, hg.2.1, fun t ht => ⟨(hg.2.2 t ht).1, h _ _ (hg.2.2 t ht).2⟩⟩
  | .conj gs, hg => by simp only [Goal.Writable] at hg ⊢; exact Goal.WritableAll.mono h gs hg
  | .disj gs, hg => by simp only [Goal.Writable] at hg ⊢; exact Goal.WritableAll.mono h gs hg
  | .neg g, hg => by simp only [Goal.Writable] at hg ⊢; exact Goal.Writable.mono h g hg
  | .all _ _, hg => by simp [Goal.Writable] at hg
  | .ex _ _, hg => by simp [Goal.Writable] at hg
  | .other, hg => by simp [Goal.Writable] at hg
theorem Goal.WritableAll.mono {S S' : Symbols} (h : ∀ w t, S.term w = some t → S'.term w = some t) :
    ∀ gs : List Goal, Goal.WritableAll S gs → Goal.WritableAll S' gs
  | [], _ => trivial
  | g :: gs, hg => by
    simp only [Goal.WritableAll] at hg ⊢
    exact ⟨Goal.Writable.mono h g hg.1, Goal.WritableAll.mono h gs hg.2⟩
end

/-! ## Counting brackets -/

/-- Opening minus closing brackets. -/
def balance (s : Name) : Int := (s.count '(' : Int) - s.count ')'

theorem balance_append (s t : Name) : balance (s ++ t) = balance s + balance t := by
  simp only [balance, List.count_append]; omega

theorem balance_none {s : Name} (h : NoBracket s) : balance s = 0 := by
  simp [balance, List.count_eq_zero.2 h.1, List.count_eq_zero.2 h.2]

theorem flush_lp (cur : Name) : (flush cur).count .lp = 0 ∧ (flush cur).count .rp = 0 := by
  unfold flush; split <;> simp

theorem lex_count : ∀ (s cur : Name), (lex s cur).count .lp = s.count '(' ∧ (lex s cur).count .rp = s.count ')'
  | [], cur => by simpa [lex] using flush_lp cur
  | c :: s, cur => by
    rw [lex]
    have h0 := flush_lp cur
    have h1 := lex_count s []
    have h2 := lex_count s (cur ++ [c])
    by_cases e1 : c = '('
    · subst e1
      rw [if_pos rfl]
      simp [List.count_append, h0, h1]
    · by_cases e2 : c = ')'
      · subst e2
        rw [if_neg e1, if_pos rfl]
        simp [List.count_append, h0, h1]
      · rw [if_neg e1, if_neg e2]
        split
        · simp [List.count_append, h0, h1, e1, e2]
        · simp [h2, e1, e2]

theorem bracket_count : ∀ (ts : List Tok) (st : List (List Sexp)) (es : List Sexp), bracket ts st = some es →
    st.length + ts.count .lp = 1 + ts.count .rp
  | [], [top], es, _ => by simp
  | [], [], es, h => by simp [bracket] at h
  | [], _ :: _ :: _, es, h => by simp [bracket] at h
  | .lp :: ts, st, es, h => by
    have := bracket_count ts _ es (by simpa [bracket] using h)
    simp at this ⊢
    omega
  | .rp :: ts, [], es, h => by simp [bracket] at h
  | .rp :: ts, [_], es, h => by simp [bracket] at h
  | .rp :: ts, _ :: _ :: _, es, h => by
    have := bracket_count ts _ es (by simpa [bracket] using h)
    simp at this ⊢
    omega
  | .word w :: ts, [], es, h => by simp [bracket] at h
  | .word w :: ts, _ :: _, es, h => by
    have := bracket_count ts _ es (by simpa [bracket] using h)
    simp at this ⊢
    omega

theorem readPddl_balance {S : Symbols} {s : Name} {g : Goal} (h : readPddl S s = some g) : balance s = 0 := by
  unfold readPddl at h
  cases hb : bracket (lex s []) [[]] with
  | none => rw [hb] at h; simp at h
  | some es =>
    have h1 := bracket_count _ _ _ hb
    have h2 := lex_count s []
    rw [h2.1, h2.2] at h1
    simp only [List.length_cons, List.length_nil] at h1
    simp only [balance]
    omega

theorem balance_args : ∀ (os : List Obj), (∀ o ∈ os, NoBracket o.name) →
    balance (os.flatMap (fun o => ' ' :: o.name)) = 0
  | [], _ => rfl
  | o :: os, h => by
    rw [List.flatMap_cons, balance_append, balance_args os (fun o hm => h o (by simp [hm]))]
    have e : (' ' :: o.name : Name) = [' '] ++ o.name := rfl
    rw [e, balance_append, balance_none (h o (by simp))]
    decide

theorem balance_params : ∀ (os : List Obj), (∀ o ∈ os, NoBracket o.name ∧ NoBracket o.typeName) →
    balance (pddlParams os) = 0
  | [], _ => rfl
  | [o], h => by
    obtain ⟨h1, h2⟩ := h o (by simp)
    simp only [pddlParams, balance_append, balance_none h1, balance_none h2]
    decide
  | o :: o' :: os, h => by
    obtain ⟨h1, h2⟩ := h o (by simp)
    simp only [pddlParams, balance_append, balance_none h1, balance_none h2,
      balance_params (o' :: os) (fun o hm => h o (by simp [hm]))]
    decide

theorem balance_quantified {init : Name} (hi : init = n!"(forall (" ∨ init = n!"(exists (") {params : List Obj}
    {body : Name} (hp : ∀ o ∈ params, NoBracket o.name ∧ NoBracket o.typeName) (hb : balance body ≤ 0) :
    balance (pddlQuantified init params body) < 0 := by
  have hd : ∀ n, balance (init.drop (n + 1)) ≤ 1 := by
    intro n
    by_cases hn : n < 9
    · rcases hi with rfl | rfl <;> interval_cases n <;> decide
    · rw [List.drop_eq_nil_of_le (by rcases hi with rfl | rfl <;> simp <;> omega)]
      decide
  unfold pddlQuantified overwrite
  rw [balance_append]
  have hlen : (pddlParams params ++ [')'] ++ ['\n'] ++ body ++ ['\n'] ++ [')']).length =
      ((pddlParams params ++ body).length + 3) + 1 := by
    simp only [List.length_append, List.length_cons, List.length_nil]; omega
  have := hd ((pddlParams params ++ body).length + 3)
  rw [hlen]
  simp only [balance_append, balance_params params hp]
  have c1 : balance [')'] = -1 := by decide
  have c2 : balance ['\n'] = 0 := by decide
  rw [c1, c2]
  omega

mutual
theorem balance_str : ∀ (g : Goal) (params : List Obj), g.Named →
    (∀ o ∈ params, NoBracket o.name ∧ NoBracket o.typeName) →
    balance (g.str params) ≤ 0 ∧ (g.Quantified → balance (g.str params) < 0)
  | .atom pred ts, _, h, _ => by
    simp only [Goal.Named] at h
    have e : balance (pddlAtom pred (ts.map Term.obj)) = 0 := by
      simp only [pddlAtom, balance_append, balance_none h.1]
      rw [balance_args _ (by
        intro o ho
        obtain ⟨u, hu, rfl⟩ := List.mem_map.1 ho
        exact h.2 u hu)]
      decide
    simp [Goal.str, Goal.Quantified, e]
  | .conj gs, params, h, hp => by
    simp only [Goal.Named] at h
    obtain ⟨h1, h2⟩ := balance_strs gs params h hp
    have c1 : balance n!"(and" = 1 := by decide
    have c2 : balance [')'] = -1 := by decide
    simp only [Goal.str, Goal.Quantified, balance_append, c1, c2]
    exact ⟨by omega, fun hq => by have := h2 hq; omega⟩
  | .disj gs, params, h, hp => by
    simp only [Goal.Named] at h
    obtain ⟨h1, h2⟩ := balance_strs gs params h hp
    have c1 : balance n!"(or" = 1 := by decide
    have c2 : balance [')'] = -1 := by decide
    simp only [Goal.str, Goal.Quantified, balance_append, c1, c2]
    exact ⟨by omega, fun hq => by have := h2 hq; omega⟩
  | .neg g, params, h, hp => by
    simp only [Goal.Named] at h
    obtain ⟨h1, h2⟩ := balance_str g params h hp
    have c1 : balance n!"(not " = 1 := by decide
    have c2 : balance [')'] = -1 := by decide
    simp only [Goal.str, Goal.Quantified, balance_append, c1, c2]
    exact ⟨by omega, fun hq => by have := h2 hq; omega⟩
  | .all vars g, params, h, hp => by
    simp only [Goal.Named] at h
    have hb := (balance_str g (params ++ vars) h.2 (by
      intro o ho
      rcases List.mem_append.1 ho with ho | ho
      · exact hp o ho
      · exact h.1 o ho)).1
    have := balance_quantified (.inl rfl) hp hb
    simp only [Goal.str]
    exact ⟨by omega, fun _ => this⟩
  | .ex vars g, params, h, hp => by
    simp only [Goal.Named] at h
    have hb := (balance_str g (params ++ vars) h.2 (by
      intro o ho
      rcases List.mem_append.1 ho with ho | ho
      · exact hp o ho
      · exact h.1 o ho)).1
    have := balance_quantified (.inr rfl) hp hb
    simp only [Goal.str]
    exact ⟨by omega, fun _ => this⟩
  | .other, _, _, _ => by simp [Goal.str, Goal.Quantified, balance]
theorem balance_strs : ∀ (gs : List Goal) (params : List Obj), Goal.NamedAll gs →
    (∀ o ∈ params, NoBracket o.name ∧ NoBracket o.typeName) →
    balance (Goal.strs gs params) ≤ 0 ∧ (Goal.QuantifiedAny gs → balance (Goal.strs gs params) < 0)
  | [], _, _, _ => by simp [Goal.strs, Goal.QuantifiedAny, balance]
  | g :: gs, params, h, hp => by
    simp only [Goal.NamedAll] at h
    obtain ⟨h1, h2⟩ := balance_str g params h.1 hp
    obtain ⟨h3, h4⟩ := balance_strs gs params h.2 hp
    have e : (' ' :: Goal.str g params ++ Goal.strs gs params : Name) = [' '] ++ (Goal.str g params ++ Goal.strs gs params) :=
      by simp
    have c : balance [' '] = 0 := by decide
    simp only [Goal.strs, Goal.QuantifiedAny, e, balance_append, c]
    refine ⟨by omega, ?_⟩
    rintro (hq | hq)
    · have := h2 hq; omega
    · have := h4 hq; omega
end

end Symbolic
