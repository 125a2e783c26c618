import Verif.Model.Parse
import Verif.Spec.Strings
import Verif.Lemmas.State
import Verif.Lemmas.Res

namespace Symbolic

theorem findFirst_append (c : Char) (h r : Name) (hc : c ∉ h) : findFirst c (h ++ c :: r) = some h.length := by
  induction h with
  | nil => simp [findFirst]
  | cons x xs ih =>
    simp only [List.mem_cons, not_or] at hc
    simp [findFirst, Ne.symm hc.1, ih hc.2]

theorem findFirst_none (c : Char) (s : Name) (hc : c ∉ s) : findFirst c s = none := by
  induction s with
  | nil => rfl
  | cons x xs ih =>
    simp only [List.mem_cons, not_or] at hc
    simp [findFirst, Ne.symm hc.1, ih hc.2]

theorem findLast_none (c : Char) (s : Name) (hc : c ∉ s) : findLast c s = none := by
  induction s with
  | nil => rfl
  | cons x xs ih =>
    simp only [List.mem_cons, not_or] at hc
    simp [findLast, Ne.symm hc.1, ih hc.2]

theorem findLast_append (c : Char) (t u : Name) (hc : c ∉ u) : findLast c (t ++ c :: u) = some t.length := by
  induction t with
  | nil => simp [findLast, findLast_none c u hc]
  | cons x xs ih => simp [findLast, ih]

theorem split_first (c : Char) (s : Name) : c ∉ s ∨ ∃ h r, s = h ++ c :: r ∧ c ∉ h := by
  induction s with
  | nil => left; simp
  | cons x xs ih =>
    by_cases hx : x = c
    · right; exact ⟨[], xs, by simp [hx], by simp⟩
    · rcases ih with h | ⟨h, r, h1, h2⟩
      · left; simp [Ne.symm hx, h]
      · right; exact ⟨x :: h, r, by simp [h1], by simp [Ne.symm hx, h2]⟩

theorem split_last (c : Char) (s : Name) : c ∉ s ∨ ∃ t u, s = t ++ c :: u ∧ c ∉ u := by
  induction s with
  | nil => left; simp
  | cons x xs ih =>
    rcases ih with h | ⟨t, u, h1, h2⟩
    · by_cases hx : x = c
      · right; exact ⟨[], xs, by simp [hx], h⟩
      · left; simp [Ne.symm hx, h]
    · right; exact ⟨x :: t, u, by simp [h1], h2⟩

theorem splitOpen_exists (s : Name) : ∃ h r, SplitOpen s h r := by
  rcases split_first '(' s with h | ⟨h, r, h1, h2⟩
  · exact ⟨s, s, Or.inr ⟨h, rfl, rfl⟩⟩
  · exact ⟨h, r, Or.inl ⟨h1, h2⟩⟩

theorem beforeClose_exists (r : Name) : ∃ t, BeforeClose r t := by
  rcases split_last ')' r with h | ⟨t, u, h1, h2⟩
  · exact ⟨r, Or.inr ⟨h, rfl⟩⟩
  · exact ⟨t, Or.inl ⟨u, h1, h2⟩⟩

theorem parseHead_eq {s h r : Name} (hs : SplitOpen s h r) : parseHead s = h := by
  rcases hs with ⟨rfl, h2⟩ | ⟨h1, rfl, -⟩
  · simp [parseHead, findFirst_append _ _ _ h2]
  · simp [parseHead, findFirst_none _ _ h1]

/-- The substring the tokenizer works on. -/
def argText (s : Name) : Name :=
  let start := match findFirst '(' s with
    | some i => i + 1
    | none => 0
  let stop := match findLast ')' s with
    | some i => min s.length i
    | none => s.length
  if stop < start then s.drop start else (s.drop start).take (stop - start)

theorem argText_eq {s h r t : Name} (hs : SplitOpen s h r) (hr : BeforeClose r t) : argText s = t := by
  rcases hs with ⟨rfl, h2⟩ | ⟨h1, -, rfl⟩
  · have hd : (h ++ '(' :: r).drop (h.length + 1) = r := by
      rw [show h ++ '(' :: r = (h ++ ['(']) ++ r by simp]
      rw [List.drop_left' (by simp)]
    rcases hr with ⟨u, rfl, hu⟩ | ⟨hn, rfl⟩
    · have hl : findLast ')' (h ++ '(' :: (t ++ ')' :: u)) = some (h ++ '(' :: t).length := by
        rw [show h ++ '(' :: (t ++ ')' :: u) = (h ++ '(' :: t) ++ ')' :: u by simp]
        exact findLast_append _ _ _ hu
      simp only [argText, findFirst_append _ _ _ h2, hl, hd]
      rw [if_neg (by simp)]
      rw [show min (h ++ '(' :: (t ++ ')' :: u)).length (h ++ '(' :: t).length - (h.length + 1) = t.length by
        simp; omega]
      simp
    · simp only [argText, findFirst_append _ _ _ h2, hd]
      rcases split_last ')' h with hh | ⟨a, b, rfl, hb⟩
      · have hl : findLast ')' (h ++ '(' :: t) = none := by
          apply findLast_none
          simp [hh, hn]
        simp only [hl]
        rw [if_neg (by simp)]
        rw [List.take_of_length_le]
        simp only [List.length_append, List.length_cons]
        have e : ∀ a b : Nat, a + (b + 1) = b + (a + 1) := by omega
        exact Nat.le_sub_of_add_le (le_of_eq (e _ _))
      · have hl : findLast ')' ((a ++ ')' :: b) ++ '(' :: t) = some a.length := by
          rw [show (a ++ ')' :: b) ++ '(' :: t = a ++ ')' :: (b ++ '(' :: t) by simp]
          apply findLast_append
          simp [hb, hn]
        simp only [hl]
        rw [if_pos]
        refine lt_of_le_of_lt (Nat.min_le_right _ _) ?_
        simp only [List.length_append, List.length_cons]
        exact Nat.lt_add_one_of_le (Nat.le_add_right _ _)
  · rcases hr with ⟨u, rfl, hu⟩ | ⟨hn, rfl⟩
    · simp only [argText, findFirst_none _ _ h1, findLast_append _ _ _ hu]
      simp
    · simp [argText, findFirst_none _ _ h1, findLast_none _ _ hn]

theorem isSep_iff (c : Char) : IsSep c ↔ isSpace (if c = ',' then ' ' else c) = true := by
  by_cases h : c = ','
  · simp [h, IsSep, isSpace]
  · simp [h, IsSep, isSpace]
    tauto

/-- The tokenizer with commas treated as separators directly. -/
def wordsSep : Name → Name → List Name
  | [], cur => if cur = [] then [] else [cur]
  | c :: cs, cur =>
    if isSpace (if c = ',' then ' ' else c) then (if cur = [] then wordsSep cs [] else cur :: wordsSep cs [])
    else wordsSep cs (cur ++ [c])

theorem wordsGo_map (t cur : Name) :
    wordsGo (t.map (fun c => if c = ',' then ' ' else c)) cur = wordsSep t cur := by
  induction t generalizing cur with
  | nil => rfl
  | cons c cs ih =>
    simp only [List.map_cons, wordsGo, wordsSep, ih]
    by_cases hc : c = ','
    · subst hc; simp [isSpace]
    · simp [hc]

theorem tokenize_eq (s : Name) : tokenizeArguments s = wordsSep (argText s) [] := by
  rw [← wordsGo_map]; rfl

theorem wordsSep_seps (pre t : Name) (h : ∀ c ∈ pre, IsSep c) : wordsSep (pre ++ t) [] = wordsSep t [] := by
  induction pre with
  | nil => rfl
  | cons c cs ih =>
    have hc := (isSep_iff c).1 (h c (by simp))
    simp only [List.cons_append, wordsSep, hc, if_true]
    exact ih (fun c hc => h c (by simp [hc]))

theorem wordsSep_word (w t cur : Name) (h : ∀ c ∈ w, ¬ IsSep c) : wordsSep (w ++ t) cur = wordsSep t (cur ++ w) := by
  induction w generalizing cur with
  | nil => simp
  | cons c cs ih =>
    have hc := mt (isSep_iff c).2 (h c (by simp))
    simp only [List.cons_append, wordsSep, hc, if_false, Bool.false_eq_true]
    rw [ih _ (fun c hc => h c (by simp [hc]))]
    simp

theorem wordsSep_end (t cur : Name) (hcur : cur ≠ []) (h : ∀ c, t.head? = some c → IsSep c) :
    wordsSep t cur = cur :: wordsSep t [] := by
  cases t with
  | nil => simp [wordsSep, hcur]
  | cons c cs =>
    have hc := (isSep_iff c).1 (h c rfl)
    simp [wordsSep, hc, hcur]

theorem words_of_Words {t : Name} {ws : List Name} (h : Words t ws) : wordsSep t [] = ws := by
  induction h with
  | done t h => simpa [wordsSep] using wordsSep_seps t [] h
  | word pre w rest ws h1 h2 h3 h4 _ ih =>
    rw [List.append_assoc, wordsSep_seps _ _ h1, wordsSep_word _ _ _ h3]
    simp only [List.nil_append]
    rw [wordsSep_end _ _ h2 h4, ih]

theorem Words_exists (t : Name) : ∃ ws, Words t ws := by
  have key : ∀ n (t : Name), t.length ≤ n → ∃ ws, Words t ws := by
    intro n
    induction n with
    | zero =>
      intro t ht
      have : t = [] := List.eq_nil_of_length_eq_zero (by omega)
      subst this
      exact ⟨[], .done _ (by simp)⟩
    | succ n ih =>
      intro t ht
      -- leading separators
      classical
      have hp : ∀ t : Name, (∀ c ∈ t, IsSep c) ∨ ∃ pre c r, t = pre ++ c :: r ∧ (∀ c ∈ pre, IsSep c) ∧ ¬ IsSep c := by
        intro t
        induction t with
        | nil => left; simp
        | cons x xs ih =>
          by_cases hx : IsSep x
          · rcases ih with h | ⟨pre, c, r, h1, h2, h3⟩
            · left; simpa [hx] using h
            · right; exact ⟨x :: pre, c, r, by simp [h1], by simpa [hx] using h2, h3⟩
          · right; exact ⟨[], x, xs, rfl, by simp, hx⟩
      have hw : ∀ t : Name, ∃ w r, t = w ++ r ∧ (∀ c ∈ w, ¬ IsSep c) ∧ (∀ c, r.head? = some c → IsSep c) := by
        intro t
        induction t with
        | nil => exact ⟨[], [], rfl, by simp, by simp⟩
        | cons x xs ih =>
          by_cases hx : IsSep x
          · exact ⟨[], x :: xs, rfl, by simp, by simpa using hx⟩
          · obtain ⟨w, r, h1, h2, h3⟩ := ih
            exact ⟨x :: w, r, by simp [h1], by simpa [hx] using h2, h3⟩
      rcases hp t with h | ⟨pre, c, r, rfl, h2, h3⟩
      · exact ⟨[], .done t h⟩
      · obtain ⟨w, r', rfl, hw1, hw2⟩ := hw r
        obtain ⟨ws, hws⟩ := ih r' (by simp at ht; omega)
        refine ⟨(c :: w) :: ws, ?_⟩
        have := Words.word pre (c :: w) r' ws h2 (by simp) (by simpa [h3] using hw1) hw2 hws
        simpa using this
  exact key t.length t le_rfl

theorem callShape_exists (s : Name) : ∃ head ws, CallShape s head ws := by
  obtain ⟨h, r, hs⟩ := splitOpen_exists s
  obtain ⟨t, ht⟩ := beforeClose_exists r
  obtain ⟨ws, hw⟩ := Words_exists t
  exact ⟨h, ws, r, t, hs, ht, hw⟩

theorem CallShape.head_eq {s head : Name} {ws : List Name} (h : CallShape s head ws) : parseHead s = head := by
  obtain ⟨r, t, hs, -, -⟩ := h
  exact parseHead_eq hs

theorem CallShape.words_eq {s head : Name} {ws : List Name} (h : CallShape s head ws) :
    tokenizeArguments s = ws := by
  obtain ⟨r, t, hs, ht, hw⟩ := h
  rw [tokenize_eq, argText_eq hs ht, words_of_Words hw]

theorem Words_joinArgs (ws : List Name) (h : ∀ w ∈ ws, CleanArg w) : Words (joinArgs ws) ws := by
  induction ws with
  | nil => exact .done _ (by simp [joinArgs])
  | cons a rest ih =>
    have ha := h a (by simp)
    cases rest with
    | nil =>
      have := Words.word [] a [] [] (by simp) ha.1 ha.2 (by simp) (.done _ (by simp))
      simpa [joinArgs] using this
    | cons b rest =>
      have ih := ih (fun w hw => h w (by simp at hw ⊢; tauto))
      have key : Words (n!", " ++ joinArgs (b :: rest)) (b :: rest) := by
        generalize joinArgs (b :: rest) = x at ih ⊢
        cases ih with
        | word pre w r ws h1 h2 h3 h4 h5 =>
          have := Words.word (n!", " ++ pre) b r rest (by
            intro c hc
            rcases List.mem_append.1 hc with hc | hc
            · simp [IsSep] at hc ⊢; tauto
            · exact h1 c hc) h2 h3 h4 h5
          simpa using this
      have := Words.word [] a (n!", " ++ joinArgs (b :: rest)) (b :: rest) (by simp) ha.1 ha.2
        (by simp [IsSep]) key
      simpa [joinArgs] using this

theorem callShape_callString (name : Name) (ws : List Name) (hn : CleanHead name) (h : ∀ w ∈ ws, CleanArg w) :
    CallShape (callString name ws) name ws :=
  ⟨joinArgs ws ++ [')'], joinArgs ws, Or.inl ⟨by simp [callString], hn⟩,
    Or.inl ⟨[], by simp, by simp⟩, Words_joinArgs ws h⟩

theorem named_iff (table : List Obj) (n : Name) (o : Obj) :
    table.find? (fun o => decide (o.name = n)) = some o ↔ Named table n o := by
  constructor
  · intro h
    rw [List.find?_eq_some_iff_append] at h
    obtain ⟨h1, l1, l2, h2, h3⟩ := h
    exact ⟨l1, l2, h2, by simpa using h1, fun o' ho' => by simpa using h3 o' ho'⟩
  · rintro ⟨l1, l2, h1, h2, h3⟩
    rw [List.find?_eq_some_iff_append]
    exact ⟨by simpa using h2, l1, l2, h1, fun o' ho' => by simpa using h3 o' ho'⟩

theorem lookupObject_ok (table : List Obj) (n : Name) (o : Obj) :
    lookupObject table n = .ok o ↔ Named table n o := by
  rw [← named_iff]
  unfold lookupObject
  cases table.find? (fun o => decide (o.name = n)) <;> simp

theorem lookupObject_cases (table : List Obj) (n : Name) :
    (∃ o, lookupObject table n = .ok o) ∨ lookupObject table n = .exc .runtimeError := by
  unfold lookupObject
  split
  · exact Or.inl ⟨_, rfl⟩
  · exact Or.inr rfl

theorem lookupAll_ok (table : List Obj) (ns : List Name) (os : List Obj) :
    lookupAll table ns = .ok os ↔ List.Forall₂ (Named table) ns os := by
  induction ns generalizing os with
  | nil => cases os <;> simp [lookupAll]
  | cons n ns ih =>
    simp only [lookupAll, Res.bind_eq_ok, Res.pure_eq, Res.ok.injEq, lookupObject_ok, ih, List.forall₂_cons_left_iff]
    constructor
    · rintro ⟨o, ho, os', hos, rfl⟩; exact ⟨o, os', ho, hos, rfl⟩
    · rintro ⟨o, os', ho, hos, rfl⟩; exact ⟨o, ho, os', hos, rfl⟩

theorem lookupAll_cases (table : List Obj) (ns : List Name) :
    (∃ os, lookupAll table ns = .ok os) ∨ lookupAll table ns = .exc .runtimeError := by
  induction ns with
  | nil => exact Or.inl ⟨_, rfl⟩
  | cons n ns ih =>
    rcases lookupObject_cases table n with ⟨o, h⟩ | h
    · rcases ih with ⟨os, h'⟩ | h'
      · exact Or.inl ⟨o :: os, by simp [lookupAll, h, h']⟩
      · exact Or.inr (by simp [lookupAll, h, h'])
    · exact Or.inr (by simp [lookupAll, h])

theorem named_of_mem (table : List Obj) (n : Name) (h : n ∈ table.map Obj.name) : ∃ o, Named table n o := by
  have : (table.find? (fun o => decide (o.name = n))).isSome := by
    simp only [List.find?_isSome, decide_eq_true_eq]
    simpa using h
  obtain ⟨o, ho⟩ := Option.isSome_iff_exists.1 this
  exact ⟨o, (named_iff _ _ _).1 ho⟩

theorem Named.name_eq {table : List Obj} {n : Name} {o : Obj} (h : Named table n o) : o.name = n := h.choose_spec.choose_spec.2.1

theorem Named.mem {table : List Obj} {n : Name} {o : Obj} (h : Named table n o) : o ∈ table := by
  obtain ⟨l1, l2, rfl, -, -⟩ := h
  simp

theorem named_self {table : List Obj} (hu : (table.map Obj.name).Nodup) {o : Obj} (ho : o ∈ table) :
    Named table o.name o := by
  obtain ⟨l1, l2, rfl⟩ := List.append_of_mem ho
  refine ⟨l1, l2, rfl, rfl, fun o' ho' he => ?_⟩
  simp only [List.map_append, List.map_cons, List.nodup_append] at hu
  exact hu.2.2 o'.name (List.mem_map_of_mem ho') o.name (by simp) he

theorem forall₂_names {table : List Obj} {ns : List Name} {os : List Obj}
    (h : List.Forall₂ (Named table) ns os) : os.map Obj.name = ns := by
  induction h with
  | nil => rfl
  | cons h _ ih => simp [h.name_eq, ih]

theorem parseAtom_toString (table : List Obj) (a : Atom) (hp : CleanHead a.pred)
    (ha : ∀ n ∈ a.args, CleanArg n ∧ n ∈ table.map Obj.name) : parseAtom table a.toString = .ok a := by
  have hs := callShape_callString a.pred a.args hp (fun w hw => (ha w hw).1)
  have hex : ∃ os, List.Forall₂ (Named table) a.args os := by
    generalize a.args = ns at ha
    induction ns with
    | nil => exact ⟨[], .nil⟩
    | cons n ns ih =>
      obtain ⟨os, hos⟩ := ih (fun n hn => ha n (by simp [hn]))
      obtain ⟨o, ho⟩ := named_of_mem table n (ha n (by simp)).2
      exact ⟨o :: os, .cons ho hos⟩
  obtain ⟨os, hos⟩ := hex
  simp only [parseAtom, Atom.toString, parseArguments, hs.words_eq, hs.head_eq, (lookupAll_ok _ _ _).2 hos,
    Res.bind_ok, Res.pure_eq, Atom.ofObjs, forall₂_names hos]

end Symbolic
