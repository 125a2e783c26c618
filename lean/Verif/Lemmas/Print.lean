import Verif.Model.Print
import Verif.Spec.Print
import Verif.Lemmas.Parse
import Verif.Lemmas.State

/-!
# Lemmas: what a printed text determines
-/

namespace Symbolic

/-! ## Sorting -/

theorem insertName_perm (a : Name) : ∀ l : List Name, (insertName a l).Perm (a :: l)
  | [] => .refl _
  | b :: l => by
    rw [insertName]
    split
    · exact ((insertName_perm a l).cons b).trans (.swap a b l)
    · exact .refl _

theorem sortNames_perm : ∀ l : List Name, (sortNames l).Perm l
  | [] => .refl _
  | a :: l => (insertName_perm a _).trans ((sortNames_perm l).cons a)

/-- Not greater. -/
def NameLe (a b : Name) : Prop := nameLt b a = false

theorem NameLe.trans {a b c : Name} (h1 : NameLe a b) (h2 : NameLe b c) : NameLe a c := by
  unfold NameLe at *
  cases h : nameLt c a with
  | false => rfl
  | true =>
    rcases nameLt_strictTotal.total a b with h3 | rfl | h3
    · rw [nameLt_strictTotal.trans c a b h h3] at h2
      cases h2
    · rw [h] at h2
      cases h2
    · rw [h3] at h1
      cases h1

theorem NameLe.antisymm {a b : Name} (h1 : NameLe a b) (h2 : NameLe b a) : a = b := by
  unfold NameLe at *
  rcases nameLt_strictTotal.total a b with h | h | h
  · rw [h] at h2; cases h2
  · exact h
  · rw [h] at h1; cases h1

theorem insertName_sorted {a : Name} : ∀ {l : List Name}, l.Pairwise NameLe → (insertName a l).Pairwise NameLe
  | [], _ => by simp [insertName]
  | b :: l, h => by
    rw [List.pairwise_cons] at h
    rw [insertName]
    split
    · rename_i hlt
      rw [List.pairwise_cons]
      refine ⟨?_, insertName_sorted h.2⟩
      intro c hc
      rw [(insertName_perm a l).mem_iff, List.mem_cons] at hc
      rcases hc with rfl | hc
      · unfold NameLe
        cases h' : nameLt c b with
        | false => rfl
        | true =>
          have := nameLt_strictTotal.trans _ _ _ hlt h'
          rw [nameLt_strictTotal.irrefl] at this
          cases this
      · exact h.1 c hc
    · rename_i hlt
      have hle : NameLe a b := by
        unfold NameLe
        cases h' : nameLt b a with
        | false => rfl
        | true => exact absurd h' hlt
      rw [List.pairwise_cons, List.pairwise_cons]
      refine ⟨?_, h⟩
      intro c hc
      rw [List.mem_cons] at hc
      rcases hc with rfl | hc
      · exact hle
      · exact hle.trans (h.1 c hc)

theorem sortNames_sorted : ∀ l : List Name, (sortNames l).Pairwise NameLe
  | [] => .nil
  | _ :: l => insertName_sorted (sortNames_sorted l)

/-- The sorted list depends on the elements only. -/
theorem sortNames_eq {l l' : List Name} (h : l.Perm l') : sortNames l = sortNames l' :=
  ((sortNames_perm l).trans (h.trans (sortNames_perm l').symm)).eq_of_pairwise
    (fun _ _ _ _ h1 h2 => h1.antisymm h2) (sortNames_sorted l) (sortNames_sorted l')

/-! ## Propositions -/

theorem append_cons_inj {c : Char} : ∀ {t t' r r' : Name}, c ∉ t → c ∉ t' → t ++ c :: r = t' ++ c :: r' → t = t' ∧ r = r'
  | [], [], _, _, _, _, h => by simpa using h
  | [], d :: t', _, _, _, h2, h => by
    simp only [List.nil_append, List.cons_append, List.cons.injEq] at h
    simp [h.1] at h2
  | d :: t, [], _, _, h1, _, h => by
    simp only [List.nil_append, List.cons_append, List.cons.injEq] at h
    simp [← h.1] at h1
  | d :: t, d' :: t', _, _, h1, h2, h => by
    simp only [List.cons_append, List.cons.injEq] at h
    simp only [List.mem_cons, not_or] at h1 h2
    obtain ⟨e1, e2⟩ := append_cons_inj h1.2 h2.2 h.2
    exact ⟨by rw [h.1, e1], e2⟩

theorem Atom.PlainText.head {a : Atom} (h : a.PlainText) : CleanHead a.pred := fun hc => (h.1.2 _ hc).2.1 rfl

theorem Atom.PlainText.clean {a : Atom} (h : a.PlainText) : ∀ n ∈ a.args, CleanArg n :=
  fun n hn => ⟨(h.2 n hn).1, fun c hc => ((h.2 n hn).2 c hc).1⟩

theorem close_not_mem_joinArgs : ∀ {l : List Name}, (∀ n ∈ l, PlainName n) → ')' ∉ joinArgs l
  | [], _ => by simp [joinArgs]
  | [a], h => fun hc => ((h a (by simp)).2 _ hc).2.2 rfl
  | a :: b :: l, h => by
    intro hc
    simp only [joinArgs, List.append_assoc, List.mem_append] at hc
    rcases hc with hc | hc | hc
    · exact ((h a (by simp)).2 _ hc).2.2 rfl
    · simp at hc
    · exact close_not_mem_joinArgs (fun n hn => h n (by simp at hn ⊢; tauto)) hc

theorem Atom.toString_eq (a : Atom) : a.toString = (a.pred ++ '(' :: joinArgs a.args) ++ [')'] := by
  simp [Atom.toString, callString]

theorem Atom.PlainText.close {a : Atom} (h : a.PlainText) : ')' ∉ a.pred ++ '(' :: joinArgs a.args := by
  simp only [List.mem_append, List.mem_cons, not_or]
  exact ⟨fun hc => (h.1.2 _ hc).2.2 rfl, by decide, close_not_mem_joinArgs h.2⟩

theorem Atom.toString_inj {a b : Atom} (ha : a.PlainText) (hb : b.PlainText) (h : a.toString = b.toString) : a = b := by
  have h1 := callShape_callString a.pred a.args ha.head ha.clean
  have h2 := callShape_callString b.pred b.args hb.head hb.clean
  have e : callString a.pred a.args = callString b.pred b.args := h
  rw [e] at h1
  have hp : a.pred = b.pred := h1.head_eq.symm.trans h2.head_eq
  have hargs : a.args = b.args := h1.words_eq.symm.trans h2.words_eq
  cases a; cases b; simp_all

/-- A proposition can be read off the beginning of a text. -/
theorem Atom.toString_append {a b : Atom} {r r' : Name} (ha : a.PlainText) (hb : b.PlainText)
    (h : a.toString ++ r = b.toString ++ r') : a = b ∧ r = r' := by
  rw [toString_eq, toString_eq] at h
  obtain ⟨h1, h2⟩ := append_cons_inj (c := ')') (r := r) (r' := r') ha.close hb.close (by simpa using h)
  exact ⟨toString_inj ha hb (by rw [toString_eq, toString_eq, h1]), h2⟩

/-- The first character of a printed proposition is not white space. -/
theorem Atom.PlainText.start {a : Atom} (h : a.PlainText) : ∃ c r, a.toString = c :: r ∧ ¬ IsSep c ∧ c ≠ ')' := by
  rw [Atom.toString_eq]
  have := h.1.1
  cases hp : a.pred with
  | nil => exact absurd hp this
  | cons c r =>
    have := h.1.2 c (by simp [hp])
    exact ⟨c, _, rfl, this.1, this.2.2⟩

/-- No printed proposition begins with `not` and a blank. -/
theorem Atom.PlainText.not_not {a : Atom} (h : a.PlainText) (r r' : Name) : a.toString ++ r ≠ n!"not " ++ r' := by
  rw [Atom.toString_eq]
  intro he
  have key : ∀ c ∈ a.pred, c ≠ ' ' := fun c hc e => (h.1.2 c hc).1 (by rw [e]; exact .inr (.inl rfl))
  revert he
  match hp : a.pred with
  | [] => simp
  | [_] => simp
  | [_, _] => simp
  | [_, _, _] => simp
  | _ :: _ :: _ :: d :: t =>
    have := key d (by simp [hp])
    simp [this]

/-! ## Lines -/

theorem printLines_nil (pre : Name) : printLines pre [] = [] := rfl

theorem printLines_cons (pre : Name) (a : Atom) (l : List Atom) :
    printLines pre (a :: l) = pre ++ (a.toString ++ ('\n' :: printLines pre l)) := by
  simp [printLines]

/-- Lines with the same beginning can be read off a text, if what follows is no such line. -/
theorem printLines_append {pre : Name} : ∀ {l l' : List Atom} {u u' : Name}, (∀ a ∈ l, a.PlainText) → (∀ a ∈ l', a.PlainText) →
    (∀ (a : Atom) (w : Name), a.PlainText → u ≠ pre ++ (a.toString ++ w)) → (∀ (a : Atom) (w : Name), a.PlainText → u' ≠ pre ++ (a.toString ++ w)) →
    printLines pre l ++ u = printLines pre l' ++ u' → l = l' ∧ u = u'
  | [], [], _, _, _, _, _, _, h => by simpa [printLines] using h
  | [], a :: l', u, u', _, h2, h3, _, h => by
    simp only [printLines_nil, printLines_cons, List.nil_append, List.append_assoc] at h
    exact absurd h (h3 a _ (h2 a (by simp)))
  | a :: l, [], u, u', h1, _, _, h4, h => by
    simp only [printLines_nil, printLines_cons, List.nil_append, List.append_assoc] at h
    exact absurd h.symm (h4 a _ (h1 a (by simp)))
  | a :: l, b :: l', u, u', h1, h2, h3, h4, h => by
    simp only [printLines_cons, List.append_assoc, List.append_cancel_left_eq] at h
    obtain ⟨rfl, h'⟩ := Atom.toString_append (h1 a (by simp)) (h2 b (by simp)) h
    simp only [List.cons_append, List.cons.injEq, true_and] at h'
    obtain ⟨rfl, e⟩ := printLines_append (fun c hc => h1 c (by simp [hc])) (fun c hc => h2 c (by simp [hc])) h3 h4 h'
    exact ⟨rfl, e⟩

/-- The two groups of lines of a conjunction, and what follows. -/
theorem printConj_append {pre tail : Name} {p p' n n' : List Atom} {r r' : Name} (htail : ∀ a w w', Atom.PlainText a →
    tail ++ w ≠ pre ++ (a.toString ++ w')) (htail' : ∀ w w', tail ++ w ≠ pre ++ (n!"not " ++ w'))
    (hp : ∀ a ∈ p, a.PlainText) (hp' : ∀ a ∈ p', a.PlainText) (hn : ∀ a ∈ n, a.PlainText) (hn' : ∀ a ∈ n', a.PlainText)
    (h : printLines pre p ++ (printLines (pre ++ n!"not ") n ++ (tail ++ r)) =
      printLines pre p' ++ (printLines (pre ++ n!"not ") n' ++ (tail ++ r'))) : p = p' ∧ n = n' ∧ r = r' := by
  have side : ∀ (n : List Atom) (r : Name), (∀ a ∈ n, a.PlainText) → ∀ (a : Atom) (w : Name), a.PlainText →
      printLines (pre ++ n!"not ") n ++ (tail ++ r) ≠ pre ++ (a.toString ++ w) := by
    intro n r hn a w ha he
    cases n with
    | nil => exact htail a r w ha (by simpa [printLines] using he)
    | cons b n =>
      simp only [printLines_cons, List.append_assoc, List.append_cancel_left_eq] at he
      exact ha.not_not _ _ he.symm
  obtain ⟨h1, h2⟩ := printLines_append hp hp' (side n r hn) (side n' r' hn') h
  have side' : ∀ r : Name, ∀ (a : Atom) (w : Name), a.PlainText → tail ++ r ≠ (pre ++ n!"not ") ++ (a.toString ++ w) := by
    intro r a w _ he
    rw [List.append_assoc] at he
    exact htail' _ _ he
  obtain ⟨h3, h4⟩ := printLines_append hn hn' (side' r) (side' r') h2
  exact ⟨h1, h3, List.append_cancel_left h4⟩

/-- Propositions separated by commas, up to the end of a state. -/
theorem joinArgs_append : ∀ {l l' : List Name} {r r' : Name}, (∀ s ∈ l, ∃ a : Atom, a.PlainText ∧ s = a.toString) →
    (∀ s ∈ l', ∃ a : Atom, a.PlainText ∧ s = a.toString) → joinArgs l ++ (' ' :: r) = joinArgs l' ++ (' ' :: r') →
    l = l' ∧ r = r'
  | [], [], _, _, _, _, h => by simpa [joinArgs] using h
  | [], s :: l', r, r', _, h2, h => by
    exfalso
    obtain ⟨a, ha, rfl⟩ := h2 _ (List.mem_cons_self)
    obtain ⟨c, t, hc, hs, _⟩ := ha.start
    cases l' <;> simp only [joinArgs, hc, List.nil_append, List.cons_append, List.cons.injEq] at h <;>
      exact hs (by rw [← h.1]; exact .inr (.inl rfl))
  | s :: l, [], r, r', h1, _, h => by
    exfalso
    obtain ⟨a, ha, rfl⟩ := h1 _ (List.mem_cons_self)
    obtain ⟨c, t, hc, hs, _⟩ := ha.start
    cases l <;> simp only [joinArgs, hc, List.nil_append, List.cons_append, List.cons.injEq] at h <;>
      exact hs (by rw [h.1]; exact .inr (.inl rfl))
  | [s], [s'], r, r', h1, h2, h => by
    obtain ⟨a, ha, rfl⟩ := h1 _ (List.mem_cons_self)
    obtain ⟨b, hb, rfl⟩ := h2 _ (List.mem_cons_self)
    simp only [joinArgs] at h
    obtain ⟨rfl, e⟩ := Atom.toString_append ha hb h
    simpa using e
  | [s], s' :: t' :: l', r, r', h1, h2, h => by
    exfalso
    obtain ⟨a, ha, rfl⟩ := h1 _ (List.mem_cons_self)
    obtain ⟨b, hb, rfl⟩ := h2 _ (List.mem_cons_self)
    simp only [joinArgs, List.append_assoc] at h
    obtain ⟨-, e⟩ := Atom.toString_append ha hb h
    simp at e
  | s :: t :: l, [s'], r, r', h1, h2, h => by
    exfalso
    obtain ⟨a, ha, rfl⟩ := h1 _ (List.mem_cons_self)
    obtain ⟨b, hb, rfl⟩ := h2 _ (List.mem_cons_self)
    simp only [joinArgs, List.append_assoc] at h
    obtain ⟨-, e⟩ := Atom.toString_append ha hb h
    simp at e
  | s :: t :: l, s' :: t' :: l', r, r', h1, h2, h => by
    obtain ⟨a, ha, rfl⟩ := h1 _ (List.mem_cons_self)
    obtain ⟨b, hb, rfl⟩ := h2 _ (List.mem_cons_self)
    simp only [joinArgs, List.append_assoc] at h
    obtain ⟨rfl, e⟩ := Atom.toString_append ha hb h
    simp only [List.append_cancel_left_eq] at e
    obtain ⟨e1, e2⟩ := joinArgs_append (fun x hx => h1 x (List.mem_cons_of_mem _ hx))
      (fun x hx => h2 x (List.mem_cons_of_mem _ hx)) e
    exact ⟨by rw [e1], e2⟩

/-! ## States -/

/-- A printed state, from its propositions. -/
def printAtoms (l : List Atom) : Name := n!"{ " ++ joinArgs (sortNames (l.map Atom.toString)) ++ n!" }"

theorem State.print_eq [StrHash] (s : State) : s.print = printAtoms s.elems := rfl

theorem printAtoms_eq {l l' : List Atom} (hl : l.Nodup) (hl' : l'.Nodup) (hp : ∀ a ∈ l, a.PlainText) (hp' : ∀ a ∈ l', a.PlainText) :
    printAtoms l = printAtoms l' ↔ ∀ a, a ∈ l ↔ a ∈ l' := by
  constructor
  · intro h
    simp only [printAtoms, List.append_assoc, List.append_cancel_left_eq] at h
    have texts : ∀ l : List Atom, (∀ a ∈ l, a.PlainText) → ∀ x ∈ sortNames (l.map Atom.toString),
        ∃ a : Atom, a.PlainText ∧ x = a.toString := by
      intro l hl x hx
      rw [(sortNames_perm _).mem_iff, List.mem_map] at hx
      obtain ⟨a, ha, rfl⟩ := hx
      exact ⟨a, hl a ha, rfl⟩
    obtain ⟨e, -⟩ := joinArgs_append (texts _ hp) (texts _ hp') h
    have hm : ∀ x, x ∈ l.map Atom.toString ↔ x ∈ l'.map Atom.toString := by
      intro x
      rw [← (sortNames_perm _).mem_iff, e, (sortNames_perm _).mem_iff]
    intro a
    constructor
    · intro ha
      obtain ⟨b, hb, e⟩ := List.mem_map.1 ((hm a.toString).1 (List.mem_map.2 ⟨a, ha, rfl⟩))
      rwa [← Atom.toString_inj (hp' b hb) (hp a ha) e]
    · intro ha
      obtain ⟨b, hb, e⟩ := List.mem_map.1 ((hm a.toString).2 (List.mem_map.2 ⟨a, ha, rfl⟩))
      rwa [← Atom.toString_inj (hp b hb) (hp' a ha) e]
  · intro h
    have hperm : l.Perm l' := (List.perm_ext_iff_of_nodup hl hl').2 h
    rw [printAtoms, printAtoms, sortNames_eq (hperm.map Atom.toString)]

/-! ## Partial states and normal forms -/

section
variable [StrHash]

theorem PartialState.Plain.eq {s t : PartialState} (h1 : s.pos.elems = t.pos.elems) (h2 : s.neg.elems = t.neg.elems) : s = t := by
  have e1 : s.pos = t.pos := State.ext fun a => by rw [← State.mem_elems, h1, State.mem_elems]
  have e2 : s.neg = t.neg := State.ext fun a => by rw [← State.mem_elems, h2, State.mem_elems]
  cases s; cases t; simp_all

theorem Dnf.print_append : ∀ {d d' : Dnf} {r r' : Name}, (∀ s ∈ d, s.Plain) → (∀ s ∈ d', s.Plain) →
    d.flatMap printConj ++ (n!")\n" ++ r) = d'.flatMap printConj ++ (n!")\n" ++ r') → d = d' ∧ r = r'
  | [], [], _, _, _, _, h => by simpa using h
  | [], s :: d', _, _, _, _, h => by simp [printConj] at h
  | s :: d, [], _, _, _, _, h => by simp [printConj] at h
  | s :: d, t :: d', r, r', h1, h2, h => by
    simp only [List.flatMap_cons, printConj, List.append_assoc, List.append_cancel_left_eq] at h
    have hs := h1 s (by simp)
    have ht := h2 t (by simp)
    obtain ⟨e1, e2, e3⟩ := printConj_append (pre := n!"        ") (tail := n!"    )\n") (by simp) (by simp)
      (fun a ha => hs.1 a (State.mem_elems.1 ha)) (fun a ha => ht.1 a (State.mem_elems.1 ha))
      (fun a ha => hs.2 a (State.mem_elems.1 ha)) (fun a ha => ht.2 a (State.mem_elems.1 ha)) h
    cases PartialState.Plain.eq e1 e2
    obtain ⟨e4, e5⟩ := Dnf.print_append (fun x hx => h1 x (by simp [hx])) (fun x hx => h2 x (by simp [hx])) e3
    exact ⟨by rw [e4], e5⟩

theorem printCnf_append : ∀ {d d' : List PartialState} {r r' : Name}, (∀ s ∈ d, s.Plain) → (∀ s ∈ d', s.Plain) →
    d.flatMap printDisj ++ (n!")\n" ++ r) = d'.flatMap printDisj ++ (n!")\n" ++ r') → d = d' ∧ r = r'
  | [], [], _, _, _, _, h => by simpa using h
  | [], s :: d', _, _, _, _, h => by simp [printDisj] at h
  | s :: d, [], _, _, _, _, h => by simp [printDisj] at h
  | s :: d, t :: d', r, r', h1, h2, h => by
    simp only [List.flatMap_cons, printDisj, List.append_assoc, List.append_cancel_left_eq] at h
    have hs := h1 s (by simp)
    have ht := h2 t (by simp)
    obtain ⟨e1, e2, e3⟩ := printConj_append (pre := n!"        ") (tail := n!"    )\n") (by simp) (by simp)
      (fun a ha => hs.1 a (State.mem_elems.1 ha)) (fun a ha => ht.1 a (State.mem_elems.1 ha))
      (fun a ha => hs.2 a (State.mem_elems.1 ha)) (fun a ha => ht.2 a (State.mem_elems.1 ha)) h
    cases PartialState.Plain.eq e1 e2
    obtain ⟨e4, e5⟩ := printCnf_append (fun x hx => h1 x (by simp [hx])) (fun x hx => h2 x (by simp [hx])) e3
    exact ⟨by rw [e4], e5⟩

end

end Symbolic
