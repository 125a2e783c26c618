import Verif.Model.NormalForm
import Verif.Spec.Normal
import Verif.Lemmas.State
import Verif.Lemmas.Object
import Verif.Lemmas.Formula
import Mathlib.Data.List.Perm.Subperm

/-!
Lemmas on normal forms: every step of `Simplify`, `Conjoin`, `Disjoin` and `Negate` preserves meaning.
-/

namespace Symbolic

variable [StrHash]

/-! ## Sorting -/

theorem mem_sortInsert {x y : PartialState} {l : List PartialState} :
    y ∈ sortInsert x l ↔ y = x ∨ y ∈ l := by
  induction l with
  | nil => simp [sortInsert]
  | cons z l ih =>
    unfold sortInsert
    split
    · simp only [List.mem_cons, ih]; tauto
    · simp

theorem mem_sortList {y : PartialState} {l : List PartialState} : y ∈ sortList l ↔ y ∈ l := by
  induction l with
  | nil => simp [sortList]
  | cons x l ih => simp [sortList, mem_sortInsert, ih]

theorem mem_uniqueList {y : PartialState} : ∀ {l : List PartialState}, y ∈ uniqueList l ↔ y ∈ l
  | [] => by simp [uniqueList]
  | [x] => by simp [uniqueList]
  | x :: z :: rest => by
    unfold uniqueList
    split
    · rename_i h
      rw [PartialState.beq_iff] at h
      subst h
      rw [mem_uniqueList]; simp
    · rw [List.mem_cons, mem_uniqueList, List.mem_cons (a := y) (b := x)]

theorem mem_sortUnique {y : PartialState} {l : List PartialState} : y ∈ sortUnique l ↔ y ∈ l := by
  rw [sortUnique, mem_uniqueList, mem_sortList]

theorem sortInsert_sorted {x : PartialState} {l : List PartialState}
    (h : l.Pairwise (fun a b => b.lt a = false)) : (sortInsert x l).Pairwise (fun a b => b.lt a = false) := by
  have T := PartialState.lt_strictTotal
  induction l with
  | nil => simp [sortInsert]
  | cons z l ih =>
    rw [List.pairwise_cons] at h
    unfold sortInsert
    split
    · rename_i hz
      rw [List.pairwise_cons]
      refine ⟨fun b hb => ?_, ih h.2⟩
      rcases mem_sortInsert.1 hb with rfl | hb
      · cases hlt : b.lt z with
        | false => rfl
        | true =>
          have := T.trans _ _ _ hlt hz
          rw [T.irrefl] at this; simp at this
      · exact h.1 b hb
    · rename_i hz
      have hz' : z.lt x = false := by simpa using hz
      rw [List.pairwise_cons]
      refine ⟨fun b hb => ?_, List.pairwise_cons.2 h⟩
      rcases List.mem_cons.1 hb with rfl | hb
      · exact hz'
      · cases hlt : b.lt x with
        | false => rfl
        | true =>
          have hzb := h.1 b hb
          rcases T.total z b with h1 | h1 | h1
          · rw [T.trans _ _ _ h1 hlt] at hz'; simp at hz'
          · subst h1; rw [hlt] at hz'; simp at hz'
          · rw [h1] at hzb; simp at hzb

theorem sortList_sorted (l : List PartialState) : (sortList l).Pairwise (fun a b => b.lt a = false) := by
  induction l with
  | nil => simp [sortList]
  | cons x l ih => exact sortInsert_sorted ih

theorem uniqueList_sorted : ∀ {l : List PartialState}, l.Pairwise (fun a b => b.lt a = false) →
    (uniqueList l).Pairwise (fun a b => a.lt b = true)
  | [], _ => by simp [uniqueList]
  | [x], _ => by simp [uniqueList]
  | x :: z :: rest, h => by
    have T := PartialState.lt_strictTotal
    rw [List.pairwise_cons] at h
    unfold uniqueList
    split
    · exact uniqueList_sorted h.2
    · rename_i hne
      rw [List.pairwise_cons]
      refine ⟨fun b hb => ?_, uniqueList_sorted h.2⟩
      rw [mem_uniqueList] at hb
      have hxz : x.lt z = true := by
        rcases T.total x z with h1 | h1 | h1
        · exact h1
        · exact absurd (PartialState.beq_iff.2 h1) hne
        · rw [h.1 z (by simp)] at h1; simp at h1
      rcases List.mem_cons.1 hb with rfl | hb
      · exact hxz
      · have hzb := (List.pairwise_cons.1 h.2).1 b hb
        rcases T.total z b with h1 | h1 | h1
        · exact T.trans _ _ _ hxz h1
        · subst h1; exact hxz
        · rw [hzb] at h1; simp at h1

theorem sortUnique_sorted (l : List PartialState) : (sortUnique l).Pairwise (fun a b => a.lt b = true) :=
  uniqueList_sorted (sortList_sorted l)

/-! ## Subsumption -/

theorem Subsumes.size_le {c d : PartialState} (h : Subsumes c d) : c.size ≤ d.size := by
  have key : ∀ s t : State, (∀ a ∈ s, a ∈ t) → s.size ≤ t.size := by
    intro s t hst
    rw [State.size_eq, State.size_eq]
    exact (List.subperm_of_subset s.elems_nodup (fun a ha => State.mem_elems.2 (hst a (State.mem_elems.1 ha)))).length_le
  have h1 := key _ _ h.1
  have h2 := key _ _ h.2
  unfold PartialState.size
  omega

theorem isSubset_iff {c d : PartialState} : isSubset c d = true ↔ Subsumes c d := by
  unfold isSubset
  split
  · rename_i h
    simp only [Bool.false_eq_true, false_iff]
    intro hs
    have := hs.size_le
    omega
  · simp only [Bool.and_eq_true, List.all_eq_true, State.mem_elems, State.contains_eq, decide_eq_true_eq]
    exact Iff.rfl

theorem Subsumes.conjTrue {objects : List Obj} {S : Atom → Prop} {c d : PartialState} (h : Subsumes c d)
    (hd : ConjTrue objects S d) : ConjTrue objects S c :=
  ⟨fun a ha => hd.1 a (h.1 a ha), fun a ha => hd.2 a (h.2 a ha)⟩

/-- No conjunction of the list subsumes a different one. -/
def Antichain (l : List PartialState) : Prop := ∀ a ∈ l, ∀ b ∈ l, Subsumes a b → a = b

/-- The list after the conjunction was inserted or appended. -/
def insertConj (conj : PartialState) (l : List PartialState) : List PartialState :=
  if (tryInsertSubset conj l).1 then (tryInsertSubset conj l).2 else (tryInsertSubset conj l).2 ++ [conj]

theorem insertConj_spec (conj : PartialState) (l : List PartialState) (hl : Antichain l) :
    Antichain (insertConj conj l) ∧ (∀ c ∈ insertConj conj l, c = conj ∨ c ∈ l) ∧ insertConj conj l ≠ [] ∧
    ∀ objects S, SomeTrue objects S (insertConj conj l) ↔ SomeTrue objects S l ∨ ConjTrue objects S conj := by
  unfold insertConj tryInsertSubset
  by_cases h1 : l.any (fun c => isSubset c conj) = true
  · simp only [h1, if_true]
    obtain ⟨c, hc, hs⟩ := List.any_eq_true.1 h1
    rw [isSubset_iff] at hs
    refine ⟨hl, fun c hc => Or.inr hc, fun h0 => by simp [h0] at hc, fun objects S => ⟨Or.inl, ?_⟩⟩
    rintro (h | h)
    · exact h
    · exact ⟨c, hc, hs.conjTrue h⟩
  · have h1' : ∀ c ∈ l, ¬ Subsumes c conj := by
      intro c hc hs
      exact h1 (List.any_eq_true.2 ⟨c, hc, isSubset_iff.2 hs⟩)
    rw [if_neg h1]
    by_cases h2 : l.any (fun c => isSubset conj c) = true
    · simp only [h2, if_true]
      have hmem : ∀ y, y ∈ sortUnique (l.map (fun c => if isSubset conj c then conj else c)) ↔
          y = conj ∨ (y ∈ l ∧ ¬ Subsumes conj y) := by
        intro y
        rw [mem_sortUnique, List.mem_map]
        constructor
        · rintro ⟨c, hc, rfl⟩
          by_cases hs : isSubset conj c = true
          · left; rw [if_pos hs]
          · right; rw [if_neg hs]; exact ⟨hc, fun h => hs (isSubset_iff.2 h)⟩
        · rintro (rfl | ⟨hy, hn⟩)
          · obtain ⟨c, hc, hs⟩ := List.any_eq_true.1 h2
            exact ⟨c, hc, by rw [if_pos hs]⟩
          · exact ⟨y, hy, by rw [if_neg (fun h => hn (isSubset_iff.1 h))]⟩
      refine ⟨?_, ?_, ?_, ?_⟩
      · intro a ha b hb hab
        rw [hmem] at ha hb
        rcases ha with rfl | ⟨ha, hna⟩ <;> rcases hb with rfl | ⟨hb, hnb⟩
        · rfl
        · exact absurd hab hnb
        · exact absurd hab (h1' a ha)
        · exact hl a ha b hb hab
      · intro c hc
        rcases (hmem c).1 hc with h | h
        · exact Or.inl h
        · exact Or.inr h.1
      · intro h0
        have := (hmem conj).2 (Or.inl rfl)
        rw [h0] at this; simp at this
      · intro objects S
        constructor
        · rintro ⟨c, hc, ht⟩
          rcases (hmem c).1 hc with rfl | h
          · exact Or.inr ht
          · exact Or.inl ⟨c, h.1, ht⟩
        · rintro (⟨c, hc, ht⟩ | h)
          · by_cases hs : Subsumes conj c
            · exact ⟨conj, (hmem _).2 (Or.inl rfl), hs.conjTrue ht⟩
            · exact ⟨c, (hmem _).2 (Or.inr ⟨hc, hs⟩), ht⟩
          · exact ⟨conj, (hmem _).2 (Or.inl rfl), h⟩
    · have h2' : ∀ c ∈ l, ¬ Subsumes conj c := by
        intro c hc hs
        exact h2 (List.any_eq_true.2 ⟨c, hc, isSubset_iff.2 hs⟩)
      rw [if_neg h2]
      simp only [Bool.false_eq_true, if_false, List.mem_append, List.mem_singleton]
      refine ⟨?_, fun c hc => hc.symm, by simp, ?_⟩
      · intro a ha b hb hab
        simp only [List.mem_append, List.mem_singleton] at ha hb
        rcases ha with ha | rfl <;> rcases hb with hb | rfl
        · exact hl a ha b hb hab
        · exact absurd hab (h1' a ha)
        · exact absurd hab (h2' b hb)
        · rfl
      · intro objects S
        simp only [SomeTrue, List.mem_append, List.mem_singleton]
        constructor
        · rintro ⟨c, hc | rfl, ht⟩
          · exact Or.inl ⟨c, hc, ht⟩
          · exact Or.inr ht
        · rintro (⟨c, hc, ht⟩ | ht)
          · exact ⟨c, Or.inl hc, ht⟩
          · exact ⟨conj, Or.inr rfl, ht⟩

/-! ## Evaluating single literals -/

omit [StrHash] in
/-- The object a declared name stands for. -/
theorem objOf_spec {objects : List Obj} {m : ObjMap} {n : Name} (hn : n ∈ objects.map Obj.name) :
    NfCtx.objOf ⟨objects, m, []⟩ n ∈ objects ∧ (NfCtx.objOf ⟨objects, m, []⟩ n).name = n := by
  unfold NfCtx.objOf
  simp only [List.nil_append]
  cases hf : objects.find? (fun o => decide (o.name = n)) with
  | none =>
    rw [List.find?_eq_none] at hf
    obtain ⟨o, ho, hon⟩ := List.mem_map.1 hn
    exact absurd (hf o ho) (by simp [hon])
  | some o =>
    have h1 := List.mem_of_find?_eq_some hf
    have h2 := List.find?_some hf
    exact ⟨h1, by simpa using h2⟩

omit [StrHash] in
theorem name_inj {objects : List Obj} (hnd : (objects.map Obj.name).Nodup) {o o' : Obj} (ho : o ∈ objects)
    (ho' : o' ∈ objects) (h : o.name = o'.name) : o = o' :=
  List.inj_on_of_nodup_map hnd ho ho' h

omit [StrHash] in
theorem Atom.Ground.evaluateEquals {objects : List Obj} {a : Atom} (h : a.Ground objects) :
    (a.pred ≠ n!"=" ∧ Symbolic.evaluateEquals ⟨objects, ObjMap.create objects, []⟩ a = .ok none) ∨
    (a.pred = n!"=" ∧ ∃ b, Symbolic.evaluateEquals ⟨objects, ObjMap.create objects, []⟩ a = .ok (some b) ∧ ∀ S, b = true ↔ AtomTrue objects S a) := by
  by_cases he : a.pred = n!"="
  · right
    refine ⟨he, ?_⟩
    have hl := h.eq he
    rcases a with ⟨p, args⟩
    match args, hl with
    | [x, y], _ =>
      simp only at he
      subst he
      refine ⟨decide (x = y), by simp [Symbolic.evaluateEquals, Res.index, NfCtx.isVar], fun S => ?_⟩
      simp only [AtomTrue, decide_eq_true_eq, true_and, ne_eq, not_true_eq_false, false_and, or_false]
      constructor
      · rintro rfl; exact ⟨x, rfl⟩
      · rintro ⟨z, hz⟩; simp at hz; rw [hz.1, hz.2]
  · left; exact ⟨he, by simp [Symbolic.evaluateEquals, he]⟩

omit [StrHash] in
theorem Atom.Ground.evaluateType {objects : List Obj} (hnd : (objects.map Obj.name).Nodup) {a : Atom}
    (h : a.Ground objects) (he : a.pred ≠ n!"=") :
    ∃ e, Symbolic.evaluateType ⟨objects, ObjMap.create objects, []⟩ a = .ok e ∧
      ∀ b, e = some b → ∀ S, b = true ↔ AtomTrue objects S a := by
  by_cases ht : IsType objects a.pred
  · have hl := h.type he ht
    rcases a with ⟨p, args⟩
    match args, hl with
    | [x], _ =>
      have hx := h.declared x (by simp)
      obtain ⟨h1, h2⟩ := objOf_spec (m := ObjMap.create objects) hx
      have hm : (ObjMap.create objects).has p = true := (ObjMap.has_create objects p).2 ht
      refine ⟨some ((NfCtx.objOf ⟨objects, ObjMap.create objects, []⟩ x).isSubtype p),
        by simp [Symbolic.evaluateType, hm, Res.index], ?_⟩
      rintro b hb S
      simp only [Option.some.injEq] at hb
      subst hb
      rw [Obj.isSubtype_iff]
      simp only [AtomTrue]
      constructor
      · intro hh
        exact Or.inr (Or.inl ⟨he, ht, _, h1, by rw [h2], hh⟩)
      · rintro (⟨h3, -⟩ | ⟨-, -, o, ho, hox, hot⟩ | ⟨-, h3, -⟩)
        · exact absurd h3 he
        · simp only [List.cons.injEq, and_true] at hox
          rw [name_inj hnd h1 ho (by rw [h2, hox])]
          exact hot
        · exact absurd ht h3
  · have hm : (ObjMap.create objects).has a.pred = false := by
      cases hh : (ObjMap.create objects).has a.pred with
      | false => rfl
      | true => exact absurd ((ObjMap.has_create objects _).1 hh) ht
    exact ⟨none, by simp [Symbolic.evaluateType, hm], by simp⟩

theorem single_cases {c : PartialState} (h : c.size = 1) :
    (∃ a, c.pos.elems = [a] ∧ c.neg.isEmpty = true ∧ c.neg.elems = []) ∨
    (∃ a, c.neg.elems = [a] ∧ c.neg.isEmpty = false ∧ c.pos.elems = []) := by
  unfold PartialState.size at h
  have hp := State.size_eq c.pos
  have hn := State.size_eq c.neg
  have hie : c.neg.isEmpty = decide (c.neg.size = 0) := by
    rfl
  by_cases h0 : c.neg.size = 0
  · left
    have h1 : c.pos.elems.length = 1 := by omega
    obtain ⟨a, ha⟩ := List.length_eq_one_iff.1 h1
    exact ⟨a, ha, by rw [hie]; simp [h0], List.length_eq_zero_iff.1 (by omega)⟩
  · right
    have h1 : c.neg.elems.length = 1 := by omega
    obtain ⟨a, ha⟩ := List.length_eq_one_iff.1 h1
    exact ⟨a, ha, by rw [hie]; simp [h0], List.length_eq_zero_iff.1 (by omega)⟩

/-- What `Evaluate` says about a conjunction. -/
theorem evaluateConj_spec {objects : List Obj} (hnd : (objects.map Obj.name).Nodup) {c : PartialState}
    (hg : ConjGround objects c) :
    ∃ e, evaluateConj ⟨objects, ObjMap.create objects, []⟩ c = .ok e ∧
      (e = some true → ∀ S, ConjTrue objects S c) ∧ (e = some false → ∀ S, ¬ ConjTrue objects S c) ∧
      (e = none → Consistent c) := by
  have hfin : ∃ e, (pure (if c.isConsistent then none else some false) : Res (Option Bool)) = .ok e ∧
      (e = some true → ∀ S, ConjTrue objects S c) ∧ (e = some false → ∀ S, ¬ ConjTrue objects S c) ∧
      (e = none → Consistent c) := by
    refine ⟨_, rfl, ?_, ?_, ?_⟩
    · split <;> simp
    · split
      · simp
      · rename_i h
        intro _ S ht
        apply h
        rw [PartialState.isConsistent_iff]
        intro a ha hn
        exact ht.2 a hn (ht.1 a ha)
    · split
      · rename_i h
        intro _
        exact PartialState.isConsistent_iff.1 h
      · simp
  by_cases hs : c.size = 1
  · rcases single_cases hs with ⟨a, hpos, hie, hneg⟩ | ⟨a, hneg, hie, hpos⟩
    · have ha : a ∈ c.pos := State.mem_elems.1 (by simp [hpos])
      have hct : ∀ S, ConjTrue objects S c ↔ AtomTrue objects S a := by
        intro S
        simp only [ConjTrue]
        simp only [← State.mem_elems, hpos, hneg, List.mem_singleton, forall_eq, List.not_mem_nil, false_imp_iff,
          implies_true, and_true]
      have hga := hg.1 a ha
      unfold evaluateConj
      simp only [hs, if_true, evaluateSingle, hie, hpos, Res.index,
        List.getElem?_cons_zero, Res.bind_ok]
      rcases hga.evaluateEquals with ⟨he, h1⟩ | ⟨he, b, h1, h2⟩
      · simp only [h1, Res.bind_ok]
        obtain ⟨e, h3, h4⟩ := hga.evaluateType hnd he
        simp only [h3, Res.bind_ok]
        cases e with
        | none => exact hfin
        | some b =>
          refine ⟨some b, rfl, ?_, ?_, by simp⟩
          · rintro hb S; cases hb; exact (hct S).2 ((h4 true rfl S).1 rfl)
          · rintro hb S; cases hb; rw [hct S, ← h4 false rfl S]; simp
      · simp only [h1, Res.bind_ok]
        refine ⟨some b, rfl, ?_, ?_, by simp⟩
        · rintro hb S; cases hb; exact (hct S).2 ((h2 S).1 rfl)
        · rintro hb S; cases hb; rw [hct S, ← h2 S]; simp
    · have ha : a ∈ c.neg := State.mem_elems.1 (by simp [hneg])
      have hct : ∀ S, ConjTrue objects S c ↔ ¬ AtomTrue objects S a := by
        intro S
        simp only [ConjTrue]
        simp only [← State.mem_elems, hpos, hneg, List.mem_singleton, forall_eq, List.not_mem_nil, false_imp_iff,
          implies_true, true_and]
      have hga := hg.2 a ha
      unfold evaluateConj
      simp only [hs, if_true, evaluateSingle, hie, hneg, Res.index,
        List.getElem?_cons_zero, Res.bind_ok, Bool.false_eq_true, if_false]
      rcases hga.evaluateEquals with ⟨he, h1⟩ | ⟨he, b, h1, h2⟩
      · simp only [h1, Res.bind_ok, Option.map_none, Res.pure_eq]
        obtain ⟨e, h3, h4⟩ := hga.evaluateType hnd he
        simp only [h3, Res.bind_ok]
        cases e with
        | none => exact hfin
        | some b =>
          refine ⟨some (!b), rfl, ?_, ?_, by simp⟩
          · rintro hb S
            simp only [Option.some.injEq, Bool.not_eq_true'] at hb
            subst hb
            rw [hct S, ← h4 false rfl S]; simp
          · rintro hb S
            simp only [Option.some.injEq, Bool.not_eq_false'] at hb
            subst hb
            rw [hct S, ← h4 true rfl S]; simp
      · simp only [h1, Res.bind_ok, Option.map_some, Res.pure_eq]
        refine ⟨some (!b), rfl, ?_, ?_, by simp⟩
        · rintro hb S
          simp only [Option.some.injEq, Bool.not_eq_true'] at hb
          subst hb
          rw [hct S, ← h2 S]; simp
        · rintro hb S
          simp only [Option.some.injEq, Bool.not_eq_false'] at hb
          subst hb
          rw [hct S, ← h2 S]; simp
  · unfold evaluateConj
    simp only [hs, if_false, Res.pure_eq, Res.bind_ok]
    simpa using hfin

/-! ## Simplify -/

theorem simplifyLoop_spec {objects : List Obj} (hnd : (objects.map Obj.name).Nodup) :
    ∀ (l ret : List PartialState), (∀ c ∈ l, ConjGround objects c) → Antichain ret → (∀ c ∈ ret, Consistent c) →
    ∃ r, simplifyLoop ⟨objects, ObjMap.create objects, []⟩ l ret = .ok r ∧
      (r = none → ∀ S, SomeTrue objects S l) ∧
      ∀ ret', r = some ret' → Antichain ret' ∧ (∀ c ∈ ret', Consistent c) ∧ (∀ c ∈ ret', c ∈ ret ∨ c ∈ l) ∧
        ∀ S, SomeTrue objects S ret' ↔ SomeTrue objects S ret ∨ SomeTrue objects S l
  | [], ret, _, ha, hc => by
    refine ⟨some ret, rfl, by simp, ?_⟩
    rintro ret' h
    cases h
    exact ⟨ha, hc, fun c h => Or.inl h, fun S => by simp [SomeTrue]⟩
  | conj :: rest, ret, hg, ha, hc => by
    obtain ⟨e, h1, h2, h3, h4⟩ := evaluateConj_spec hnd (hg conj (by simp))
    have hcons : ∀ S, SomeTrue objects S (conj :: rest) ↔ ConjTrue objects S conj ∨ SomeTrue objects S rest := by
      intro S; simp [SomeTrue]
    unfold simplifyLoop
    simp only [h1, Res.bind_ok]
    match e, h2, h3, h4 with
    | none, _, _, h4 =>
      obtain ⟨i1, i2, _, i4⟩ := insertConj_spec conj ret ha
      obtain ⟨r, j1, j2, j3⟩ := simplifyLoop_spec hnd rest (insertConj conj ret) (fun c h => hg c (by simp [h])) i1
        (fun c h => by
          rcases i2 c h with rfl | h
          · exact h4 rfl
          · exact hc c h)
      refine ⟨r, j1, fun hr S => (hcons S).2 (Or.inr (j2 hr S)), ?_⟩
      intro ret' hr
      obtain ⟨k1, k2, k3, k4⟩ := j3 ret' hr
      refine ⟨k1, k2, ?_, ?_⟩
      · intro c h
        rcases k3 c h with h | h
        · rcases i2 c h with rfl | h
          · right; simp
          · exact Or.inl h
        · right; simp [h]
      · intro S
        rw [k4, i4, hcons]
        exact or_assoc
    | some true, h2, _, _ =>
      exact ⟨none, rfl, fun _ S => (hcons S).2 (Or.inl (h2 rfl S)), by simp⟩
    | some false, _, h3, _ =>
      obtain ⟨r, j1, j2, j3⟩ := simplifyLoop_spec hnd rest ret (fun c h => hg c (by simp [h])) ha hc
      refine ⟨r, j1, fun hr S => (hcons S).2 (Or.inr (j2 hr S)), ?_⟩
      intro ret' hr
      obtain ⟨k1, k2, k3, k4⟩ := j3 ret' hr
      refine ⟨k1, k2, ?_, ?_⟩
      · intro c h
        rcases k3 c h with h | h
        · exact Or.inl h
        · right; simp [h]
      · intro S
        rw [k4, hcons]
        have := h3 rfl S
        tauto

theorem simplify_spec {objects : List Obj} (hnd : (objects.map Obj.name).Nodup) {dnf : Dnf} (hne : dnf ≠ [])
    (hg : ∀ c ∈ dnf, ConjGround objects c) :
    ∃ r, simplify ⟨objects, ObjMap.create objects, []⟩ dnf = .ok r ∧
      (∀ S, DnfTrue objects S r ↔ SomeTrue objects S dnf) ∧
      ∀ l, r = some l → l.Pairwise (fun a b => a.lt b = true) ∧ Antichain l ∧ (∀ c ∈ l, Consistent c) ∧
        ∀ c ∈ l, c ∈ dnf := by
  obtain ⟨r, h1, h2, h3⟩ := simplifyLoop_spec hnd dnf [] hg (by intro a ha; simp at ha) (by simp)
  unfold simplify
  rw [if_neg hne]
  simp only [h1, Res.bind_ok]
  match r, h2, h3 with
  | none, h2, _ =>
    refine ⟨some [], rfl, fun S => ⟨fun _ => h2 rfl S, fun _ => Or.inl rfl⟩, ?_⟩
    rintro l h
    cases h
    refine ⟨List.Pairwise.nil, ?_, by simp, by simp⟩
    intro a ha; simp at ha
  | some ret, _, h3 =>
    obtain ⟨k1, k2, k3, k4⟩ := h3 ret rfl
    refine ⟨_, rfl, ?_, ?_⟩
    · intro S
      have hk := k4 S
      have h0 : ¬ SomeTrue objects S [] := by simp [SomeTrue]
      split
      · rename_i he
        subst he
        simp only [DnfTrue]
        tauto
      · rename_i he
        have hne' : sortUnique ret ≠ [] := by
          intro h0
          obtain ⟨x, hx⟩ := List.exists_mem_of_ne_nil _ he
          have := mem_sortUnique.2 hx
          rw [h0] at this; simp at this
        have hs : SomeTrue objects S (sortUnique ret) ↔ SomeTrue objects S ret := by
          simp only [SomeTrue, mem_sortUnique]
        simp only [DnfTrue, hne', false_or, hs]
        tauto
    · intro l hl
      split at hl
      · simp at hl
      · cases hl
        refine ⟨sortUnique_sorted _, ?_, ?_, ?_⟩
        · intro a ha b hb
          exact k1 a (mem_sortUnique.1 ha) b (mem_sortUnique.1 hb)
        · intro c hc; exact k2 c (mem_sortUnique.1 hc)
        · intro c hc
          rcases k3 c (mem_sortUnique.1 hc) with h | h
          · simp at h
          · exact h

/-! ## Conjoin, Disjoin, Negate -/

/-- The conjunction has a literal. -/
def HasLit (c : PartialState) : Prop := (∃ a, a ∈ c.pos) ∨ ∃ a, a ∈ c.neg

/-- Ground conjunctions with at least one literal. -/
def GoodDnf (objects : List Obj) (d : Dnf) : Prop := ∀ c ∈ d, ConjGround objects c ∧ HasLit c

theorem mem_unionConj_aux (combo : List PartialState) (acc : PartialState) (a : Atom) :
    (a ∈ (combo.foldl (fun acc t => ⟨(acc.pos.insertRange t.pos.elems).2, (acc.neg.insertRange t.neg.elems).2⟩)
      acc : PartialState).pos ↔ a ∈ acc.pos ∨ ∃ t ∈ combo, a ∈ t.pos) ∧
    (a ∈ (combo.foldl (fun acc t => ⟨(acc.pos.insertRange t.pos.elems).2, (acc.neg.insertRange t.neg.elems).2⟩)
      acc : PartialState).neg ↔ a ∈ acc.neg ∨ ∃ t ∈ combo, a ∈ t.neg) := by
  induction combo generalizing acc with
  | nil => simp
  | cons t combo ih =>
    simp only [List.foldl_cons]
    obtain ⟨h1, h2⟩ := ih ⟨(acc.pos.insertRange t.pos.elems).2, (acc.neg.insertRange t.neg.elems).2⟩
    rw [h1, h2]
    simp only [State.mem_insertRange, State.mem_elems, List.mem_cons, exists_eq_or_imp]
    constructor <;> tauto

theorem mem_unionConj (combo : List PartialState) (a : Atom) :
    (a ∈ (unionConj combo).pos ↔ ∃ t ∈ combo, a ∈ t.pos) ∧
    (a ∈ (unionConj combo).neg ↔ ∃ t ∈ combo, a ∈ t.neg) := by
  have h := mem_unionConj_aux combo PartialState.empty a
  unfold unionConj
  rw [h.1, h.2]
  simp [PartialState.empty]

theorem conjTrue_unionConj {objects : List Obj} {S : Atom → Prop} {combo : List PartialState} :
    ConjTrue objects S (unionConj combo) ↔ ∀ t ∈ combo, ConjTrue objects S t := by
  unfold ConjTrue
  simp only [mem_unionConj]
  constructor
  · rintro ⟨h1, h2⟩ t ht
    exact ⟨fun a ha => h1 a ⟨t, ht, ha⟩, fun a ha => h2 a ⟨t, ht, ha⟩⟩
  · intro h
    exact ⟨fun a ⟨t, ht, ha⟩ => (h t ht).1 a ha, fun a ⟨t, ht, ha⟩ => (h t ht).2 a ha⟩

omit [StrHash] in
theorem exists_combo {α : Type} (P : α → Prop) (os : List (List α)) :
    (∃ c, List.Forall₂ (fun a o => a ∈ o) c os ∧ ∀ t ∈ c, P t) ↔ ∀ o ∈ os, ∃ t ∈ o, P t := by
  induction os with
  | nil => simp
  | cons o os ih =>
    rw [List.forall_mem_cons, ← ih]
    constructor
    · rintro ⟨c, hc, hP⟩
      cases hc with
      | cons h1 h2 =>
        rw [List.forall_mem_cons] at hP
        exact ⟨⟨_, h1, hP.1⟩, _, h2, hP.2⟩
    · rintro ⟨⟨t, ht, hP⟩, c, hc, hc'⟩
      exact ⟨t :: c, List.Forall₂.cons ht hc, List.forall_mem_cons.2 ⟨hP, hc'⟩⟩

omit [StrHash] in
theorem comb_forward_ok {α : Type} (dflt : α) {options : List (List α)} (hne : ∀ o ∈ options, o ≠ []) :
    Comb.forward dflt options (Comb.size options + 1) =
      .ok (if options = [] then [] else cartesian options) := by
  by_cases h0 : options = []
  · subst h0; rfl
  · rw [if_neg h0]
    unfold Comb.forward
    have hs := Comb.size_of_ne_nil h0
    have hp := Comb.count_pos hne
    obtain ⟨c, h1, h2⟩ := Comb.iter_spec dflt h0 hne 0 hp
    have he : Comb.iter dflt options (Comb.size options : Int) = .ok ⟨[], (Comb.size options : Int)⟩ := by
      simp [Comb.iter, Comb.outside_nat]
    have h2' : Comb.iter dflt options 0 = .ok ⟨c, ((0 : Nat) : Int)⟩ := h2
    simp only [Comb.begin, Comb.endIt, h2', he, Res.bind_ok]
    rw [Comb.traverse_forward dflt h0 hne (Comb.count options) 0 _ c (by omega) (by omega) hp h1]
    simp

theorem conjoin_spec {objects : List Obj} (hnd : (objects.map Obj.name).Nodup) {ds : List Dnf}
    (hg : ∀ d ∈ ds, GoodDnf objects d) :
    ∃ r, conjoin ⟨objects, ObjMap.create objects, []⟩ ds = .ok r ∧
      (∀ S, DnfTrue objects S r ↔ ∀ d ∈ ds, DnfTrue objects S (some d)) ∧
      (∀ l, r = some l → GoodDnf objects l) := by
  set os := ds.filter (fun d => decide (d ≠ [])) with hos
  have hmem : ∀ o, o ∈ os ↔ o ∈ ds ∧ o ≠ [] := by intro o; simp [hos]
  have hne : ∀ o ∈ os, o ≠ [] := fun o ho => ((hmem o).1 ho).2
  have hctor : Comb.ctor os = .ok os := by
    unfold Comb.ctor
    rw [if_neg]
    simp only [List.any_eq_true, not_exists, not_and]
    intro o ho h
    exact hne o ho (List.isEmpty_iff.1 h)
  unfold conjoin
  simp only [← hos, hctor, Res.bind_ok, comb_forward_ok PartialState.empty hne]
  have hds : ∀ S, (∀ d ∈ ds, DnfTrue objects S (some d)) ↔ ∀ o ∈ os, SomeTrue objects S o := by
    intro S
    constructor
    · intro h o ho
      obtain ⟨h1, h2⟩ := (hmem o).1 ho
      rcases h o h1 with h3 | h3
      · exact absurd h3 h2
      · exact h3
    · intro h d hd
      by_cases h0 : d = []
      · exact Or.inl h0
      · exact Or.inr (h d ((hmem d).2 ⟨hd, h0⟩))
  by_cases h0 : os = []
  · rw [if_pos h0]
    refine ⟨some [], by simp [simplify], ?_, ?_⟩
    · intro S
      rw [hds, h0]
      simp [DnfTrue]
    · rintro l h; cases h; intro c hc; simp at hc
  · rw [if_neg h0]
    have hlit : ∀ combo ∈ cartesian os, ConjGround objects (unionConj combo) ∧ HasLit (unionConj combo) := by
      intro combo hc
      rw [Comb.mem_cartesian] at hc
      have hall : ∀ t ∈ combo, ConjGround objects t ∧ HasLit t := by
        intro t ht
        obtain ⟨o, ho, hto⟩ : ∃ o ∈ os, t ∈ o := by
          clear_value os
          clear hos hmem hne hctor hds h0
          induction hc with
          | nil => simp at ht
          | cons h1 _ ih =>
            rcases List.mem_cons.1 ht with rfl | ht
            · exact ⟨_, by simp, h1⟩
            · obtain ⟨o, ho, h⟩ := ih ht
              exact ⟨o, by simp [ho], h⟩
        exact hg o ((hmem o).1 ho).1 t hto
      refine ⟨⟨?_, ?_⟩, ?_⟩
      · intro a ha
        obtain ⟨t, ht, hat⟩ := (mem_unionConj combo a).1.1 ha
        exact (hall t ht).1.1 a hat
      · intro a ha
        obtain ⟨t, ht, hat⟩ := (mem_unionConj combo a).2.1 ha
        exact (hall t ht).1.2 a hat
      · have hc0 : combo ≠ [] := by
          rintro rfl
          exact h0 (List.forall₂_nil_left_iff.1 hc)
        obtain ⟨t, ht⟩ := List.exists_mem_of_ne_nil _ hc0
        rcases (hall t ht).2 with ⟨a, ha⟩ | ⟨a, ha⟩
        · exact Or.inl ⟨a, (mem_unionConj combo a).1.2 ⟨t, ht, ha⟩⟩
        · exact Or.inr ⟨a, (mem_unionConj combo a).2.2 ⟨t, ht, ha⟩⟩
    have hcne : (cartesian os).map unionConj ≠ [] := by
      intro h
      have h1 := congrArg List.length h
      rw [List.length_map, Comb.length_cartesian] at h1
      have := Comb.count_pos hne
      simp at h1; omega
    obtain ⟨r, h1, h2, h3⟩ := simplify_spec hnd hcne (by
      intro c hc
      obtain ⟨combo, hc', rfl⟩ := List.mem_map.1 hc
      exact (hlit combo hc').1)
    refine ⟨r, h1, ?_, ?_⟩
    · intro S
      rw [h2, hds]
      have := exists_combo (fun t => ConjTrue objects S t) os
      unfold SomeTrue
      rw [← this]
      constructor
      · rintro ⟨c, hc, ht⟩
        obtain ⟨combo, hc', rfl⟩ := List.mem_map.1 hc
        exact ⟨combo, Comb.mem_cartesian.1 hc', conjTrue_unionConj.1 ht⟩
      · rintro ⟨combo, hc, ht⟩
        exact ⟨unionConj combo, List.mem_map.2 ⟨combo, Comb.mem_cartesian.2 hc, rfl⟩, conjTrue_unionConj.2 ht⟩
    · intro l hl c hc
      have := (h3 l hl).2.2.2 c hc
      obtain ⟨combo, hc', rfl⟩ := List.mem_map.1 this
      exact hlit combo hc'

theorem disjoin_spec {objects : List Obj} (hnd : (objects.map Obj.name).Nodup) {ds : List Dnf}
    (hg : ∀ d ∈ ds, GoodDnf objects d) (h0 : ds ≠ []) (hne : ∀ d ∈ ds, d ≠ []) :
    ∃ r, disjoin ⟨objects, ObjMap.create objects, []⟩ ds = .ok r ∧
      (∀ S, DnfTrue objects S r ↔ ∃ d ∈ ds, DnfTrue objects S (some d)) ∧
      (∀ l, r = some l → GoodDnf objects l) := by
  have hf : ds.flatten ≠ [] := by
    obtain ⟨d, hd⟩ := List.exists_mem_of_ne_nil _ h0
    obtain ⟨x, hx⟩ := List.exists_mem_of_ne_nil _ (hne d hd)
    intro h
    have : x ∈ ds.flatten := List.mem_flatten.2 ⟨d, hd, hx⟩
    rw [h] at this; simp at this
  have hgf : GoodDnf objects ds.flatten := by
    intro c hc
    obtain ⟨d, hd, hc⟩ := List.mem_flatten.1 hc
    exact hg d hd c hc
  obtain ⟨r, h1, h2, h3⟩ := simplify_spec hnd hf (fun c hc => (hgf c hc).1)
  refine ⟨r, h1, ?_, ?_⟩
  · intro S
    rw [h2]
    unfold SomeTrue
    constructor
    · rintro ⟨c, hc, ht⟩
      obtain ⟨d, hd, hc⟩ := List.mem_flatten.1 hc
      exact ⟨d, hd, Or.inr ⟨c, hc, ht⟩⟩
    · rintro ⟨d, hd, h | ⟨c, hc, ht⟩⟩
      · exact absurd h (hne d hd)
      · exact ⟨c, List.mem_flatten.2 ⟨d, hd, hc⟩, ht⟩
  · intro l hl c hc
    exact hgf c ((h3 l hl).2.2.2 c hc)

theorem negateDnf_spec {objects : List Obj} (hnd : (objects.map Obj.name).Nodup) {d : Dnf}
    (hg : GoodDnf objects d) (h0 : d ≠ []) :
    ∃ r, negateDnf ⟨objects, ObjMap.create objects, []⟩ d = .ok r ∧
      (∀ S, DnfTrue objects S r ↔ ¬ DnfTrue objects S (some d)) ∧
      (∀ l, r = some l → GoodDnf objects l) := by
  have hlits : ∀ c x, x ∈ ((c : PartialState).neg.elems.map (fun a => (⟨State.ofList [a], State.empty⟩ : PartialState))) ++
      (c.pos.elems.map (fun a => ⟨State.empty, State.ofList [a]⟩)) ↔
      (∃ a ∈ c.neg, x = ⟨State.ofList [a], State.empty⟩) ∨ ∃ a ∈ c.pos, x = ⟨State.empty, State.ofList [a]⟩ := by
    intro c x
    simp only [List.mem_append, List.mem_map, State.mem_elems, eq_comm]
  obtain ⟨r, h1, h2, h3⟩ := conjoin_spec hnd (ds := d.map fun conj =>
    (conj.neg.elems.map (fun a => ⟨State.ofList [a], State.empty⟩)) ++
    (conj.pos.elems.map (fun a => ⟨State.empty, State.ofList [a]⟩))) (by
      intro l hl
      obtain ⟨c, hc, rfl⟩ := List.mem_map.1 hl
      intro x hx
      rcases (hlits c x).1 hx with ⟨a, ha, rfl⟩ | ⟨a, ha, rfl⟩
      · refine ⟨⟨fun b hb => ?_, fun b hb => ?_⟩, Or.inl ⟨a, by simp⟩⟩
        · simp at hb; subst hb; exact (hg c hc).1.2 b ha
        · simp at hb
      · refine ⟨⟨fun b hb => ?_, fun b hb => ?_⟩, Or.inr ⟨a, by simp⟩⟩
        · simp at hb
        · simp at hb; subst hb; exact (hg c hc).1.1 b ha)
  refine ⟨r, h1, ?_, h3⟩
  intro S
  rw [h2]
  simp only [List.mem_map, forall_exists_index, and_imp, forall_apply_eq_imp_iff₂, DnfTrue, h0, false_or]
  have key : ∀ c ∈ d, (SomeTrue objects S ((c.neg.elems.map (fun a => (⟨State.ofList [a], State.empty⟩ : PartialState))) ++
      (c.pos.elems.map (fun a => ⟨State.empty, State.ofList [a]⟩))) ↔ ¬ ConjTrue objects S c) := by
    intro c _
    constructor
    · rintro ⟨x, hx, ht⟩ hc
      rcases (hlits c x).1 hx with ⟨a, ha, rfl⟩ | ⟨a, ha, rfl⟩
      · exact hc.2 a ha (ht.1 a (by simp))
      · exact ht.2 a (by simp) (hc.1 a ha)
    · intro hc
      by_contra hno
      apply hc
      refine ⟨fun a ha => ?_, fun a ha hta => ?_⟩
      · by_contra hta
        exact hno ⟨_, (hlits c _).2 (Or.inr ⟨a, ha, rfl⟩), by simp [ConjTrue, hta]⟩
      · exact hno ⟨_, (hlits c _).2 (Or.inl ⟨a, ha, rfl⟩), by simp [ConjTrue, hta]⟩
  constructor
  · rintro h ⟨c, hc, ht⟩
    rcases h c hc with h | h
    · have : ∀ x, ¬ ((∃ a ∈ c.neg, x = (⟨State.ofList [a], State.empty⟩ : PartialState)) ∨
          ∃ a ∈ c.pos, x = ⟨State.empty, State.ofList [a]⟩) := by
        intro x hx
        have := (hlits c x).2 hx
        rw [h] at this; simp at this
      rcases (hg c hc).2 with ⟨a, ha⟩ | ⟨a, ha⟩
      · exact this _ (Or.inr ⟨a, ha, rfl⟩)
      · exact this _ (Or.inl ⟨a, ha, rfl⟩)
    · exact (key c hc).1 h ht
  · intro h c hc
    right
    exact (key c hc).2 (fun ht => h ⟨c, hc, ht⟩)

end Symbolic
