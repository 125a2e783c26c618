import Verif.Lemmas.StateIndex
import Verif.Lemmas.Construct
import Verif.Examples.Demo
import Mathlib.Data.List.FinRange

/-!
# C40-C42: StateIndex
-/

namespace Symbolic

/-! ## C40 -/

theorem signature_clean {objects : List Obj} {preds : List PredDecl} (hs : Signature objects preds) {a : Atom}
    (ha : TypeCorrect objects preds a) : StateIndex.CleanAtom a := by
  obtain ⟨d, hd, _, os, ho, rfl⟩ := ha
  refine ⟨hs.cleanHeads d hd, fun n hn => ?_⟩
  simp only [Atom.ofObjs, List.mem_map] at hn
  obtain ⟨o, h, rfl⟩ := hn
  exact hs.cleanArgs o (ho.mem h).1

/-- **C40.** For every index below `size()`, whatever was asked before, `GetProposition` returns a type-correct proposition
and `GetPropositionIndex` of it is that index. -/
theorem C40_index_of_proposition [StrHash] (objects : List Obj) (preds : List PredDecl) (hs : Signature objects preds)
    (useCache : Bool) (I : StateIndex) (hI : I = ⟨preds, ObjMap.create objects, useCache⟩) (c c' : IndexCache)
    (hc : I.Reached c) (hc' : I.Reached c') (n : Nat) (hn : I.size = .ok n) (i : Nat) (hi : i < n) :
    ∃ a, (I.getProposition c i).1 = .ok a ∧ TypeCorrect objects preds a ∧ (I.getPropositionIndex c' a).1 = .ok i := by
  rw [StateIndex.size_eq] at hn
  cases hn
  obtain ⟨a, h1, h2, h3⟩ := StateIndex.lookup_of_lt hs hI hi
  refine ⟨a, ?_, h3, ?_⟩
  · rw [(StateIndex.getProposition_ok hc.ok i).1, h1]
  · rw [(StateIndex.getPropositionIndex_ok hc'.ok (signature_clean hs h3)).1, h2]

/-- **C40.** The index of every type-correct proposition is below `size()` and `GetProposition` of it is the
proposition. -/
theorem C40_proposition_of_index [StrHash] (objects : List Obj) (preds : List PredDecl) (hs : Signature objects preds)
    (useCache : Bool) (I : StateIndex) (hI : I = ⟨preds, ObjMap.create objects, useCache⟩) (c c' : IndexCache)
    (hc : I.Reached c) (hc' : I.Reached c') (a : Atom) (ha : TypeCorrect objects preds a) :
    ∃ n i, I.size = .ok n ∧ (I.getPropositionIndex c a).1 = .ok i ∧ i < n ∧ (I.getProposition c' i).1 = .ok a := by
  obtain ⟨i, h1, h2, h3⟩ := StateIndex.lookup_of_typeCorrect hs hI ha
  refine ⟨_, i, StateIndex.size_eq I, ?_, h1, ?_⟩
  · rw [(StateIndex.getPropositionIndex_ok hc.ok (signature_clean hs ha)).1, h3]
  · rw [(StateIndex.getProposition_ok hc'.ok i).1, h2]

theorem traverse_spec [StrHash] {I : StateIndex} (l : List Atom) : ∀ (k i : Nat) (c : IndexCache), StateIndex.CacheOk I c →
    l.length = total I.gens → (∀ j < l.length, I.lookupProp j = Res.index l j) → i + k = total I.gens →
    I.traverse (k + 1) i c = .ok (l.drop i)
  | 0, i, c, hc, hl, h, hk => by
    have : i = total I.gens := by omega
    simp only [StateIndex.traverse, StateIndex.size_eq, Res.bind_ok, this, if_true, Res.pure_eq]
    rw [← hl, List.drop_length]
  | k + 1, i, c, hc, hl, h, hk => by
    have hi : i < l.length := by omega
    obtain ⟨h1, h2⟩ := StateIndex.getProposition_ok hc i
    rw [h i hi, Res.index_lt hi] at h1
    have ih := traverse_spec l k (i + 1) (I.getProposition c i).2 h2 hl h (by omega)
    have hne : i ≠ total I.gens := by omega
    unfold StateIndex.traverse
    simp only [StateIndex.size_eq, Res.bind_ok, hne, if_false]
    generalize I.getProposition c i = r at h1 h2 ih ⊢
    obtain ⟨r, c'⟩ := r
    simp only at h1
    subst h1
    simp only
    rw [ih, List.drop_eq_getElem_cons hi]
    rfl

/-- **C40**, for the iterator: a loop over the index visits every type-correct proposition once, in the order of the
indices. -/
theorem C40_iteration [StrHash] (objects : List Obj) (preds : List PredDecl) (hs : Signature objects preds)
    (useCache : Bool) (I : StateIndex) (hI : I = ⟨preds, ObjMap.create objects, useCache⟩) (c : IndexCache)
    (hc : I.Reached c) : ∃ l n, I.size = .ok n ∧ I.traverse (n + 1) 0 c = .ok l ∧ l.length = n ∧ l.Nodup ∧
      ∀ a, a ∈ l ↔ TypeCorrect objects preds a := by
  have hex : ∀ i : Fin (total I.gens), ∃ a, I.lookupProp i = .ok a ∧ I.lookupIdx a = .ok i.1 ∧ TypeCorrect objects preds a :=
    fun i => StateIndex.lookup_of_lt hs hI i.2
  choose f h1 h2 h3 using hex
  refine ⟨List.ofFn f, _, StateIndex.size_eq I, ?_, by simp, ?_, fun a => ?_⟩
  · have := traverse_spec (List.ofFn f) (total I.gens) 0 c hc.ok (by simp) ?_ (by omega)
    · simpa using this
    · intro j hj
      rw [Res.index_lt hj]
      simp only [List.length_ofFn] at hj
      simpa using h1 ⟨j, hj⟩
  · rw [List.nodup_ofFn]
    intro i j hij
    have := h2 i
    rw [hij, h2 j] at this
    exact Fin.ext (Res.ok.inj this).symm
  · rw [List.mem_ofFn]
    constructor
    · rintro ⟨i, rfl⟩; exact h3 i
    · intro ha
      obtain ⟨i, hi, e1, e2⟩ := StateIndex.lookup_of_typeCorrect hs hI ha
      refine ⟨⟨i, hi⟩, ?_⟩
      have := h1 ⟨i, hi⟩
      simp only [e1] at this
      exact (Res.ok.inj this).symm

/-- **C40.** A proposition of the right arity that is not type-correct has no index: the call throws. So does one of an
undeclared predicate. -/
theorem C40_rejects_others [StrHash] (objects : List Obj) (preds : List PredDecl) (hs : Signature objects preds)
    (useCache : Bool) (I : StateIndex) (hI : I = ⟨preds, ObjMap.create objects, useCache⟩) (c : IndexCache)
    (hc : I.Reached c) (a : Atom) (hclean : StateIndex.CleanAtom a) (ha : ¬ TypeCorrect objects preds a)
    (har : ∀ d ∈ preds, d.name = a.pred → d.params ≠ [] ∧ d.params.length = a.args.length) :
    (I.getPropositionIndex c a).1 = .exc .outOfRange := by
  rw [(StateIndex.getPropositionIndex_ok hc.ok hclean).1]
  subst hI
  by_cases hm : a.pred ∈ preds.map PredDecl.name
  · obtain ⟨d, hd, he⟩ := List.mem_map.1 hm
    obtain ⟨k, hk⟩ := List.getElem?_of_mem hd
    have hp := predIdx_some (i := 0) hs.predNames hk
    rw [he] at hp
    simp only [StateIndex.lookupIdx, hp, Nat.zero_add, Res.index_eq_ok.2 hk, Res.bind_ok]
    obtain ⟨hpar, hlen⟩ := har d hd he
    have hne := paramTypes_ne (ObjMap.nonEmpty_create objects) d.params
    have hf : Comb.find Obj.same (paramTypes (ObjMap.create objects) d.params) (a.args.map fun n => ⟨n, []⟩) =
        .exc .outOfRange := by
      by_cases h0 : paramTypes (ObjMap.create objects) d.params = []
      · have hnil : a.args ≠ [] := by
          intro h
          rw [h] at hlen
          exact hpar (by simpa using hlen)
        rw [h0]
        cases hargs : a.args with
        | nil => exact absurd hargs hnil
        | cons x xs => simp [Comb.find, Comb.findLoop]
      · have hl : (a.args.map fun n => (⟨n, []⟩ : Obj)).length =
            (paramTypes (ObjMap.create objects) d.params).length := by
          have : (paramTypes (ObjMap.create objects) d.params).length = d.params.length := by
            rw [paramTypes_eq] at h0 ⊢
            split
            · simp
            · rename_i h; simp [h] at h0
          simp [this, hlen]
        refine (Comb.findLoop_ok (eq := Obj.same) hne _ 0 hl).2.2 ?_
        intro hF
        apply ha
        obtain ⟨i, hi⟩ := (Comb.findLoop_ok (eq := Obj.same) hne _ 0 hl).2.1 hF
        obtain ⟨j, os, _, ho, hF'⟩ := (Comb.findLoop_ok (eq := Obj.same) hne _ 0 hl).1 i hi
        refine ⟨d, hd, hpar, os, (mem_cartesian_gen h0).1 (List.mem_of_getElem? ho), ?_⟩
        rw [List.forall₂_map_right_iff] at hF'
        have hnames : os.map Obj.name = a.args := by
          clear hF hi ho
          generalize a.args = ns at hF'
          induction hF' with
          | nil => rfl
          | cons h _ ih => simp [Obj.same] at h; simp [h, ih]
        cases a
        simp only [Atom.ofObjs, Atom.mk.injEq]
        exact ⟨he.symm, hnames.symm⟩
    rw [hf]
    rfl
  · simp [StateIndex.lookupIdx, predIdx_none hm]

section
open Demo
attribute [local instance] lenHash

theorem demo_signature : Signature (tree.constants ++ tree.objects) tree.preds where
  objNames := by decide
  chains := by decide
  predNames := by decide
  cleanArgs := by
    simp only [CleanArg, IsSep]
    decide
  cleanHeads := by
    simp only [CleanHead]
    decide

/-- The index of the demo domain is of the form the theorems speak of. -/
example : P.stateIndex = ⟨tree.preds, ObjMap.create (tree.constants ++ tree.objects), true⟩ := by
  have hB := Pddl.built P_made
  simp only [Pddl.stateIndex, hB.tree, hB.omap]

/-- `on(b, table)` has an index; the caches of a new StateIndex are reached. -/
example : P.stateIndex.Reached .empty ∧ TypeCorrect (tree.constants ++ tree.objects) tree.preds (on b table) ∧
    (P.stateIndex.getPropositionIndex .empty (on b table)).1 = .ok 3 ∧
    (P.stateIndex.getProposition .empty 3).1 = .ok (on b table) := by
  refine ⟨⟨[], by simp, rfl⟩, ?_, by decide +kernel, by decide +kernel⟩
  refine ⟨⟨n!"on", [x, y]⟩, by simp [tree], by simp, [b, table], ?_, rfl⟩
  exact .cons ⟨by decide, by unfold HasType; decide⟩ (.cons ⟨by decide, by unfold HasType; decide⟩ .nil)

/-- Two predicates, the first without parameters. -/
def flagPreds : List PredDecl := [⟨n!"done", []⟩, ⟨n!"inhand", [x]⟩]

def flagIndex : StateIndex := ⟨flagPreds, ObjMap.create [a, b], true⟩

/-- **C40, refuted** for predicates without parameters: `done()` has the index of another proposition. -/
theorem C40_nullary_refuted : (flagIndex.getPropositionIndex .empty ⟨n!"done", []⟩).1 = .ok 0 ∧
    (flagIndex.getProposition .empty 0).1 = .ok (inhand a) := by decide +kernel

/-- **C40, refuted** for propositions with missing arguments: `on(b)` has the index of `on(b, table)`. -/
theorem C40_missing_argument_refuted :
    (P.stateIndex.getPropositionIndex .empty ⟨n!"on", [n!"b"]⟩).1 = .ok 3 ∧
    (P.stateIndex.getProposition .empty 3).1 = .ok (on b table) := by decide +kernel

/-- Past the end `GetProposition` is undefined. -/
example : P.stateIndex.size = .ok 10 ∧ (P.stateIndex.getProposition .empty 10).1 = .ub := by decide +kernel

end

/-! ## C41 -/

/-- **C41.** A State of type-correct propositions can be indexed, and the State of the indexed state is the same. -/
theorem C41_state_round_trip [StrHash] (objects : List Obj) (preds : List PredDecl) (hs : Signature objects preds)
    (useCache : Bool) (I : StateIndex) (hI : I = ⟨preds, ObjMap.create objects, useCache⟩) (c c' : IndexCache)
    (hc : I.Reached c) (hc' : I.Reached c') (s : State) (h : ∀ a ∈ s, TypeCorrect objects preds a) :
    ∃ n v, I.size = .ok n ∧ (I.getIndexedState c s).1 = .ok v ∧ v.length = n ∧ (I.getState c' v).1 = .ok s := by
  have hl : ∀ a ∈ s.elems, ∃ i, I.lookupIdx a = .ok i ∧
      i < (List.replicate (total I.gens) false).length := by
    intro a ha
    obtain ⟨i, h1, _, h3⟩ := StateIndex.lookup_of_typeCorrect hs hI (h a (State.mem_elems.1 ha))
    exact ⟨i, h3, by simpa using h1⟩
  obtain ⟨v, e1, e2, e3⟩ := StateIndex.indexLoop'_spec s.elems _ hl
  simp only [List.length_replicate] at e2 e3
  refine ⟨_, v, StateIndex.size_eq I, ?_, e2, ?_⟩
  · rw [(StateIndex.getIndexedState_ok hc.ok (fun a ha => signature_clean hs (h a ha))).1, e1]
  · rw [(StateIndex.getState_ok hc'.ok v).1]
    have hv : ∀ j, v[j]? = some true ↔ j < total I.gens ∧ ∃ a ∈ s, I.lookupIdx a = .ok j := by
      intro j
      constructor
      · intro hj
        have hlt := (List.getElem?_eq_some_iff.1 hj).1
        rw [e2] at hlt
        refine ⟨hlt, ?_⟩
        rcases (e3 j hlt).1 hj with h | ⟨a, ha, h⟩
        · simp [List.getElem?_replicate] at h
        · exact ⟨a, State.mem_elems.1 ha, h⟩
      · rintro ⟨hlt, a, ha, hl⟩
        exact (e3 j hlt).2 (Or.inr ⟨a, State.mem_elems.2 ha, hl⟩)
    have hp : ∀ (j : Nat) (a : Atom), a ∈ s → I.lookupIdx a = .ok j → I.lookupProp j = .ok a := by
      intro j a ha hj
      obtain ⟨i, _, h2, h3⟩ := StateIndex.lookup_of_typeCorrect hs hI (h a ha)
      rw [hj] at h3
      cases h3
      exact h2
    obtain ⟨s', g1, g2⟩ := StateIndex.stateLoop'_spec (I := I) v 0 State.empty (fun j hj => by
      obtain ⟨_, a, ha, hl⟩ := (hv j).1 hj
      exact ⟨a, by simpa using hp j a ha hl⟩)
    rw [g1]
    congr 1
    refine State.ext fun a => (g2 a).trans ?_
    constructor
    · rintro (h | ⟨j, hj, hl⟩)
      · simp at h
      · obtain ⟨_, b, hb, hlb⟩ := (hv j).1 hj
        have := hp j b hb hlb
        simp only [Nat.zero_add] at hl
        rw [this] at hl
        cases hl
        exact hb
    · intro ha
      obtain ⟨j, h1, h2, h3⟩ := StateIndex.lookup_of_typeCorrect hs hI (h a ha)
      exact Or.inr ⟨j, (hv j).2 ⟨h1, a, ha, h3⟩, by simpa using h2⟩

/-- **C41.** Every vector of the right length is the indexed state of its State, which consists of type-correct
propositions. -/
theorem C41_vector_round_trip [StrHash] (objects : List Obj) (preds : List PredDecl) (hs : Signature objects preds)
    (useCache : Bool) (I : StateIndex) (hI : I = ⟨preds, ObjMap.create objects, useCache⟩) (c c' : IndexCache)
    (hc : I.Reached c) (hc' : I.Reached c') (v : List Bool) (hv : I.size = .ok v.length) :
    ∃ s, (I.getState c v).1 = .ok s ∧ (∀ a ∈ s, TypeCorrect objects preds a) ∧ (I.getIndexedState c' s).1 = .ok v := by
  rw [StateIndex.size_eq] at hv
  have hv : total I.gens = v.length := Res.ok.inj hv
  have hlt : ∀ j, v[j]? = some true → j < total I.gens := fun j hj => by
    rw [hv]; exact (List.getElem?_eq_some_iff.1 hj).1
  obtain ⟨s, g1, g2⟩ := StateIndex.stateLoop'_spec (I := I) v 0 State.empty (fun j hj => by
    obtain ⟨a, ha, _⟩ := StateIndex.lookup_of_lt hs hI (hlt j hj)
    exact ⟨a, by simpa using ha⟩)
  have hmem : ∀ a, a ∈ s ↔ ∃ j, v[j]? = some true ∧ I.lookupProp j = .ok a := fun a => by
    rw [g2 a]; simp
  have htc : ∀ a ∈ s, TypeCorrect objects preds a := fun a ha => by
    obtain ⟨j, hj, hl⟩ := (hmem a).1 ha
    obtain ⟨b, h1, _, h3⟩ := StateIndex.lookup_of_lt hs hI (hlt j hj)
    rw [h1] at hl
    cases hl
    exact h3
  refine ⟨s, by rw [(StateIndex.getState_ok hc.ok v).1, g1], htc, ?_⟩
  rw [(StateIndex.getIndexedState_ok hc'.ok (fun a ha => signature_clean hs (htc a ha))).1]
  have hl : ∀ a ∈ s.elems, ∃ i, I.lookupIdx a = .ok i ∧
      i < (List.replicate (total I.gens) false).length := by
    intro a ha
    obtain ⟨i, h1, _, h3⟩ := StateIndex.lookup_of_typeCorrect hs hI (htc a (State.mem_elems.1 ha))
    exact ⟨i, h3, by simpa using h1⟩
  obtain ⟨v', e1, e2, e3⟩ := StateIndex.indexLoop'_spec s.elems _ hl
  simp only [List.length_replicate] at e2 e3
  rw [e1]
  congr 1
  refine List.ext_getElem (by omega) fun j hj hj' => ?_
  have h1 : v'[j]? = some true ↔ v[j]? = some true := by
    rw [e3 j (by omega)]
    constructor
    · rintro (h | ⟨a, ha, hla⟩)
      · simp [List.getElem?_replicate] at h
      · obtain ⟨k, hk, hlk⟩ := (hmem a).1 (State.mem_elems.1 ha)
        obtain ⟨b, f1, f2, _⟩ := StateIndex.lookup_of_lt hs hI (hlt k hk)
        rw [f1] at hlk
        cases hlk
        rw [f2] at hla
        cases hla
        exact hk
    · intro hk
      obtain ⟨b, f1, f2, _⟩ := StateIndex.lookup_of_lt hs hI (hlt j hk)
      exact Or.inr ⟨b, State.mem_elems.2 ((hmem b).2 ⟨j, hk, f1⟩), f2⟩
  rw [List.getElem?_eq_getElem hj, List.getElem?_eq_getElem hj'] at h1
  simp only [Option.some.injEq] at h1
  exact Bool.eq_iff_iff.2 h1

section
open Demo
attribute [local instance] lenHash

example : (do
    let v ← (P.stateIndex.getIndexedState .empty (State.ofList [on a table, inhand b])).1
    (P.stateIndex.getState .empty v).1) = .ok (State.ofList [on a table, inhand b]) := by decide +kernel

example : (do
    let s ← (P.stateIndex.getState .empty
      [true, false, false, true, true, false, false, true, false, true]).1
    (P.stateIndex.getIndexedState .empty s).1) = .ok
      [true, false, false, true, true, false, false, true, false, true] := by
  decide +kernel

/-- **C41, refuted** for predicates without parameters: another State comes back. -/
theorem C41_nullary_refuted : (do
    let v ← (flagIndex.getIndexedState .empty (State.ofList [⟨n!"done", []⟩])).1
    (flagIndex.getState .empty v).1) = .ok (State.ofList [inhand a]) := by decide +kernel

/-- **C41, refuted**: with the predicate declared last the write is out of bounds. -/
theorem C41_nullary_last_refuted :
    ((⟨flagPreds.reverse, ObjMap.create [a, b], true⟩ : StateIndex).getIndexedState .empty
      (State.ofList [⟨n!"done", []⟩])).1 = .ub := by decide +kernel

end

/-! ## C42 -/

theorem answer_useCache [StrHash] (I : StateIndex) (b : Bool) (q : StateIndex.Query) :
    StateIndex.answer { I with useCache := b } q = StateIndex.answer I q := by
  have h1 : ∀ (v : List Bool) (i : Nat) (s : State),
      StateIndex.stateLoop' { I with useCache := b } v i s = StateIndex.stateLoop' I v i s := by
    intro v
    induction v with
    | nil => intros; rfl
    | cons x v ih =>
      intro i s
      cases x
      · exact ih _ _
      · simp only [StateIndex.stateLoop', ih]; rfl
  have h2 : ∀ (as : List Atom) (v : List Bool),
      StateIndex.indexLoop' { I with useCache := b } as v = StateIndex.indexLoop' I as v := by
    intro as
    induction as with
    | nil => intros; rfl
    | cons x as ih => intro v; simp only [StateIndex.indexLoop', ih]; rfl
  cases q with
  | proposition i => rfl
  | index a => rfl
  | state v => simp [StateIndex.answer, h1]
  | indexed s => simp only [StateIndex.answer, h2]; rfl

/-- **C42.** Every history of queries about printable propositions gets the same answers with and without the cache, for
every predicate list and every objects, also where the queries throw or are undefined. -/
theorem C42_cache_transparent [StrHash] (I : StateIndex) (qs : List StateIndex.Query) (hq : ∀ q ∈ qs, q.Clean) :
    (StateIndex.askAll { I with useCache := true } .empty qs).1 =
      (StateIndex.askAll { I with useCache := false } .empty qs).1 := by
  rw [(StateIndex.askAll_ok qs (StateIndex.CacheOk.empty _) hq).1, (StateIndex.askAll_ok qs (StateIndex.CacheOk.empty _) hq).1]
  refine List.map_congr_left fun q _ => ?_
  rw [answer_useCache I true, answer_useCache I false]

/-- **C42.** The answer to a query does not depend on the queries before. -/
theorem C42_history_irrelevant [StrHash] (I : StateIndex) (qs : List StateIndex.Query) (hq : ∀ q ∈ qs, q.Clean)
    (q : StateIndex.Query) (h : q.Clean) :
    (I.ask (I.askAll .empty qs).2 q).1 = (I.ask .empty q).1 := by
  rw [(StateIndex.ask_ok (StateIndex.askAll_ok qs (StateIndex.CacheOk.empty _) hq).2 h).1,
    (StateIndex.ask_ok (StateIndex.CacheOk.empty _) h).1]

section
open Demo
attribute [local instance] lenHash

/-- Repeated queries, answered from the cache the second time. -/
example : ∀ q ∈ [StateIndex.Query.index (on a b), .proposition 3, .index (on a b), .proposition 3, .index ⟨n!"no", []⟩], q.Clean := by
  intro q hq
  simp only [List.mem_cons, List.not_mem_nil, or_false] at hq
  rcases hq with rfl | rfl | rfl | rfl | rfl <;>
    simp only [StateIndex.Query.Clean, CleanHead, CleanArg, IsSep, on] <;> decide

/-- **C42, refuted** for names that contain separators: `p` of the one object `a, b` has the string of `p(a, b)`; the
cache answers for the wrong proposition. -/
theorem C42_unprintable_refuted :
    let I : StateIndex := ⟨[⟨n!"on", [x, y]⟩], ObjMap.create [a, b, table], true⟩
    let q1 : Atom := ⟨n!"on", [n!"a", n!"b"]⟩
    let q2 : Atom := ⟨n!"on", [n!"a, b"]⟩
    (I.getPropositionIndex (I.getPropositionIndex .empty q1).2 q2).1 = .ok 1 ∧
      (I.getPropositionIndex .empty q2).1 = .exc .outOfRange := by decide +kernel

end

end Symbolic
