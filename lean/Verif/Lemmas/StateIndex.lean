import Verif.Spec.StateIndex
import Verif.Lemmas.Object
import Verif.Lemmas.State
import Verif.Props.Strings

/-!
# Lemmas about StateIndex
-/

namespace Symbolic

/-! ## Generators -/

theorem Comb.get_spec (dflt : α) {options : List (List α)} (hne : ∀ o ∈ options, o ≠ []) {i : Nat}
    (hi : i < Comb.size options) : ∃ c, (cartesian options)[i]? = some c ∧ Comb.get dflt options (i : Int) = .ok c := by
  have h0 : options ≠ [] := by rintro rfl; simp [Comb.size] at hi
  have hs := size_of_ne_nil h0
  have hp := count_pos hne
  obtain ⟨c, h1, h2⟩ := iter_spec dflt h0 hne 0 hp
  have h2' : iter dflt options 0 = .ok ⟨c, ((0 : Nat) : Int)⟩ := h2
  obtain ⟨c', h3, h4⟩ := moveTo_spec dflt h0 (Masked.refl options) hne 0 i hp (by omega) h1
  refine ⟨c', h3, ?_⟩
  have e : ((0 : Nat) : Int) + (i : Int) = (i : Int) := by simp
  simp only [Comb.get, begin, h2', Res.bind_ok, advance, e, h4, Res.pure_eq]

theorem Comb.size_eq_length {options : List (List α)} (h : options ≠ []) :
    Comb.size options = (cartesian options).length := by rw [length_cartesian, size_of_ne_nil h]

theorem findIdx_same_congr {a b : Obj} (h : a.name = b.name) (l : List Obj) :
    Comb.findIdx Obj.same a l = Comb.findIdx Obj.same b l := by
  induction l with
  | nil => rfl
  | cons x l ih => simp [Comb.findIdx, ih, Obj.same, h]

theorem findLoop_same_congr : ∀ (os : List (List Obj)) (gs : List Nat) (as bs : List Obj) (idx : Nat),
    as.map Obj.name = bs.map Obj.name → Comb.findLoop Obj.same os gs as idx = Comb.findLoop Obj.same os gs bs idx
  | _, _, [], [], idx, _ => by simp [Comb.findLoop]
  | _, _, [], _ :: _, _, h => by simp at h
  | _, _, _ :: _, [], _, h => by simp at h
  | [], gs, a :: as, b :: bs, idx, h => by simp [Comb.findLoop]
  | o :: os, [], a :: as, b :: bs, idx, h => by simp [Comb.findLoop]
  | o :: os, g :: gs, a :: as, b :: bs, idx, h => by
    simp only [List.map_cons, List.cons.injEq] at h
    simp only [Comb.findLoop, findIdx_same_congr h.1]
    cases Comb.findIdx Obj.same b o with
    | none => rfl
    | some k => exact findLoop_same_congr os gs as bs _ h.2

/-- The arguments of a stored proposition, as the search in the generator sees them. -/
theorem find_names (opts : List (List Obj)) (os : List Obj) :
    Comb.find Obj.same opts ((os.map Obj.name).map fun n => ⟨n, []⟩) = Comb.find Obj.same opts os := by
  refine findLoop_same_congr _ _ _ _ _ ?_
  simp [List.map_map, Function.comp_def]

theorem mem_cartesian_gen {objects params args : List Obj}
    (h : paramTypes (ObjMap.create objects) params ≠ []) :
    args ∈ cartesian (paramTypes (ObjMap.create objects) params) ↔ WellTyped objects params args := by
  have hne := paramTypes_ne (ObjMap.nonEmpty_create objects) params
  have hp : params ≠ [] := by
    rintro rfl
    exact h (by simp [paramTypes_eq])
  have hl := genLoop_ok hne
  rw [if_neg h] at hl
  exact mem_gen_create hp hl

theorem paramTypes_ne_nil {objects params args : List Obj} (hp : params ≠ []) (h : WellTyped objects params args) :
    paramTypes (ObjMap.create objects) params ≠ [] := by
  intro he
  have hl : genLoop (paramTypes (ObjMap.create objects) params) = .ok [] := by rw [he]; rfl
  have := (mem_gen_create hp hl (args := args)).2 h
  simp at this

theorem same_distinct {objects : List Obj} (hn : (objects.map Obj.name).Nodup)
    (ht : ∀ o ∈ objects, o.listTypes.Nodup) (params : List Obj) :
    ∀ l ∈ paramTypes (ObjMap.create objects) params, l.Pairwise (fun x y => Obj.same x y = false) := by
  rw [paramTypes_eq]
  split
  · intro l hl
    simp only [List.mem_map] at hl
    obtain ⟨p, _, rfl⟩ := hl
    have hd := ObjMap.nodup_entry_create (List.Nodup.of_map _ hn) ht p.typeName
    refine hd.imp_of_mem ?_
    intro x y hx hy hxy
    have hx' := ((ObjMap.mem_entry_create _ _ _).1 hx).1
    have hy' := ((ObjMap.mem_entry_create _ _ _).1 hy).1
    simp only [Obj.same, decide_eq_false_iff_not]
    intro he
    exact hxy (List.inj_on_of_nodup_map hn hx' hy' he)
  · simp

/-! ## Groups -/

theorem cumSum_head (gs : List (List (List Obj))) (acc : Nat) : ∃ r, cumSum gs acc = acc :: r := by
  cases gs with
  | nil => exact ⟨[], rfl⟩
  | cons g gs => exact ⟨_, rfl⟩

def total (gs : List (List (List Obj))) : Nat := (gs.map Comb.size).sum

theorem cumSum_last (gs : List (List (List Obj))) : ∀ acc, (cumSum gs acc).getLast? = some (acc + total gs) := by
  induction gs with
  | nil => intro acc; simp [cumSum, total]
  | cons g gs ih =>
    intro acc
    obtain ⟨r, hr⟩ := cumSum_head gs (acc + Comb.size g)
    have := ih (acc + Comb.size g)
    simp only [cumSum]
    rw [hr] at this ⊢
    rw [List.getLast?_cons_cons, this]
    simp [total]; omega

abbrev natLt : Nat → Nat → Bool := fun a b => decide (a < b)

/-- The group of every position. -/
theorem cumSum_at : ∀ (gs : List (List (List Obj))) (acc k i : Nat) (g : List (List Obj)), gs[k]? = some g → i < Comb.size g →
    ∃ start, (cumSum gs acc)[k]? = some start ∧ lowerBound natLt (cumSum gs acc) (start + i + 1) = k + 1 ∧ acc ≤ start ∧
      start + i < acc + total gs
  | [], _, _, _, _, h, _ => by simp at h
  | g' :: gs, acc, 0, i, g, h, hi => by
    simp only [List.getElem?_cons_zero, Option.some.injEq] at h
    subst h
    obtain ⟨r, hr⟩ := cumSum_head gs (acc + Comb.size g')
    refine ⟨acc, by simp [cumSum], ?_, Nat.le_refl _, ?_⟩
    · simp only [cumSum, hr, lowerBound, natLt]
      rw [List.takeWhile_cons, if_pos (by simp; omega), List.takeWhile_cons, if_neg (by simp; omega)]
      rfl
    · simp [total]; omega
  | g' :: gs, acc, k + 1, i, g, h, hi => by
    simp only [List.getElem?_cons_succ] at h
    obtain ⟨start, h1, h2, h3, h4⟩ := cumSum_at gs (acc + Comb.size g') k i g h hi
    refine ⟨start, by simpa [cumSum] using h1, ?_, by omega, ?_⟩
    · simp only [cumSum, lowerBound, natLt] at h2 ⊢
      rw [List.takeWhile_cons, if_pos (by simp; omega), List.length_cons, h2]
    · simp [total] at h4 ⊢; omega

/-- Every position below the total lies in a group. -/
theorem cumSum_find : ∀ (gs : List (List (List Obj))) (acc idx : Nat), acc ≤ idx → idx < acc + total gs →
    ∃ (k : Nat) (g : List (List Obj)) (i start : Nat), gs[k]? = some g ∧ i < Comb.size g ∧ (cumSum gs acc)[k]? = some start ∧ idx = start + i
  | [], acc, idx, h1, h2 => by simp [total] at h2; omega
  | g :: gs, acc, idx, h1, h2 => by
    by_cases h : idx < acc + Comb.size g
    · exact ⟨0, g, idx - acc, acc, rfl, by omega, by simp [cumSum], by omega⟩
    · obtain ⟨k, g', i, start, e1, e2, e3, e4⟩ := cumSum_find gs (acc + Comb.size g) idx (by omega)
        (by simp [total] at h2 ⊢; omega)
      exact ⟨k + 1, g', i, start, by simpa using e1, e2, by simpa [cumSum] using e3, e4⟩

/-! ## Predicates -/

theorem predIdx_none {name : Name} : ∀ {ps : List PredDecl} {i : Nat}, name ∉ ps.map PredDecl.name → predIdx name ps i = none
  | [], _, _ => rfl
  | p :: ps, i, h => by
    simp only [List.map_cons, List.mem_cons, not_or] at h
    simp [predIdx, predIdx_none h.2, Ne.symm h.1]

theorem predIdx_some {p : PredDecl} : ∀ {ps : List PredDecl} {i k : Nat}, (ps.map PredDecl.name).Nodup → ps[k]? = some p →
    predIdx p.name ps i = some (i + k)
  | [], _, _, _, h => by simp at h
  | q :: ps, i, 0, hn, h => by
    simp only [List.getElem?_cons_zero, Option.some.injEq] at h
    subst h
    rw [List.map_cons, List.nodup_cons] at hn
    simp [predIdx, predIdx_none hn.1]
  | q :: ps, i, k + 1, hn, h => by
    simp only [List.getElem?_cons_succ] at h
    rw [List.map_cons, List.nodup_cons] at hn
    simp [predIdx, predIdx_some hn.2 h]; omega

namespace StateIndex
variable [StrHash]

omit [StrHash] in
theorem size_eq (I : StateIndex) : I.size = .ok (total I.gens) := by
  simp [size, groups, cumSum_last]

omit [StrHash] in
/-- The proposition at position `i` of the `k`-th group, and back. -/
theorem lookup_spec {objects : List Obj} {preds : List PredDecl} {b : Bool} (hs : Signature objects preds)
    {I : StateIndex} (hI : I = ⟨preds, ObjMap.create objects, b⟩) {k i : Nat} {d : PredDecl} (hk : preds[k]? = some d)
    (hi : i < Comb.size (paramTypes (ObjMap.create objects) d.params)) :
    ∃ idx os, I.groups[k]? = some (idx - i) ∧ i ≤ idx ∧ idx < total I.gens ∧
      (cartesian (paramTypes (ObjMap.create objects) d.params))[i]? = some os ∧ WellTyped objects d.params os ∧
      d.params ≠ [] ∧ I.lookupProp idx = .ok (Atom.ofObjs d.name os) ∧ I.lookupIdx (Atom.ofObjs d.name os) = .ok idx := by
  subst hI
  have hne := paramTypes_ne (ObjMap.nonEmpty_create objects) d.params
  have h0 : paramTypes (ObjMap.create objects) d.params ≠ [] := by intro h; rw [h] at hi; simp [Comb.size] at hi
  obtain ⟨os, ho, hg⟩ := Comb.get_spec Obj.dflt hne hi
  have hk' : (StateIndex.gens ⟨preds, ObjMap.create objects, b⟩)[k]? = some (paramTypes (ObjMap.create objects) d.params) := by
    simp [gens, hk]
  obtain ⟨start, h1, h2, h3, h4⟩ := cumSum_at _ 0 k i _ hk' hi
  have e : start + i - start = i := by omega
  refine ⟨start + i, os, ?_, by omega, by omega, ho, (mem_cartesian_gen h0).1 (List.mem_of_getElem? ho), ?_, ?_, ?_⟩
  · simpa [groups] using h1
  · rintro hp
    exact h0 (by simp [hp, paramTypes_eq])
  · have h1' : Res.index (StateIndex.groups ⟨preds, ObjMap.create objects, b⟩) k = .ok start := Res.index_eq_ok.2 h1
    have h2' : lowerBound (fun a b => decide (a < b)) (StateIndex.groups ⟨preds, ObjMap.create objects, b⟩)
      (start + i + 1) = k + 1 := h2
    simp only [lookupProp, h2', Nat.add_sub_cancel, h1', Res.bind_ok, Res.index_eq_ok.2 hk, e, hg, Res.pure_eq]
  · have hf : Comb.find Obj.same (paramTypes (ObjMap.create objects) d.params) os = .ok i := by
      have := Comb.findLoop_get (eq := Obj.same) (fun x => by simp [Obj.same]) hne
        (same_distinct hs.objNames hs.chains d.params) i 0 os ho
      simpa [Comb.find] using this
    have hp := predIdx_some (i := 0) hs.predNames hk
    have h1' : Res.index (StateIndex.groups ⟨preds, ObjMap.create objects, b⟩) k = .ok start := Res.index_eq_ok.2 h1
    simp only [lookupIdx, Atom.ofObjs, hp, Nat.zero_add, Res.index_eq_ok.2 hk, Res.bind_ok, find_names, hf, h1', Res.pure_eq]

omit [StrHash] in
theorem lookup_of_lt {objects : List Obj} {preds : List PredDecl} {b : Bool} (hs : Signature objects preds)
    {I : StateIndex} (hI : I = ⟨preds, ObjMap.create objects, b⟩) {idx : Nat} (hi : idx < total I.gens) :
    ∃ a, I.lookupProp idx = .ok a ∧ I.lookupIdx a = .ok idx ∧ TypeCorrect objects preds a := by
  subst hI
  obtain ⟨k, g, i, start, h1, h2, h3, rfl⟩ := cumSum_find (StateIndex.gens ⟨preds, ObjMap.create objects, b⟩) 0 idx
    (Nat.zero_le _) (by omega)
  simp only [gens, List.getElem?_map, Option.map_eq_some_iff] at h1
  obtain ⟨d, hd, rfl⟩ := h1
  obtain ⟨idx, os, e1, e2, _, _, e5, e6, e7, e8⟩ := lookup_spec hs rfl (b := b) hd h2
  have : idx = start + i := by
    have h3' : (StateIndex.groups ⟨preds, ObjMap.create objects, b⟩)[k]? = some start := h3
    rw [e1] at h3'
    simp at h3'
    omega
  subst this
  exact ⟨_, e7, e8, d, List.mem_of_getElem? hd, e6, os, e5, rfl⟩

omit [StrHash] in
theorem lookup_of_typeCorrect {objects : List Obj} {preds : List PredDecl} {b : Bool} (hs : Signature objects preds)
    {I : StateIndex} (hI : I = ⟨preds, ObjMap.create objects, b⟩) {a : Atom} (ha : TypeCorrect objects preds a) :
    ∃ idx, idx < total I.gens ∧ I.lookupProp idx = .ok a ∧ I.lookupIdx a = .ok idx := by
  subst hI
  obtain ⟨d, hd, hp, os, ho, rfl⟩ := ha
  obtain ⟨k, hk⟩ := List.getElem?_of_mem hd
  have h0 := paramTypes_ne_nil hp ho
  obtain ⟨i, hi⟩ := List.getElem?_of_mem ((mem_cartesian_gen h0).2 ho)
  have hlt := (List.getElem?_eq_some_iff.1 hi).1
  rw [← Comb.size_eq_length h0] at hlt
  obtain ⟨idx, os', _, _, e3, e4, _, _, e7, e8⟩ := lookup_spec hs rfl (b := b) hk hlt
  rw [hi] at e4
  cases e4
  exact ⟨idx, e3, e7, e8⟩

/-! ## Caches -/

def CleanAtom (a : Atom) : Prop := CleanHead a.pred ∧ ∀ n ∈ a.args, CleanArg n

/-- The caches hold right answers. -/
structure CacheOk (I : StateIndex) (c : IndexCache) : Prop where
  props : ∀ i a, (i, a) ∈ c.props → I.lookupProp i = .ok a
  idxs : ∀ n k, (n, k) ∈ c.idxs → ∃ a, CleanAtom a ∧ a.toString = n ∧ I.lookupIdx a = .ok k

omit [StrHash] in
theorem CacheOk.empty (I : StateIndex) : CacheOk I .empty :=
  ⟨fun _ _ h => by simp [IndexCache.empty] at h, fun _ _ h => by simp [IndexCache.empty] at h⟩

omit [StrHash] in
theorem assoc_mem [DecidableEq κ] {k : κ} {v : β} : ∀ {l : List (κ × β)}, assoc k l = some v → (k, v) ∈ l
  | [], h => by simp [assoc] at h
  | (k', v') :: l, h => by
    unfold assoc at h
    split at h
    · rename_i e; subst e; simp at h; subst h; simp
    · exact List.mem_cons_of_mem _ (assoc_mem h)

omit [StrHash] in
theorem getProposition_ok {I : StateIndex} {c : IndexCache} (hc : CacheOk I c) (i : Nat) :
    (I.getProposition c i).1 = I.lookupProp i ∧ CacheOk I (I.getProposition c i).2 := by
  unfold getProposition
  cases h : (if I.useCache then assoc i c.props else none) with
  | some a =>
    refine ⟨?_, hc⟩
    split at h
    · exact (hc.props _ _ (assoc_mem h)).symm
    · simp at h
  | none =>
    cases hl : I.lookupProp i with
    | ok a =>
      refine ⟨rfl, ?_⟩
      dsimp only
      split
      · refine ⟨fun j b hb => ?_, hc.idxs⟩
        rcases List.mem_cons.1 hb with e | hb
        · cases e; exact hl
        · exact hc.props _ _ hb
      · exact hc
    | exc e => exact ⟨rfl, hc⟩
    | ub => exact ⟨rfl, hc⟩
    | fuel => exact ⟨rfl, hc⟩

omit [StrHash] in
theorem getPropositionIndex_ok {I : StateIndex} {c : IndexCache} (hc : CacheOk I c) {a : Atom} (ha : CleanAtom a) :
    (I.getPropositionIndex c a).1 = I.lookupIdx a ∧ CacheOk I (I.getPropositionIndex c a).2 := by
  unfold getPropositionIndex
  cases h : (if I.useCache then assoc a.toString c.idxs else none) with
  | some i =>
    refine ⟨?_, hc⟩
    split at h
    · obtain ⟨b, hb, he, hl⟩ := hc.idxs _ _ (assoc_mem h)
      have : b = a := C13_strings_injective b a hb ha he
      subst this
      exact hl.symm
    · simp at h
  | none =>
    cases hl : I.lookupIdx a with
    | ok i =>
      refine ⟨rfl, ?_⟩
      dsimp only
      split
      · refine ⟨hc.props, fun j b hb => ?_⟩
        rcases List.mem_cons.1 hb with e | hb
        · cases e; exact ⟨a, ha, rfl, hl⟩
        · exact hc.idxs _ _ hb
      · exact hc
    | exc e => exact ⟨rfl, hc⟩
    | ub => exact ⟨rfl, hc⟩
    | fuel => exact ⟨rfl, hc⟩

/-- `stateLoop` without caches. -/
def stateLoop' (I : StateIndex) : List Bool → Nat → State → Res State
  | [], _, s => .ok s
  | false :: bs, i, s => stateLoop' I bs (i + 1) s
  | true :: bs, i, s => do
    let a ← I.lookupProp i
    stateLoop' I bs (i + 1) (s.insert a).2

theorem stateLoop_ok {I : StateIndex} : ∀ (v : List Bool) (i : Nat) (s : State) {c : IndexCache}, CacheOk I c →
    (I.stateLoop v i s c).1 = I.stateLoop' v i s ∧ CacheOk I (I.stateLoop v i s c).2
  | [], _, _, _, hc => ⟨rfl, hc⟩
  | false :: bs, i, s, c, hc => stateLoop_ok bs (i + 1) s hc
  | true :: bs, i, s, c, hc => by
    obtain ⟨h1, h2⟩ := getProposition_ok hc i
    simp only [stateLoop, stateLoop', ← h1]
    generalize I.getProposition c i = r at h1 h2 ⊢
    obtain ⟨r, c'⟩ := r
    cases r with
    | ok a => exact stateLoop_ok bs (i + 1) _ h2
    | exc e => exact ⟨rfl, h2⟩
    | ub => exact ⟨rfl, h2⟩
    | fuel => exact ⟨rfl, h2⟩

/-- `indexLoop` without caches. -/
def indexLoop' (I : StateIndex) : List Atom → List Bool → Res (List Bool)
  | [], v => .ok v
  | a :: as, v => do
    let i ← I.lookupIdx a
    if i < v.length then indexLoop' I as (v.set i true) else .ub

omit [StrHash] in
theorem indexLoop_ok {I : StateIndex} : ∀ (as : List Atom) (v : List Bool) {c : IndexCache}, CacheOk I c →
    (∀ a ∈ as, CleanAtom a) → (I.indexLoop as v c).1 = I.indexLoop' as v ∧ CacheOk I (I.indexLoop as v c).2
  | [], _, _, hc, _ => ⟨rfl, hc⟩
  | a :: as, v, c, hc, ha => by
    obtain ⟨h1, h2⟩ := getPropositionIndex_ok hc (ha a (by simp))
    simp only [indexLoop, indexLoop', ← h1]
    generalize I.getPropositionIndex c a = r at h1 h2 ⊢
    obtain ⟨r, c'⟩ := r
    cases r with
    | ok i =>
      simp only [Res.bind_ok]
      split
      · exact indexLoop_ok as _ h2 (fun b hb => ha b (by simp [hb]))
      · exact ⟨rfl, h2⟩
    | exc e => exact ⟨rfl, h2⟩
    | ub => exact ⟨rfl, h2⟩
    | fuel => exact ⟨rfl, h2⟩

theorem getState_ok {I : StateIndex} {c : IndexCache} (hc : CacheOk I c) (v : List Bool) :
    (I.getState c v).1 = I.stateLoop' v 0 State.empty ∧ CacheOk I (I.getState c v).2 := stateLoop_ok v 0 _ hc

theorem getIndexedState_ok {I : StateIndex} {c : IndexCache} (hc : CacheOk I c) {s : State} (hs : ∀ a ∈ s, CleanAtom a) :
    (I.getIndexedState c s).1 = I.indexLoop' s.elems (List.replicate (total I.gens) false) ∧
      CacheOk I (I.getIndexedState c s).2 := by
  unfold getIndexedState
  rw [size_eq]
  exact indexLoop_ok _ _ hc (fun a ha => hs a (State.mem_elems.1 ha))

/-- The answer without caches. -/
def answer (I : StateIndex) : Query → Answer
  | .proposition i => .proposition (I.lookupProp i)
  | .index a => .index (I.lookupIdx a)
  | .state v => .state (I.stateLoop' v 0 State.empty)
  | .indexed s => .indexed (I.indexLoop' s.elems (List.replicate (total I.gens) false))

theorem ask_ok {I : StateIndex} {c : IndexCache} (hc : CacheOk I c) {q : Query} (hq : q.Clean) :
    (I.ask c q).1 = I.answer q ∧ CacheOk I (I.ask c q).2 := by
  cases q with
  | proposition i => obtain ⟨h1, h2⟩ := getProposition_ok hc i; exact ⟨by simp [ask, answer, h1], h2⟩
  | index a => obtain ⟨h1, h2⟩ := getPropositionIndex_ok hc hq; exact ⟨by simp [ask, answer, h1], h2⟩
  | state v => obtain ⟨h1, h2⟩ := getState_ok hc v; exact ⟨by simp [ask, answer, h1], h2⟩
  | indexed s => obtain ⟨h1, h2⟩ := getIndexedState_ok hc hq; exact ⟨by simp [ask, answer, h1], h2⟩

theorem askAll_ok {I : StateIndex} : ∀ (qs : List Query) {c : IndexCache}, CacheOk I c → (∀ q ∈ qs, q.Clean) →
    (I.askAll c qs).1 = qs.map I.answer ∧ CacheOk I (I.askAll c qs).2
  | [], _, hc, _ => ⟨rfl, hc⟩
  | q :: qs, c, hc, hq => by
    obtain ⟨h1, h2⟩ := ask_ok hc (hq q (by simp))
    obtain ⟨h3, h4⟩ := askAll_ok qs h2 (fun q' h => hq q' (by simp [h]))
    exact ⟨by simp [askAll, h1, h3], h4⟩

theorem Reached.ok {I : StateIndex} {c : IndexCache} (h : I.Reached c) : CacheOk I c := by
  obtain ⟨qs, hq, rfl⟩ := h
  exact (askAll_ok qs (CacheOk.empty I) hq).2

/-! ## Loops -/

theorem stateLoop'_spec {I : StateIndex} : ∀ (v : List Bool) (i : Nat) (s : State),
    (∀ j, v[j]? = some true → ∃ a, I.lookupProp (i + j) = .ok a) →
    ∃ s', I.stateLoop' v i s = .ok s' ∧
      ∀ a, a ∈ s' ↔ a ∈ s ∨ ∃ j, v[j]? = some true ∧ I.lookupProp (i + j) = .ok a
  | [], i, s, _ => ⟨s, rfl, fun a => by simp⟩
  | false :: bs, i, s, h => by
    obtain ⟨s', h1, h2⟩ := stateLoop'_spec bs (i + 1) s (fun j hj => by
      have := h (j + 1) (by simpa using hj)
      rwa [show i + (j + 1) = i + 1 + j by omega] at this)
    refine ⟨s', h1, fun a => (h2 a).trans (or_congr_right ⟨?_, ?_⟩)⟩
    · rintro ⟨j, hj, hl⟩
      exact ⟨j + 1, by simpa using hj, by rwa [show i + (j + 1) = i + 1 + j by omega]⟩
    · rintro ⟨j, hj, hl⟩
      cases j with
      | zero => simp at hj
      | succ j => exact ⟨j, by simpa using hj, by rwa [show i + 1 + j = i + (j + 1) by omega]⟩
  | true :: bs, i, s, h => by
    obtain ⟨b, hb⟩ := h 0 rfl
    obtain ⟨s', h1, h2⟩ := stateLoop'_spec bs (i + 1) (s.insert b).2 (fun j hj => by
      have := h (j + 1) (by simpa using hj)
      rwa [show i + (j + 1) = i + 1 + j by omega] at this)
    have hb' : I.lookupProp i = .ok b := hb
    refine ⟨s', by simp [stateLoop', hb', h1], fun a => (h2 a).trans ?_⟩
    rw [State.mem_insert]
    constructor
    · rintro ((rfl | h) | ⟨j, hj, hl⟩)
      · exact Or.inr ⟨0, rfl, hb⟩
      · exact Or.inl h
      · exact Or.inr ⟨j + 1, by simpa using hj, by rwa [show i + (j + 1) = i + 1 + j by omega]⟩
    · rintro (h | ⟨j, hj, hl⟩)
      · exact Or.inl (Or.inr h)
      · cases j with
        | zero => rw [hb] at hl; cases hl; exact Or.inl (Or.inl rfl)
        | succ j => exact Or.inr ⟨j, by simpa using hj, by rwa [show i + 1 + j = i + (j + 1) by omega]⟩

omit [StrHash] in
theorem indexLoop'_spec {I : StateIndex} : ∀ (as : List Atom) (v : List Bool),
    (∀ a ∈ as, ∃ i, I.lookupIdx a = .ok i ∧ i < v.length) →
    ∃ v', I.indexLoop' as v = .ok v' ∧ v'.length = v.length ∧
      ∀ j < v.length, v'[j]? = some true ↔ v[j]? = some true ∨ ∃ a ∈ as, I.lookupIdx a = .ok j
  | [], v, _ => ⟨v, rfl, rfl, fun j _ => by simp⟩
  | a :: as, v, h => by
    obtain ⟨i, hi, hlt⟩ := h a (by simp)
    obtain ⟨v', h1, h2, h3⟩ := indexLoop'_spec as (v.set i true) (fun b hb => by
      simpa using h b (by simp [hb]))
    refine ⟨v', by simp [indexLoop', hi, hlt, h1], by simpa using h2, fun j hj => ?_⟩
    rw [h3 j (by simpa using hj), List.getElem?_set]
    simp only [List.mem_cons, exists_eq_or_imp, hi, Res.ok.injEq]
    by_cases hij : i = j
    · subst hij; simp [hlt]
    · simp [hij]

end StateIndex
end Symbolic
