import Verif.Spec.Objects
import Verif.Spec.Typing
import Verif.Lemmas.Res
import Verif.Lemmas.Object
import Mathlib.Data.List.Nodup

/-! # Symbols on the heap -/

namespace Symbolic.PddlHeap

/-- The symbols at these addresses. -/
abbrev Holds (h : PddlHeap) (as : List Nat) (os : List Obj) : Prop := List.Forall₂ (fun a o => h.deref a = .ok o) as os

theorem derefAll_iff {h : PddlHeap} : ∀ {as : List Nat} {os : List Obj}, h.derefAll as = .ok os ↔ h.Holds as os
  | [], os => by simp [derefAll, eq_comm]
  | a :: as, os => by
    simp only [derefAll, Res.bind_eq_ok, Res.pure_eq]
    constructor
    · rintro ⟨o, ho, os', hos, he⟩
      cases he
      exact .cons ho (derefAll_iff.1 hos)
    · intro hF
      cases hF with
      | cons ho hos => exact ⟨_, ho, _, derefAll_iff.2 hos, rfl⟩

theorem findName_spec {h : PddlHeap} {name : Name} : ∀ {as : List Nat} {os : List Obj}, h.Holds as os →
    h.findName name as = .ok (if name ∈ os.map Obj.name then some ((os.map Obj.name).idxOf name) else none)
  | [], _, hF => by cases hF; simp [findName]
  | a :: as, _, hF => by
    cases hF with
    | cons ho hos =>
      rename_i o os
      simp only [findName, ho, Res.bind_ok, findName_spec hos]
      by_cases hn : o.name = name
      · simp [hn]
      · rw [if_neg hn]
        simp only [Res.pure_eq, List.map_cons, List.mem_cons, Ne.symm hn, false_or]
        by_cases hm : name ∈ os.map Obj.name
        · simp only [hm, if_true, Option.map_some]
          rw [List.idxOf_cons_ne _ hn]
        · simp [hm]

theorem Holds.live {h : PddlHeap} {as : List Nat} {os : List Obj} (hF : h.Holds as os) {a : Nat} (ha : a ∈ as) :
    ¬ h.Dangling a := by
  induction hF with
  | nil => simp at ha
  | cons ho _ ih =>
    rcases List.mem_cons.1 ha with rfl | ha
    · simp [Dangling, ho]
    · exact ih ha

theorem Holds.lt {h : PddlHeap} {as : List Nat} {os : List Obj} (hF : h.Holds as os) {a : Nat} (ha : a ∈ as) :
    a < h.cells.length := by
  by_contra hc
  exact hF.live ha (by simp [Dangling, deref, List.getElem?_eq_none (Nat.le_of_not_lt hc)])

theorem Holds.free {h : PddlHeap} {as : List Nat} {os : List Obj} (hF : h.Holds as os) {a : Nat} (ha : a ∉ as)
    {h' : PddlHeap} (hc : h'.cells = h.cells.set a none) : h'.Holds as os := by
  induction hF with
  | nil => exact .nil
  | cons ho _ ih =>
    rename_i b o bs os
    simp only [List.mem_cons, not_or] at ha
    refine .cons ?_ (ih ha.2)
    simp only [deref, hc, List.getElem?_set_ne ha.1] at ho ⊢
    exact ho

theorem Holds.grow {h : PddlHeap} {as : List Nat} {os : List Obj} (hF : h.Holds as os) {x : Option Obj}
    {h' : PddlHeap} (hc : h'.cells = h.cells ++ [x]) : h'.Holds as os := by
  induction hF with
  | nil => exact .nil
  | cons ho _ ih =>
    refine .cons ?_ ih
    rename_i b o _ _ _
    have hb : b < h.cells.length := Holds.lt (as := [b]) (.cons ho .nil) (by simp)
    simp only [deref, hc, List.getElem?_append_left hb] at ho ⊢
    exact ho

theorem Holds.eraseIdx {h : PddlHeap} : ∀ {as : List Nat} {os : List Obj} (i : Nat), h.Holds as os →
    h.Holds (as.eraseIdx i) (os.eraseIdx i)
  | _, _, i, .nil => by simp
  | _, _, 0, .cons _ hos => by simpa using hos
  | _, _, i + 1, .cons ho hos => .cons ho (Holds.eraseIdx i hos)

theorem Holds.append {h : PddlHeap} {as bs : List Nat} {os ps : List Obj} (h1 : h.Holds as os) (h2 : h.Holds bs ps) :
    h.Holds (as ++ bs) (os ++ ps) := List.rel_append h1 h2

theorem dangling_freed {h h' : PddlHeap} {a : Nat} (hc : h'.cells = h.cells.set a none) : h'.Dangling a := by
  simp only [Dangling, deref, hc]
  by_cases ha : a < h.cells.length
  · simp [List.getElem?_set_self ha]
  · rw [List.getElem?_eq_none (by simpa using ha)]

/-- The pointers are right. -/
structure Inv (h : PddlHeap) (cs ps : List Obj) : Prop where
  consts : h.Holds h.domConstants cs
  objs : h.Holds h.probObjects ps
  all : h.objects = h.domConstants ++ h.probObjects
  nodup : h.objects.Nodup
  names : ((cs ++ ps).map Obj.name).Nodup

theorem holds_range {h : PddlHeap} {os : List Obj} {k : Nat} (hc : ∀ i o, os[i]? = some o → h.deref (k + i) = .ok o) :
    h.Holds ((List.range os.length).map (k + ·)) os := by
  refine List.forall₂_iff_get.2 ⟨by simp, fun i h1 h2 => ?_⟩
  simp only [List.get_eq_getElem, List.getElem_map, List.getElem_range]
  exact hc i _ (List.getElem?_eq_getElem (by simpa using h2))

theorem make_deref (t : Ptree) {i : Nat} {o : Obj} (ho : (t.constants ++ t.objects)[i]? = some o) :
    (make t).deref i = .ok o := by
  simp only [deref, make, List.getElem?_map, ho, Option.map_some]

theorem make_inv (t : Ptree) (hn : ((t.constants ++ t.objects).map Obj.name).Nodup) :
    (make t).Inv t.constants t.objects where
  consts := by
    have := holds_range (h := make t) (os := t.constants) (k := 0) fun i o ho => make_deref t (by
      rw [Nat.zero_add, List.getElem?_append_left (List.getElem?_eq_some_iff.1 ho).1, ho])
    simpa [make] using this
  objs := holds_range fun i o ho => make_deref t (by
    rw [List.getElem?_append_right (Nat.le_add_right _ _), Nat.add_sub_cancel_left, ho])
  all := by
    simp only [make, List.length_append]
    rw [List.range_add]
  nodup := List.nodup_range
  names := hn

/-- The type chain `AddObject` gives to a new symbol. -/
def chainOf (types : List (List Name)) (type : Name) : List Name :=
  match types.find? (fun c => decide (c.head? = some type)) with
  | some c => c
  | none => Pddl.defaultChain types

theorem addObject_inv {h : PddlHeap} {cs ps : List Obj} (hi : h.Inv cs ps) {types : List (List Name)}
    (ht : h.types = some types) {name type : Name} (hn : name ∉ (cs ++ ps).map Obj.name) :
    ∃ h', h.addObject name type = .ok h' ∧ h'.types = h.types ∧ h'.Inv cs (ps ++ [⟨name, chainOf types type⟩]) := by
  refine ⟨{ h with
    cells := h.cells ++ [some ⟨name, chainOf types type⟩]
    probObjects := h.probObjects ++ [h.cells.length]
    objects := h.objects ++ [h.cells.length] }, ?_, rfl, ?_⟩
  · simp only [addObject, ht]
    rfl
  refine ⟨hi.consts.grow rfl, ?_, ?_, ?_, ?_⟩
  · refine Holds.append (hi.objs.grow rfl) (.cons ?_ .nil)
    simp [deref, chainOf]
  · simp [hi.all]
  · simp only
    refine List.nodup_append.2 ⟨hi.nodup, by simp, ?_⟩
    rintro a ha b hb rfl
    have hlt : a < h.cells.length := by
      rw [hi.all] at ha
      exact (hi.consts.append hi.objs).lt ha
    simp at hb
    omega
  · rw [← List.append_assoc, List.map_append]
    refine List.nodup_append.2 ⟨hi.names, by simp, ?_⟩
    rintro a ha b hb rfl
    simp at hb
    subst hb
    exact hn ha

theorem erase_eq_eraseIdx {name : Name} {ns : List Name} : ns.erase name = ns.eraseIdx (ns.idxOf name) := by
  exact List.erase_eq_eraseIdx_of_idxOf rfl

theorem map_eraseIdx (f : α → β) : ∀ (l : List α) (i : Nat), (l.eraseIdx i).map f = (l.map f).eraseIdx i
  | [], _ => by simp
  | _ :: _, 0 => by simp
  | _ :: l, i + 1 => by simp [map_eraseIdx f l i]

theorem removeObject_inv {h : PddlHeap} {cs ps : List Obj} (hi : h.Inv cs ps) {name : Name}
    (hn : name ∉ cs.map Obj.name) :
    ∃ h' ps', h.removeObject name = .ok h' ∧ h'.types = h.types ∧ h'.Inv cs ps' ∧
      ps'.map Obj.name = (ps.map Obj.name).erase name ∧ ps' ⊆ ps ∧ (∀ o ∈ ps, o.name ≠ name → o ∈ ps') := by
  have hall := hi.consts.append hi.objs
  have hf := findName_spec (name := name) hall
  have hf' := findName_spec (name := name) hi.objs
  rw [← hi.all] at hf
  by_cases hm : name ∈ ps.map Obj.name
  · have hm' : name ∈ (cs ++ ps).map Obj.name := by simp only [List.map_append, List.mem_append]; exact Or.inr hm
    rw [if_pos hm'] at hf
    rw [if_pos hm] at hf'
    have hidx : ((cs ++ ps).map Obj.name).idxOf name = cs.length + (ps.map Obj.name).idxOf name := by
      rw [List.map_append, List.idxOf_append_of_notMem hn]
      simp
    generalize hj : (ps.map Obj.name).idxOf name = j at hidx hf'
    rw [hidx] at hf
    have hlen := hi.objs.length_eq
    have hlen' := hi.consts.length_eq
    have hjlt : j < ps.length := by
      rw [← hj]
      simpa using List.idxOf_lt_length_iff.2 hm
    have hjlt' : j < h.probObjects.length := by omega
    have hget : h.objects[cs.length + j]? = some h.probObjects[j] := by
      rw [hi.all, ← hlen', List.getElem?_append_right (by omega), Nat.add_sub_cancel_left, List.getElem?_eq_getElem hjlt']
    have herase : h.objects.eraseIdx (cs.length + j) = h.domConstants ++ h.probObjects.eraseIdx j := by
      rw [hi.all, List.eraseIdx_append_of_length_le (by omega), ← hlen', Nat.add_sub_cancel_left]
    have hnd := hi.nodup
    rw [hi.all, List.nodup_append] at hnd
    refine ⟨{ h with
      objects := h.objects.eraseIdx (cs.length + j)
      probObjects := h.probObjects.eraseIdx j
      cells := h.cells.set h.probObjects[j] none }, ps.eraseIdx j, ?_, rfl, ?_, ?_, ?_, ?_⟩
    · simp only [removeObject, hf, Res.bind_ok, Res.index_eq_ok.2 hget, hf', Res.pure_eq]
    · have hna : h.probObjects[j] ∉ h.probObjects.eraseIdx j := by
        rw [List.mem_eraseIdx_iff_getElem]
        rintro ⟨i, hi', hne, he⟩
        exact hne ((List.Nodup.getElem_inj_iff hnd.2.1).1 he)
      refine ⟨?_, ?_, herase, ?_, ?_⟩
      · refine hi.consts.free (fun hc => ?_) rfl
        exact hnd.2.2 _ hc _ (List.getElem_mem hjlt') rfl
      · exact (hi.objs.eraseIdx j).free hna rfl
      · exact hi.nodup.sublist (List.eraseIdx_sublist _ _)
      · refine hi.names.sublist ?_
        exact (List.Sublist.append_left (List.eraseIdx_sublist _ _) _).map _
    · rw [erase_eq_eraseIdx, hj, map_eraseIdx]
    · exact List.eraseIdx_subset
    · intro o ho hne
      rw [List.mem_eraseIdx_iff_getElem]
      obtain ⟨i, hi', rfl⟩ := List.mem_iff_getElem.1 ho
      refine ⟨i, hi', ?_, rfl⟩
      rintro rfl
      apply hne
      have := List.getElem_idxOf (List.idxOf_lt_length_iff.2 hm)
      simp only [hj, List.getElem_map] at this
      exact this
  · have hm' : name ∉ (cs ++ ps).map Obj.name := by
      simp only [List.map_append, List.mem_append, not_or]; exact ⟨hn, hm⟩
    rw [if_neg hm'] at hf
    exact ⟨h, ps, by simp [removeObject, hf], rfl, hi, (List.erase_of_not_mem hm).symm, fun _ h => h, fun o h _ => h⟩

theorem removeObject_found {h : PddlHeap} {name : Name} {i a : Nat} {j : Option Nat}
    (h1 : h.findName name h.objects = .ok (some i)) (h2 : Res.index h.objects i = .ok a)
    (h3 : h.findName name h.probObjects = .ok j) :
    ∃ h', h.removeObject name = .ok h' ∧ h'.cells = h.cells.set a none ∧ h'.omap = h.omap ∧ h'.constants = h.constants ∧
      h'.domConstants = h.domConstants := by
  simp [removeObject, h1, h2, h3]

theorem lookup_inv {h : PddlHeap} {cs ps : List Obj} (hi : h.Inv cs ps) (name : Name) :
    (name ∈ (cs ++ ps).map Obj.name → ∃ a o, h.lookup name = .ok a ∧ a ∈ h.objects ∧ h.deref a = .ok o ∧ o.name = name) ∧
    (name ∉ (cs ++ ps).map Obj.name → h.lookup name = .exc .runtimeError) := by
  have key : ∀ {as : List Nat} {os : List Obj}, h.Holds as os → name ∈ os.map Obj.name →
      ∃ a o, Res.index as ((os.map Obj.name).idxOf name) = .ok a ∧ a ∈ as ∧ h.deref a = .ok o ∧ o.name = name := by
    intro as os hF hm
    have hlt := List.idxOf_lt_length_iff.2 hm
    have hlt' : (os.map Obj.name).idxOf name < os.length := by simpa using hlt
    have hla : (os.map Obj.name).idxOf name < as.length := by rw [hF.length_eq]; exact hlt'
    refine ⟨as[(os.map Obj.name).idxOf name], os[(os.map Obj.name).idxOf name], Res.index_lt hla, List.getElem_mem _, ?_, ?_⟩
    · exact (List.forall₂_iff_get.1 hF).2 _ hla hlt'
    · have := List.getElem_idxOf hlt
      rw [List.getElem_map] at this
      exact this
  have hc := findName_spec (name := name) hi.consts
  have ho := findName_spec (name := name) hi.objs
  by_cases h1 : name ∈ cs.map Obj.name
  · refine ⟨fun _ => ?_, fun hn => absurd (by rw [List.map_append, List.mem_append]; exact Or.inl h1) hn⟩
    rw [if_pos h1] at hc
    obtain ⟨a, o, e1, e2, e3⟩ := key hi.consts h1
    exact ⟨a, o, by simp only [lookup, hc, Res.bind_ok, e1], by rw [hi.all]; exact List.mem_append_left _ e2, e3⟩
  · rw [if_neg h1] at hc
    by_cases h2 : name ∈ ps.map Obj.name
    · refine ⟨fun _ => ?_, fun hn => absurd (by rw [List.map_append, List.mem_append]; exact Or.inr h2) hn⟩
      rw [if_pos h2] at ho
      obtain ⟨a, o, e1, e2, e3⟩ := key hi.objs h2
      exact ⟨a, o, by simp only [lookup, hc, ho, Res.bind_ok, e1], by rw [hi.all]; exact List.mem_append_right _ e2, e3⟩
    · rw [if_neg h2] at ho
      refine ⟨fun hm => ?_, fun _ => by simp [lookup, hc, ho]⟩
      rw [List.map_append, List.mem_append] at hm
      exact absurd hm (by simp [h1, h2])

/-! ## The object map -/

theorem pushAddr_mem {m : List (Name × List Nat)} {t t' : Name} {a b : Nat}
    (h : ∃ e, m.find? (fun e => decide (e.1 = t')) = some e ∧ b ∈ e.2) :
    ∃ e, (pushAddr m t a).find? (fun e => decide (e.1 = t')) = some e ∧ b ∈ e.2 := by
  induction m with
  | nil => simp at h
  | cons e m ih =>
    obtain ⟨t0, as⟩ := e
    simp only [pushAddr]
    by_cases h1 : t0 = t
    · rw [if_pos h1]
      by_cases h2 : t0 = t'
      · simp only [List.find?_cons, h2, decide_true, Option.some.injEq, exists_eq_left'] at h ⊢
        exact List.mem_append_left _ h
      · simpa [List.find?_cons, h2] using h
    · rw [if_neg h1]
      by_cases h2 : t0 = t'
      · simpa [List.find?_cons, h2] using h
      · have : decide (t0 = t') = false := by simp [h2]
        simp only [List.find?_cons, this] at h ⊢
        exact ih h

theorem pushAddr_self (m : List (Name × List Nat)) (t : Name) (a : Nat) :
    ∃ e, (pushAddr m t a).find? (fun e => decide (e.1 = t)) = some e ∧ a ∈ e.2 := by
  induction m with
  | nil => simp [pushAddr]
  | cons e m ih =>
    obtain ⟨t0, as⟩ := e
    simp only [pushAddr]
    by_cases h1 : t0 = t
    · simp [h1]
    · rw [if_neg h1]
      have : decide (t0 = t) = false := by simp [h1]
      simp only [List.find?_cons, this]
      exact ih

theorem foldPush_mem {t' : Name} {b a : Nat} : ∀ (ts : List Name) (m : List (Name × List Nat)),
    (∃ e, m.find? (fun e => decide (e.1 = t')) = some e ∧ b ∈ e.2) →
    ∃ e, (ts.foldl (fun m t => pushAddr m t a) m).find? (fun e => decide (e.1 = t')) = some e ∧ b ∈ e.2
  | [], _, h => h
  | _ :: ts, _, h => foldPush_mem ts _ (pushAddr_mem h)

theorem foldPush_self {t' : Name} {a : Nat} : ∀ (ts : List Name) (m : List (Name × List Nat)), t' ∈ ts →
    ∃ e, (ts.foldl (fun m t => pushAddr m t a) m).find? (fun e => decide (e.1 = t')) = some e ∧ a ∈ e.2
  | t :: ts, m, h => by
    rcases List.mem_cons.1 h with rfl | h
    · exact foldPush_mem ts _ (pushAddr_self m t' a)
    · exact foldPush_self ts _ h

theorem createMap_mem {t' : Name} {b : Nat} : ∀ (os : List Obj) (i : Nat) (m : List (Name × List Nat)),
    (∃ e, m.find? (fun e => decide (e.1 = t')) = some e ∧ b ∈ e.2) →
    ∃ e, (createMap os i m).find? (fun e => decide (e.1 = t')) = some e ∧ b ∈ e.2
  | [], _, _, h => h
  | _ :: os, _, _, h => createMap_mem os _ _ (foldPush_mem _ _ h)

theorem createMap_self {t' : Name} : ∀ (os : List Obj) (i j : Nat) (m : List (Name × List Nat)) (o : Obj), os[j]? = some o →
    t' ∈ o.listTypes → ∃ e, (createMap os i m).find? (fun e => decide (e.1 = t')) = some e ∧ i + j ∈ e.2
  | o' :: os, i, 0, m, o, h, ht => by
    simp only [List.getElem?_cons_zero, Option.some.injEq] at h
    subst h
    exact createMap_mem os _ _ (foldPush_self _ _ ht)
  | o' :: os, i, j + 1, m, o, h, ht => by
    simp only [List.getElem?_cons_succ] at h
    have := createMap_self os (i + 1) j (o'.listTypes.foldl (fun m t => pushAddr m t i) m) o h ht
    rwa [show i + 1 + j = i + (j + 1) by omega] at this

/-- An entry of the map has the address. -/
def MapsTo (m : List (Name × List Nat)) (t : Name) (a : Nat) : Prop :=
  ∃ e, m.find? (fun e => decide (e.1 = t)) = some e ∧ a ∈ e.2

/-- No entry is empty. -/
def NoEmpty (m : List (Name × List Nat)) : Prop := ∀ e ∈ m, e.2 ≠ []

theorem pushAddr_only {m : List (Name × List Nat)} {t t' : Name} {a b : Nat} (h : MapsTo (pushAddr m t a) t' b) :
    (t' = t ∧ b = a) ∨ MapsTo m t' b := by
  induction m with
  | nil =>
    simp only [pushAddr, MapsTo, List.find?_cons, List.find?_nil] at h
    by_cases h1 : t = t'
    · simp only [h1, decide_true, Option.some.injEq, exists_eq_left', List.mem_singleton] at h
      exact .inl ⟨h1.symm, h⟩
    · simp [h1] at h
  | cons e m ih =>
    obtain ⟨t0, as⟩ := e
    simp only [pushAddr, MapsTo] at h ⊢
    by_cases h1 : t0 = t
    · rw [if_pos h1] at h
      by_cases h2 : t0 = t'
      · simp only [List.find?_cons, h2, decide_true, Option.some.injEq, exists_eq_left', List.mem_append,
          List.mem_singleton] at h ⊢
        rcases h with h | h
        · exact .inr h
        · exact .inl ⟨by rw [← h2, h1], h⟩
      · right; simpa [List.find?_cons, h2] using h
    · rw [if_neg h1] at h
      by_cases h2 : t0 = t'
      · right; simpa [List.find?_cons, h2] using h
      · have : decide (t0 = t') = false := by simp [h2]
        simp only [List.find?_cons, this] at h ⊢
        exact ih h

theorem pushAddr_noEmpty {m : List (Name × List Nat)} (t : Name) (a : Nat) (h : NoEmpty m) : NoEmpty (pushAddr m t a) := by
  induction m with
  | nil => simp [pushAddr, NoEmpty]
  | cons e m ih =>
    obtain ⟨t0, as⟩ := e
    have h1 : as ≠ [] ∧ NoEmpty m := by simpa [NoEmpty] using h
    simp only [pushAddr]
    split
    · simpa [NoEmpty] using h1.2
    · have := ih h1.2
      simp only [NoEmpty, List.mem_cons, forall_eq_or_imp]
      exact ⟨h1.1, this⟩

theorem foldPush_only {t' : Name} {a b : Nat} : ∀ (ts : List Name) (m : List (Name × List Nat)),
    MapsTo (ts.foldl (fun m t => pushAddr m t a) m) t' b → (t' ∈ ts ∧ b = a) ∨ MapsTo m t' b
  | [], _, h => .inr h
  | t :: ts, m, h => by
    rcases foldPush_only ts _ h with h | h
    · exact .inl ⟨List.mem_cons_of_mem _ h.1, h.2⟩
    · rcases pushAddr_only h with h | h
      · exact .inl ⟨by simp [h.1], h.2⟩
      · exact .inr h

theorem foldPush_noEmpty (a : Nat) : ∀ (ts : List Name) (m : List (Name × List Nat)), NoEmpty m →
    NoEmpty (ts.foldl (fun m t => pushAddr m t a) m)
  | [], _, h => h
  | t :: ts, _, h => foldPush_noEmpty a ts _ (pushAddr_noEmpty t a h)

theorem createMap_only {t' : Name} {b : Nat} : ∀ (os : List Obj) (i : Nat) (m : List (Name × List Nat)),
    MapsTo (createMap os i m) t' b → (∃ j o, os[j]? = some o ∧ t' ∈ o.listTypes ∧ b = i + j) ∨ MapsTo m t' b
  | [], _, _, h => .inr h
  | o :: os, i, m, h => by
    rcases createMap_only os _ _ h with ⟨j, o', h1, h2, h3⟩ | h
    · exact .inl ⟨j + 1, o', by simpa using h1, h2, by omega⟩
    · rcases foldPush_only _ _ h with h | h
      · exact .inl ⟨0, o, by simp, h.1, by simpa using h.2⟩
      · exact .inr h

theorem createMap_noEmpty : ∀ (os : List Obj) (i : Nat) (m : List (Name × List Nat)), NoEmpty m → NoEmpty (createMap os i m)
  | [], _, _, h => h
  | _ :: os, _, _, h => createMap_noEmpty os _ _ (foldPush_noEmpty _ _ _ h)

theorem make_ofType_iff (t : Ptree) (type : Name) (a : Nat) :
    MapsTo (make t).omap type a ↔ ∃ o, (t.constants ++ t.objects)[a]? = some o ∧ type ∈ o.listTypes := by
  constructor
  · intro h
    rcases createMap_only _ 0 [] h with ⟨j, o, h1, h2, h3⟩ | ⟨e, h, _⟩
    · exact ⟨o, by rw [h3, Nat.zero_add]; exact h1, h2⟩
    · simp at h
  · rintro ⟨o, h1, h2⟩
    have := createMap_self (t.constants ++ t.objects) 0 a [] o h1 h2
    rwa [Nat.zero_add] at this

theorem make_noEmpty (t : Ptree) : NoEmpty (make t).omap := createMap_noEmpty _ _ _ (by simp [NoEmpty])

theorem make_ofType (t : Ptree) {j : Nat} {o : Obj} (ho : (t.constants ++ t.objects)[j]? = some o) {type : Name}
    (ht : type ∈ o.listTypes) : ∃ as, (make t).ofType type = .ok as ∧ j ∈ as := by
  obtain ⟨e, h1, h2⟩ := (make_ofType_iff t type j).2 ⟨o, ho, ht⟩
  exact ⟨e.2, by simp only [ofType, h1], h2⟩

end Symbolic.PddlHeap
