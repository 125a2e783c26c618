import Verif.Lemmas.ObjRef
import Verif.Examples.Demo

/-!
# C88: a reference to an object of a Pddl shows this object until it is removed
-/

namespace Symbolic
open PddlHeap

variable (t : Ptree) (hn : ((t.constants ++ t.objects).map Obj.name).Nodup) (ht : t.types ≠ none) (cap : Nat) (grow : Nat → Nat)
include hn ht

/-- **C88, exactly.** Let `r` be a reference to the object at position `k`, taken after some calls. After further calls `r` shows
the object that is at position `k` then, unless there were more objects in between than the capacity was, or there are not
that many objects any more: then reading is undefined. -/
theorem C88_exact (pre post : List Call)
    (hc : Careful (t.constants.map Obj.name) ((t.constants ++ t.objects).map Obj.name) (pre ++ post)) :
    ∃ v w, (ObjVec.make t cap).run grow pre = .ok v ∧ v.run grow post = .ok w ∧
      ∀ k < (namesAfter ((t.constants ++ t.objects).map Obj.name) pre).length, ∃ r, v.ref k = .ok r ∧
        (Fits v.cap (namesAfter ((t.constants ++ t.objects).map Obj.name) pre) post →
          ∀ n, (namesAfter ((t.constants ++ t.objects).map Obj.name) (pre ++ post))[k]? = some n →
            ∃ o, w.read r = .ok o ∧ o.name = n) ∧
        (¬ Fits v.cap (namesAfter ((t.constants ++ t.objects).map Obj.name) pre) post ∨
          (namesAfter ((t.constants ++ t.objects).map Obj.name) (pre ++ post))[k]? = none → w.read r = .ub) := by
  obtain ⟨c1, c2⟩ := careful_append _ _ _ hc
  obtain ⟨v, ps, h1, h2, h3, h4, _⟩ := ObjVec.run_spec grow pre (v := ObjVec.make t cap) (PddlHeap.make_inv t hn) ht c1
  rw [← h4] at c2
  obtain ⟨w, ps', g1, g2, _, g4, _, g6⟩ := ObjVec.run_spec grow post h2 h3 c2
  refine ⟨v, w, h1, g1, fun k hk => ⟨⟨v.buf, k⟩, ?_, ?_, ?_⟩⟩
  · rw [← h4, ← ObjVec.length_objects h2] at hk
    simp only [ObjVec.ref, if_pos hk]
  · intro hf n hkn
    rw [namesAfter_append, ← h4, ← g4, List.getElem?_map, Option.map_eq_some_iff] at hkn
    obtain ⟨o, ho, rfl⟩ := hkn
    rw [← h4] at hf
    refine ⟨o, ?_, rfl⟩
    rw [ObjVec.read_spec g2, if_pos (g6.2 hf).symm]
    exact Res.index_eq_ok.2 ho
  · intro h
    rw [ObjVec.read_spec g2]
    rcases h with h | h
    · rw [← h4, ← g6] at h
      rw [if_neg (Ne.symm h)]
    · rw [namesAfter_append, ← h4, ← g4, List.getElem?_map, Option.map_eq_none_iff] at h
      split
      · simp only [Res.index, h]
      · rfl

/-- **C88**, what holds: a reference shows the same object as long as no object at its position or before is removed and the
capacity suffices. -/
theorem C88_kept_partial (pre post : List Call)
    (hc : Careful (t.constants.map Obj.name) ((t.constants ++ t.objects).map Obj.name) (pre ++ post)) (k : Nat) (n : Name)
    (hk : (namesAfter ((t.constants ++ t.objects).map Obj.name) pre)[k]? = some n)
    (hr : ∀ m, Call.remove m ∈ post → m ∉ (namesAfter ((t.constants ++ t.objects).map Obj.name) pre).take (k + 1)) :
    ∃ v w r, (ObjVec.make t cap).run grow pre = .ok v ∧ v.run grow post = .ok w ∧ v.ref k = .ok r ∧
      (Fits v.cap (namesAfter ((t.constants ++ t.objects).map Obj.name) pre) post → ∃ o, w.read r = .ok o ∧ o.name = n) := by
  obtain ⟨v, w, h1, h2, h3⟩ := C88_exact t hn ht cap grow pre post hc
  have hlt := (List.getElem?_eq_some_iff.1 hk).1
  obtain ⟨r, h4, h5, _⟩ := h3 k hlt
  refine ⟨v, w, r, h1, h2, h4, fun hf => h5 hf n ?_⟩
  obtain ⟨e1, e2⟩ := namesAfter_take (k := k + 1) post _ hlt hr
  rw [namesAfter_append]
  have := congrArg (fun l => l[k]?) e1
  simp only [List.getElem?_take_of_lt (Nat.lt_succ_self k)] at this
  rw [this, hk]

/-- **C88** for copies: a copy of an object is the same as before until this object is removed, whatever else is added or
removed. -/
theorem C88_copy (pre post : List Call)
    (hc : Careful (t.constants.map Obj.name) ((t.constants ++ t.objects).map Obj.name) (pre ++ post)) (k : Nat) (n : Name)
    (hk : (namesAfter ((t.constants ++ t.objects).map Obj.name) pre)[k]? = some n) (hr : Call.remove n ∉ post) :
    ∃ v w r a o, (ObjVec.make t cap).run grow pre = .ok v ∧ v.run grow post = .ok w ∧ v.ref k = .ok r ∧ v.copy r = .ok a ∧
      v.heap.deref a = .ok o ∧ o.name = n ∧ w.heap.deref a = .ok o := by
  obtain ⟨c1, c2⟩ := careful_append _ _ _ hc
  obtain ⟨v, ps, h1, h2, h3, h4, _⟩ := ObjVec.run_spec grow pre (v := ObjVec.make t cap) (PddlHeap.make_inv t hn) ht c1
  rw [← h4] at c2 hk
  obtain ⟨w, ps', g1, _⟩ := ObjVec.run_spec grow post h2 h3 c2
  have hlt := (List.getElem?_eq_some_iff.1 hk).1
  rw [List.getElem?_map, Option.map_eq_some_iff] at hk
  obtain ⟨o, ho, rfl⟩ := hk
  rw [← ObjVec.length_objects h2] at hlt
  have hrd := ObjVec.read_spec h2 v.buf k
  rw [if_pos rfl, Res.index_eq_ok.2 ho, ObjVec.read, Res.bind_eq_ok] at hrd
  obtain ⟨a, ha, hd⟩ := hrd
  exact ⟨v, w, ⟨v.buf, k⟩, a, o, h1, g1, by simp only [ObjVec.ref, if_pos hlt], ha, hd, rfl, ObjVec.run_deref grow post g1 hd hr⟩

omit ht in
/-- **C88, refuted** for removals, for every Pddl: when the object at position `j` (of the problem) is removed, a reference to the
object at a position `k`, `j ≤ k`, shows the next object, another one; for the last position reading is undefined. -/
theorem C88_remove_refuted (ht : t.types ≠ none) (j k : Nat) (hjk : j ≤ k) (hj : t.constants.length ≤ j) (o : Obj)
    (ho : (t.constants ++ t.objects)[j]? = some o) (x : Obj) (hx : (t.constants ++ t.objects)[k]? = some x) :
    ∃ w r, (ObjVec.make t cap).ref k = .ok r ∧ (ObjVec.make t cap).read r = .ok x ∧
      (ObjVec.make t cap).run grow [.remove o.name] = .ok w ∧
      (∀ y, (t.constants ++ t.objects)[k + 1]? = some y → w.read r ≠ .ok x ∧ ∃ z, w.read r = .ok z ∧ z.name = y.name) ∧
      ((t.constants ++ t.objects)[k + 1]? = none → w.read r = .ub) := by
  have hi := PddlHeap.make_inv t hn
  have hjlt := (List.getElem?_eq_some_iff.1 ho).1
  have hklt := (List.getElem?_eq_some_iff.1 hx).1
  have hco : o.name ∉ t.constants.map Obj.name := by
    rw [List.getElem?_append_right hj] at ho
    rw [List.map_append, List.nodup_append] at hn
    intro hm
    exact hn.2.2 _ hm _ (List.mem_map_of_mem (List.mem_of_getElem? ho)) rfl
  have hc : Careful (t.constants.map Obj.name) ((t.constants ++ t.objects).map Obj.name) ([] ++ [.remove o.name]) := ⟨hco, trivial⟩
  obtain ⟨v, w, h1, h2, h3⟩ := C88_exact t hn ht cap grow [] [.remove o.name] hc
  cases h1
  obtain ⟨r, h4, h5, h6⟩ := h3 k (by simpa [namesAfter] using hklt)
  have hread : (ObjVec.make t cap).read r = .ok x := by
    simp only [ObjVec.ref] at h4
    split at h4
    · cases h4
      rw [ObjVec.read_spec hi, if_pos rfl]
      exact Res.index_eq_ok.2 hx
    · cases h4
  have hshift : (namesAfter ((t.constants ++ t.objects).map Obj.name) ([] ++ [.remove o.name]))[k]? =
      ((t.constants ++ t.objects)[k + 1]?).map Obj.name := by
    show (((t.constants ++ t.objects).map Obj.name).erase o.name)[k]? = _
    have hidx : ((t.constants ++ t.objects).map Obj.name).idxOf o.name = j := by
      have e : ((t.constants ++ t.objects).map Obj.name)[j]'(by simpa using hjlt) = o.name := by
        rw [List.getElem_map, (List.getElem?_eq_some_iff.1 ho).2]
      rw [← e]
      exact hn.idxOf_getElem _ _
    rw [erase_eq_eraseIdx, hidx, List.getElem?_eraseIdx_of_ge hjk, List.getElem?_map]
  refine ⟨w, r, h4, hread, h2, fun y hy => ?_, fun hy => ?_⟩
  · obtain ⟨z, e1, e2⟩ := h5 trivial y.name (by rw [hshift, hy]; rfl)
    refine ⟨?_, z, e1, e2⟩
    rw [e1]
    intro e
    cases e
    have e3 : ((t.constants ++ t.objects).map Obj.name)[k]? = ((t.constants ++ t.objects).map Obj.name)[k + 1]? := by
      rw [List.getElem?_map, List.getElem?_map, hx, hy, Option.map_some, Option.map_some, e2]
    have := (List.getElem?_inj (by simpa using hklt) hn).1 e3
    omega
  · exact h6 (.inr (by rw [hshift, hy]; rfl))

/-- **C88, refuted** for additions, for every Pddl, history, capacity and policy: when more objects are added than the capacity
allows, every reference is dangling, although no object was removed; and there always are enough new names. -/
theorem C88_add_refuted (pre : List Call) (type : Name)
    (hc : Careful (t.constants.map Obj.name) ((t.constants ++ t.objects).map Obj.name) pre) :
    ∃ v, (ObjVec.make t cap).run grow pre = .ok v ∧
      (∀ news : List Name, news ≠ [] → news.Nodup →
        (∀ n ∈ news, n ∉ namesAfter ((t.constants ++ t.objects).map Obj.name) pre) →
        v.cap < (namesAfter ((t.constants ++ t.objects).map Obj.name) pre).length + news.length →
        ∃ w, v.run grow (news.map fun n => .add n type) = .ok w ∧
          ∀ k < (namesAfter ((t.constants ++ t.objects).map Obj.name) pre).length, ∃ r, v.ref k = .ok r ∧ w.read r = .ub) ∧
      ∃ news : List Name, news ≠ [] ∧ news.Nodup ∧
        (∀ n ∈ news, n ∉ namesAfter ((t.constants ++ t.objects).map Obj.name) pre) ∧
        v.cap < (namesAfter ((t.constants ++ t.objects).map Obj.name) pre).length + news.length := by
  obtain ⟨v, _, h1, _⟩ := C88_exact t hn ht cap grow pre [] (by simpa using hc)
  refine ⟨v, h1, fun news hne hd hf hl => ?_, ?_⟩
  · obtain ⟨v', w, g1, g2, g3⟩ := C88_exact t hn ht cap grow pre (news.map fun n => .add n type)
      (careful_append_mpr _ _ _ hc (careful_adds _ type news _ hd hf))
    rw [h1] at g1
    cases g1
    refine ⟨w, g2, fun k hk => ?_⟩
    obtain ⟨r, e1, _, e3⟩ := g3 k hk
    exact ⟨r, e1, e3 (.inl (not_fits_adds v.cap type news _ hl hne))⟩
  · obtain ⟨news, e1, e2, e3⟩ := exists_fresh (namesAfter ((t.constants ++ t.objects).map Obj.name) pre) (v.cap + 1)
    exact ⟨news, by rintro rfl; simp at e1, e2, e3, by omega⟩

omit hn ht

/-- A history that meets the conditions: the third reference shows the same object while others are added and removed. -/
example : ∃ v w r, (ObjVec.make Demo.tree 5).run (2 * ·) [.add n!"c" n!"box"] = .ok v ∧
    v.run (2 * ·) [.add n!"d" n!"box", .remove n!"c", .add n!"c" n!"object"] = .ok w ∧ v.ref 1 = .ok r ∧
    (Fits v.cap (namesAfter ((Demo.tree.constants ++ Demo.tree.objects).map Obj.name) [.add n!"c" n!"box"])
      [.add n!"d" n!"box", .remove n!"c", .add n!"c" n!"object"] → ∃ o, w.read r = .ok o ∧ o.name = n!"a") :=
  C88_kept_partial Demo.tree (by decide) (by decide) 5 (2 * ·) [.add n!"c" n!"box"]
    [.add n!"d" n!"box", .remove n!"c", .add n!"c" n!"object"] (by simp [Careful]; decide) 1 n!"a" (by decide)
    (by simp; decide)

/-- Without room for another object, the first addition makes all references dangle. -/
example : (do
    let v ← (ObjVec.make Demo.tree 3).run (2 * ·) []
    let r ← v.ref 0
    let w ← v.run (2 * ·) [.add n!"c" n!"box"]
    w.read r) = .ub := by decide +kernel

end Symbolic
