import Verif.Spec.ObjRef
import Verif.Lemmas.Heap

/-!
# Lemmas about references to objects
-/

namespace Symbolic

namespace PddlHeap

theorem namesAfter_append : ∀ (cs ds : List Call) (ns : List Name), namesAfter ns (cs ++ ds) = namesAfter (namesAfter ns cs) ds
  | [], _, _ => rfl
  | .add _ _ :: cs, ds, _ => namesAfter_append cs ds _
  | .remove _ :: cs, ds, _ => namesAfter_append cs ds _

theorem careful_append {consts : List Name} : ∀ (cs ds : List Call) (ns : List Name), Careful consts ns (cs ++ ds) →
    Careful consts ns cs ∧ Careful consts (namesAfter ns cs) ds
  | [], _, _, h => ⟨trivial, h⟩
  | .add _ _ :: cs, ds, _, h => ⟨⟨h.1, (careful_append cs ds _ h.2).1⟩, (careful_append cs ds _ h.2).2⟩
  | .remove _ :: cs, ds, _, h => ⟨⟨h.1, (careful_append cs ds _ h.2).1⟩, (careful_append cs ds _ h.2).2⟩

theorem findName_some {h : PddlHeap} {name : Name} : ∀ {as : List Nat} {i : Nat}, h.findName name as = .ok (some i) →
    ∃ a o, as[i]? = some a ∧ h.deref a = .ok o ∧ o.name = name
  | a :: as, i, hf => by
    simp only [findName, Res.bind_eq_ok] at hf
    obtain ⟨o, ho, hf⟩ := hf
    split at hf
    · rename_i hn
      simp only [Res.pure_eq, Res.ok.injEq, Option.some.injEq] at hf
      subst hf
      exact ⟨a, o, rfl, ho, hn⟩
    · obtain ⟨r, hr, hf⟩ := Res.bind_eq_ok.1 hf
      simp only [Res.pure_eq, Res.ok.injEq, Option.map_eq_some_iff] at hf
      obtain ⟨j, rfl, rfl⟩ := hf
      obtain ⟨b, o', h1, h2⟩ := findName_some hr
      exact ⟨b, o', by simpa using h1, h2⟩

/-- What `RemoveObject` leaves alive. -/
theorem removeObject_deref {h h' : PddlHeap} {name : Name} (hr : h.removeObject name = .ok h') {a : Nat} {o : Obj}
    (ha : h.deref a = .ok o) (hn : o.name ≠ name) : h'.deref a = .ok o := by
  simp only [removeObject, Res.bind_eq_ok] at hr
  obtain ⟨i, hi, hr⟩ := hr
  cases i with
  | none => cases hr; exact ha
  | some i =>
    simp only [Res.bind_eq_ok] at hr
    obtain ⟨s, hs, j, _, hr⟩ := hr
    cases hr
    obtain ⟨b, ob, h1, h2, h3⟩ := findName_some hi
    rw [Res.index_eq_ok, h1, Option.some.injEq] at hs
    subst hs
    have hne : b ≠ a := by
      rintro rfl
      rw [ha] at h2
      cases h2
      exact hn h3
    simp only [deref, List.getElem?_set_ne hne] at ha ⊢
    exact ha

theorem addObject_deref {h h' : PddlHeap} {name type : Name} (hr : h.addObject name type = .ok h') {a : Nat} {o : Obj}
    (ha : h.deref a = .ok o) : h'.deref a = .ok o := by
  cases ht : h.types with
  | none => simp [addObject, ht] at hr
  | some types =>
    simp only [addObject, ht, Res.ok.injEq] at hr
    subst hr
    have hb : a < h.cells.length := Holds.lt (as := [a]) (.cons ha .nil) (by simp)
    simp only [deref, List.getElem?_append_left hb] at ha ⊢
    exact ha

theorem take_erase {k : Nat} {n : Name} : ∀ {ns : List Name}, n ∉ ns.take k → (ns.erase n).take k = ns.take k ∨ ns.length < k := by
  induction k with
  | zero => intros; left; rfl
  | succ k ih =>
    intro ns h
    cases ns with
    | nil => right; simp
    | cons m ns =>
      simp only [List.take_succ_cons, List.mem_cons, not_or] at h
      rw [List.erase_cons_tail (by simpa using Ne.symm h.1), List.take_succ_cons, List.take_succ_cons]
      rcases ih h.2 with h | h
      · left; rw [h]
      · right; simpa using h

/-- The first objects stay when none of them is removed. -/
theorem namesAfter_take {k : Nat} : ∀ (cs : List Call) (ns : List Name), k ≤ ns.length →
    (∀ n, Call.remove n ∈ cs → n ∉ ns.take k) → (namesAfter ns cs).take k = ns.take k ∧ k ≤ (namesAfter ns cs).length
  | [], _, hk, _ => ⟨rfl, hk⟩
  | .add n ty :: cs, ns, hk, h => by
    have e : (ns ++ [n]).take k = ns.take k := List.take_append_of_le_length hk
    have := namesAfter_take (k := k) cs (ns ++ [n]) (by simp; omega) fun m hm => by rw [e]; exact h m (List.mem_cons_of_mem _ hm)
    rwa [e] at this
  | .remove n :: cs, ns, hk, h => by
    rcases take_erase (h n List.mem_cons_self) with e | e
    · have hl : k ≤ (ns.erase n).length := by
        have := congrArg List.length e
        simp only [List.length_take] at this
        omega
      have := namesAfter_take (k := k) cs (ns.erase n) hl fun m hm => by rw [e]; exact h m (List.mem_cons_of_mem _ hm)
      rwa [e] at this
    · omega

theorem length_le_sum {n : Name} : ∀ {ns : List Name}, n ∈ ns → n.length ≤ (ns.map List.length).sum
  | m :: ns, h => by
    simp only [List.map_cons, List.sum_cons]
    rcases List.mem_cons.1 h with rfl | h
    · omega
    · have := length_le_sum h
      omega

/-- There are as many new names as one likes. -/
theorem exists_fresh (ns : List Name) (m : Nat) : ∃ news : List Name, news.length = m ∧ news.Nodup ∧ ∀ n ∈ news, n ∉ ns := by
  refine ⟨(List.range m).map fun i => List.replicate ((ns.map List.length).sum + 1 + i) 'x', by simp, ?_, ?_⟩
  · refine (List.nodup_map_iff_inj_on List.nodup_range).2 fun i _ j _ h => ?_
    have := congrArg List.length h
    simp only [List.length_replicate] at this
    omega
  · intro n hn hm
    obtain ⟨i, _, rfl⟩ := List.mem_map.1 hn
    have := length_le_sum hm
    simp only [List.length_replicate] at this
    omega

theorem namesAfter_adds (ty : Name) : ∀ (news ns : List Name), namesAfter ns (news.map fun n => .add n ty) = ns ++ news
  | [], ns => by simp [namesAfter]
  | n :: news, ns => by simp [namesAfter, namesAfter_adds ty news]

theorem careful_adds (consts : List Name) (ty : Name) : ∀ (news ns : List Name), news.Nodup → (∀ n ∈ news, n ∉ ns) →
    Careful consts ns (news.map fun n => .add n ty)
  | [], _, _, _ => trivial
  | n :: news, ns, h1, h2 => by
    rw [List.nodup_cons] at h1
    refine ⟨h2 n List.mem_cons_self, careful_adds consts ty news _ h1.2 fun m hm hc => ?_⟩
    rcases List.mem_append.1 hc with hc | hc
    · exact h2 m (List.mem_cons_of_mem _ hm) hc
    · simp only [List.mem_singleton] at hc
      exact h1.1 (hc ▸ hm)

theorem not_fits_adds (cap : Nat) (ty : Name) : ∀ (news ns : List Name), cap < ns.length + news.length → news ≠ [] →
    ¬ Fits cap ns (news.map fun n => .add n ty)
  | [n], ns, h, _, hf => by
    have := hf.1
    simp at h
    omega
  | n :: m :: news, ns, h, _, hf => by
    refine not_fits_adds cap ty (m :: news) (ns ++ [n]) ?_ (by simp) hf.2
    simp at h ⊢
    omega

theorem careful_append_mpr {consts : List Name} : ∀ (cs ds : List Call) (ns : List Name), Careful consts ns cs →
    Careful consts (namesAfter ns cs) ds → Careful consts ns (cs ++ ds)
  | [], _, _, _, h => h
  | .add _ _ :: cs, ds, _, h, h' => ⟨h.1, careful_append_mpr cs ds _ h.2 h'⟩
  | .remove _ :: cs, ds, _, h, h' => ⟨h.1, careful_append_mpr cs ds _ h.2 h'⟩

end PddlHeap

namespace ObjVec
open PddlHeap

theorem run_append (grow : Nat → Nat) : ∀ (cs ds : List Call) (v : ObjVec),
    v.run grow (cs ++ ds) = (v.run grow cs).bind fun v' => v'.run grow ds
  | [], _, _ => rfl
  | c :: cs, ds, v => by
    simp only [List.cons_append, run]
    cases hs : v.step grow c with
    | ok v' => exact run_append grow cs ds v'
    | exc e => rfl
    | ub => rfl
    | fuel => rfl

theorem length_objects {h : PddlHeap} {cs ps : List Obj} (hi : h.Inv cs ps) : h.objects.length = ((cs ++ ps).map Obj.name).length := by
  rw [hi.all, List.length_map, (hi.consts.append hi.objs).length_eq]

/-- A history on a vector with a buffer. -/
theorem run_spec (grow : Nat → Nat) : ∀ (calls : List Call) {v : ObjVec} {cs ps : List Obj}, v.heap.Inv cs ps → v.heap.types ≠ none →
    Careful (cs.map Obj.name) ((cs ++ ps).map Obj.name) calls →
    ∃ v' ps', v.run grow calls = .ok v' ∧ v'.heap.Inv cs ps' ∧ v'.heap.types ≠ none ∧
      (cs ++ ps').map Obj.name = namesAfter ((cs ++ ps).map Obj.name) calls ∧ v.buf ≤ v'.buf ∧
      (v'.buf = v.buf ↔ Fits v.cap ((cs ++ ps).map Obj.name) calls)
  | [], v, cs, ps, hi, ht, _ => ⟨v, ps, rfl, hi, ht, rfl, Nat.le_refl _, by simp [Fits]⟩
  | .add n ty :: rest, v, cs, ps, hi, ht, hc => by
    cases hty : v.heap.types with
    | none => exact absurd hty ht
    | some types =>
      obtain ⟨h', e1, e2, e3⟩ := addObject_inv (type := ty) hi hty hc.1
      have hm : (cs ++ (ps ++ [(⟨n, chainOf types ty⟩ : Obj)])).map Obj.name = (cs ++ ps).map Obj.name ++ [n] := by simp
      have hl := length_objects hi
      by_cases hcap : v.heap.objects.length < v.cap
      · obtain ⟨v'', ps'', f1, f2, f3, f4, f5, f6⟩ := run_spec grow rest (v := { v with heap := h' }) e3
          (show h'.types ≠ none by rw [e2]; exact ht) (by rw [hm]; exact hc.2)
        refine ⟨v'', ps'', by simp only [run, step, e1, Res.bind_ok, if_pos hcap, Res.pure_eq, f1], f2, f3, by rw [f4, hm]; rfl,
          f5, ?_⟩
        rw [f6, hm]
        rw [hl] at hcap
        simp only [Fits, hcap, true_and]
      · obtain ⟨v'', ps'', f1, f2, f3, f4, f5, f6⟩ := run_spec grow rest (v := ⟨h', v.buf + 1, grow v.cap⟩) e3
          (show h'.types ≠ none by rw [e2]; exact ht) (by rw [hm]; exact hc.2)
        have f5' : v.buf + 1 ≤ v''.buf := f5
        refine ⟨v'', ps'', by simp only [run, step, e1, Res.bind_ok, if_neg hcap, Res.pure_eq, f1], f2, f3, by rw [f4, hm]; rfl,
          by omega, ?_⟩
        rw [hl] at hcap
        simp only [Fits, hcap, false_and, iff_false]
        omega
  | .remove n :: rest, v, cs, ps, hi, ht, hc => by
    obtain ⟨h', ps', e1, e2, e3, e4, _⟩ := removeObject_inv hi hc.1
    have hm : (cs ++ ps').map Obj.name = ((cs ++ ps).map Obj.name).erase n := by
      rw [List.map_append, List.map_append, List.erase_append_right _ hc.1, e4]
    obtain ⟨v'', ps'', f1, f2, f3, f4, f5, f6⟩ := run_spec grow rest (v := { v with heap := h' }) e3
      (show h'.types ≠ none by rw [e2]; exact ht) (by rw [hm]; exact hc.2)
    refine ⟨v'', ps'', by simp only [run, step, e1, Res.bind_ok, Res.pure_eq, f1], f2, f3, by rw [f4, hm]; rfl, f5, ?_⟩
    rw [f6, hm]
    rfl

/-- A copy of a symbol is read as before when its name was not removed. -/
theorem run_deref (grow : Nat → Nat) {a : Nat} {o : Obj} : ∀ (calls : List Call) {v v' : ObjVec}, v.run grow calls = .ok v' →
    v.heap.deref a = .ok o → Call.remove o.name ∉ calls → v'.heap.deref a = .ok o
  | [], v, v', h, ha, _ => by cases h; exact ha
  | .add n ty :: rest, v, v', h, ha, hn => by
    simp only [run, step, Res.bind_eq_ok] at h
    obtain ⟨w, ⟨h', e1, hw⟩, h⟩ := h
    have hd := addObject_deref e1 ha
    have : w.heap = h' := by split at hw <;> cases hw <;> rfl
    exact run_deref grow rest h (by rw [this]; exact hd) fun hm => hn (List.mem_cons_of_mem _ hm)
  | .remove n :: rest, v, v', h, ha, hn => by
    simp only [run, step, Res.bind_eq_ok] at h
    obtain ⟨w, ⟨h', e1, hw⟩, h⟩ := h
    cases hw
    have hd := removeObject_deref e1 ha fun e => hn (by rw [e]; exact List.mem_cons_self)
    exact run_deref grow rest h hd fun hm => hn (List.mem_cons_of_mem _ hm)

/-- Reading through a reference. -/
theorem read_spec {v : ObjVec} {cs ps : List Obj} (hi : v.heap.Inv cs ps) (b k : Nat) :
    v.read ⟨b, k⟩ = if b = v.buf then Res.index (cs ++ ps) k else .ub := by
  have hall := hi.consts.append hi.objs
  rw [← hi.all] at hall
  simp only [read, copy]
  split
  · by_cases hk : k < (cs ++ ps).length
    · have hk' : k < v.heap.objects.length := by rw [hall.length_eq]; exact hk
      rw [Res.index_lt hk, Res.index_lt hk', Res.bind_ok]
      exact (List.forall₂_iff_get.1 hall).2 _ hk' hk
    · have hk' : ¬ k < v.heap.objects.length := by rw [hall.length_eq]; exact hk
      have e1 : (cs ++ ps)[k]? = none := List.getElem?_eq_none (by omega)
      have e2 : v.heap.objects[k]? = none := List.getElem?_eq_none (by omega)
      simp only [Res.index, e1, e2]
      rfl
  · rfl

end ObjVec
end Symbolic
