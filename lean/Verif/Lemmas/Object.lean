import Verif.Spec.Typing
import Verif.Lemmas.Combination

/-!
Lemmas on types, the object map and parameter generators.
-/

namespace Symbolic

theorem Obj.isSubtype_iff (o : Obj) (t : Name) : o.isSubtype t = true ↔ HasType o t := by
  unfold Obj.isSubtype HasType kDefaultType
  split
  · rename_i h; simp [h]
  · rename_i h; simp [h]

theorem Obj.mem_listTypes (o : Obj) (t : Name) : t ∈ o.listTypes ↔ HasType o t := by
  unfold Obj.listTypes HasType kDefaultType
  split
  · simp [or_comm]
  · rename_i t' h
    split
    · simp [or_comm]
    · rename_i h'
      have h'' : t' = n!"object" := by by_contra hc; exact h' hc
      have : t' ∈ o.types := List.mem_of_getLast? h
      constructor
      · exact Or.inr
      · rintro (rfl | h2)
        · rw [← h'']; exact this
        · exact h2

namespace ObjMap

theorem find_push (m : ObjMap) (t t' : Name) (o : Obj) :
    (m.push t o).find t' = if t = t' then some ((m.find t').getD [] ++ [o]) else m.find t' := by
  induction m with
  | nil => simp [push, find]
  | cons e rest ih =>
    rcases e with ⟨k, os⟩
    unfold push
    by_cases hk : k = t
    · subst hk
      simp only [if_true, find]
      by_cases hkt : k = t' <;> simp [hkt]
    · simp only [hk, if_false, find, ih]
      by_cases hkt : k = t'
      · subst hkt
        have : ¬ t = k := fun h => hk h.symm
        simp [this]
      · by_cases htt : t = t' <;> simp [hkt, htt]

/-- Entry of a type in the map as a list (empty when absent). -/
def entry (m : ObjMap) (t : Name) : List Obj := (m.find t).getD []

theorem entry_push (m : ObjMap) (t t' : Name) (o : Obj) :
    (m.push t o).entry t' = if t = t' then m.entry t' ++ [o] else m.entry t' := by
  unfold entry
  rw [find_push]
  by_cases h : t = t' <;> simp [h]

theorem entry_pushAll (ts : List Name) (m : ObjMap) (o : Obj) (t : Name) :
    (ts.foldl (fun m t => m.push t o) m).entry t = m.entry t ++ List.replicate (ts.count t) o := by
  induction ts generalizing m with
  | nil => simp
  | cons a ts ih =>
    rw [List.foldl_cons, ih, entry_push, List.count_cons]
    by_cases h : a = t
    · subst h
      simp [List.replicate_succ]
    · have : ¬ (a == t) = true := by simpa using h
      simp [h]

theorem find_isSome_pushAll (ts : List Name) (m : ObjMap) (o : Obj) (t : Name) :
    ((ts.foldl (fun m t => m.push t o) m).find t).isSome = ((m.find t).isSome || decide (t ∈ ts)) := by
  induction ts generalizing m with
  | nil => simp
  | cons a ts ih =>
    rw [List.foldl_cons, ih, find_push]
    by_cases h : a = t
    · simp [h]
    · have : ¬ t = a := fun h' => h h'.symm
      simp [h, this]

theorem entry_create_aux (objects : List Obj) (m : ObjMap) (t : Name) :
    (objects.foldl (fun m o => o.listTypes.foldl (fun m t => m.push t o) m) m).entry t =
      m.entry t ++ objects.flatMap (fun o => List.replicate (o.listTypes.count t) o) := by
  induction objects generalizing m with
  | nil => simp
  | cons o os ih =>
    rw [List.foldl_cons, ih, entry_pushAll]
    simp

theorem entry_create (objects : List Obj) (t : Name) :
    (create objects).entry t = objects.flatMap (fun o => List.replicate (o.listTypes.count t) o) := by
  unfold create
  rw [entry_create_aux]
  simp [entry, find]

theorem has_create (objects : List Obj) (t : Name) :
    (create objects).has t = true ↔ ∃ o ∈ objects, HasType o t := by
  unfold create
  suffices ∀ m : ObjMap, (objects.foldl (fun m o => o.listTypes.foldl (fun m t => m.push t o) m) m).has t = true ↔
      m.has t = true ∨ ∃ o ∈ objects, HasType o t by
    rw [this []]; simp [has, find]
  induction objects with
  | nil => intro m; simp
  | cons o os ih =>
    intro m
    rw [List.foldl_cons, ih]
    simp only [has, find_isSome_pushAll, Bool.or_eq_true, decide_eq_true_eq, Obj.mem_listTypes,
      List.mem_cons, exists_eq_or_imp]
    tauto

theorem mem_entry_create (objects : List Obj) (t : Name) (o : Obj) :
    o ∈ (create objects).entry t ↔ o ∈ objects ∧ HasType o t := by
  rw [entry_create]
  simp only [List.mem_flatMap, List.mem_replicate, ne_eq, List.count_eq_zero, not_not,
    Obj.mem_listTypes]
  constructor
  · rintro ⟨o', h1, h2, rfl⟩; exact ⟨h1, h2⟩
  · rintro ⟨h1, h2⟩; exact ⟨o, h1, h2, rfl⟩

theorem nodup_entry_create {objects : List Obj} (hn : objects.Nodup)
    (ht : ∀ o ∈ objects, o.listTypes.Nodup) (t : Name) : ((create objects).entry t).Nodup := by
  rw [entry_create]
  induction objects with
  | nil => simp
  | cons o os ih =>
    rw [List.nodup_cons] at hn
    rw [List.flatMap_cons, List.nodup_append]
    refine ⟨?_, ih hn.2 (fun o' ho' => ht o' (by simp [ho'])), ?_⟩
    · have := List.nodup_iff_count_le_one.1 (ht o (by simp)) t
      rw [List.nodup_replicate]; exact this
    · intro a ha b hb hab
      subst hab
      simp only [List.mem_replicate] at ha
      simp only [List.mem_flatMap, List.mem_replicate] at hb
      obtain ⟨o', ho', _, hao'⟩ := hb
      rw [ha.2] at hao'; subst hao'
      exact hn.1 ho'

end ObjMap

theorem paramTypes_go (m : ObjMap) (params : List Obj) (acc : List (List Obj)) :
    paramTypes.go m params acc =
      if ∀ p ∈ params, m.has p.typeName = true then acc ++ params.map (fun p => m.entry p.typeName) else [] := by
  induction params generalizing acc with
  | nil => simp [paramTypes.go]
  | cons p ps ih =>
    unfold paramTypes.go
    cases h : m.find p.typeName with
    | none =>
      simp only
      rw [if_neg]
      intro h'
      have := h' p (by simp)
      simp [ObjMap.has, h] at this
    | some os =>
      simp only
      rw [ih]
      have he : m.entry p.typeName = os := by simp [ObjMap.entry, h]
      have hh : m.has p.typeName = true := by simp [ObjMap.has, h]
      simp [he, hh]

theorem paramTypes_eq (m : ObjMap) (params : List Obj) :
    paramTypes m params =
      if ∀ p ∈ params, m.has p.typeName = true then params.map (fun p => m.entry p.typeName) else [] := by
  unfold paramTypes
  rw [paramTypes_go]; simp

/-- Every entry of a map is non-empty. -/
def ObjMap.NonEmpty (m : ObjMap) : Prop := ∀ t os, m.find t = some os → os ≠ []

theorem ObjMap.nonEmpty_create (objects : List Obj) : (ObjMap.create objects).NonEmpty := by
  intro t os h he
  subst he
  have h1 : (ObjMap.create objects).has t = true := by simp [ObjMap.has, h]
  rw [ObjMap.has_create] at h1
  obtain ⟨o, ho, hot⟩ := h1
  have := (ObjMap.mem_entry_create objects t o).2 ⟨ho, hot⟩
  simp [ObjMap.entry, h] at this

theorem paramTypes_ne {m : ObjMap} (hm : m.NonEmpty) (params : List Obj) :
    ∀ o ∈ paramTypes m params, o ≠ [] := by
  rw [paramTypes_eq]
  split
  · rename_i h
    intro o ho
    rw [List.mem_map] at ho
    obtain ⟨p, hp, rfl⟩ := ho
    have := h p hp
    unfold ObjMap.has at this
    rw [Option.isSome_iff_exists] at this
    obtain ⟨os, hos⟩ := this
    have := hm _ _ hos
    simpa [ObjMap.entry, hos] using this
  · simp

theorem paramGen_ok {m : ObjMap} (hm : m.NonEmpty) (params : List Obj) :
    paramGen m params = .ok (paramTypes m params) := by
  unfold paramGen Comb.ctor
  rw [if_neg]
  simp only [List.any_eq_true, not_exists, not_and]
  intro o ho h
  exact paramTypes_ne hm params o ho (List.isEmpty_iff.1 h)

/-- The loop over a generator without empty options. -/
theorem genLoop_ok {options : List (List Obj)} (hne : ∀ o ∈ options, o ≠ []) :
    genLoop options = .ok (if options = [] then [] else cartesian options) := by
  by_cases h0 : options = []
  · subst h0; rfl
  · rw [if_neg h0]
    unfold genLoop Comb.forward
    have hs := Comb.size_of_ne_nil h0
    have hp := Comb.count_pos hne
    obtain ⟨c, h1, h2⟩ := Comb.iter_spec Obj.dflt h0 hne 0 hp
    have he : Comb.iter Obj.dflt options (Comb.size options : Int) = .ok ⟨[], (Comb.size options : Int)⟩ := by
      simp [Comb.iter, Comb.outside_nat]
    have h2' : Comb.iter Obj.dflt options 0 = .ok ⟨c, ((0 : Nat) : Int)⟩ := h2
    simp only [Comb.begin, Comb.endIt, h2', he, Res.bind_ok]
    rw [Comb.traverse_forward Obj.dflt h0 hne (Comb.count options) 0 _ c (by omega) (by omega) hp h1]
    simp

/-- The argument lists a generator over a freshly created object map visits. -/
theorem mem_gen_create {objects params args : List Obj} {l : List (List Obj)} (hp : params ≠ [])
    (hl : genLoop (paramTypes (ObjMap.create objects) params) = .ok l) :
    args ∈ l ↔ WellTyped objects params args := by
  have hne := paramTypes_ne (ObjMap.nonEmpty_create objects) params
  rw [genLoop_ok hne] at hl
  have hl' := Res.ok.inj hl
  clear hl
  subst hl'
  rw [paramTypes_eq]
  by_cases h : ∀ p ∈ params, (ObjMap.create objects).has p.typeName = true
  · rw [if_pos h]
    have : params.map (fun p => (ObjMap.create objects).entry p.typeName) ≠ [] := by simpa using hp
    rw [if_neg this, Comb.mem_cartesian, WellTyped]
    rw [List.forall₂_map_right_iff]
    constructor
    · intro h'; exact h'.flip.imp (fun p a hpa => (ObjMap.mem_entry_create _ _ _).1 hpa)
    · intro h'; exact h'.flip.imp (fun a p hpa => (ObjMap.mem_entry_create _ _ _).2 hpa)
  · rw [if_neg h]
    simp only [if_true, List.not_mem_nil, false_iff]
    intro hw
    apply h
    intro p hp'
    rw [ObjMap.has_create]
    clear h hne hp
    induction hw with
    | nil => simp at hp'
    | cons hpa _ ih =>
      rcases List.mem_cons.1 hp' with rfl | h'
      · exact ⟨_, hpa.1, hpa.2⟩
      · exact ih h'

theorem WellTyped.mem {objects params args : List Obj} (h : WellTyped objects params args) {o : Obj} (ho : o ∈ args) :
    o ∈ objects ∧ ∃ p ∈ params, HasType o p.typeName := by
  induction h with
  | nil => simp at ho
  | @cons p a ps as h _ ih =>
    rcases List.mem_cons.1 ho with rfl | ho
    · exact ⟨h.1, p, by simp, h.2⟩
    · obtain ⟨h', q, hq, h⟩ := ih ho
      exact ⟨h', q, by simp [hq], h⟩

theorem WellTyped.length {objects params args : List Obj} (h : WellTyped objects params args) :
    params.length = args.length := List.Forall₂.length_eq h

end Symbolic
