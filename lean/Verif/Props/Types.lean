import Verif.Lemmas.Object

/-!
# C10-C12: types, object map, parameter generators
-/

namespace Symbolic

/-- C10. `object_map()` lists an object under a type exactly when the object `IsSubtype` of it, i.e. the
type is `object` or on the declared chain of the object; the entries keep declaration order; a type has
an entry iff some object has it. -/
theorem C10_object_map_is_subtyping (objects : List Obj) (t : Name) :
    (∀ o, o.isSubtype t = true ↔ HasType o t) ∧
    ((ObjMap.create objects).find t = none ↔ ∀ o ∈ objects, ¬ HasType o t) ∧
    (∀ os, (ObjMap.create objects).find t = some os →
      os ≠ [] ∧ (∀ o, o ∈ os ↔ o ∈ objects ∧ o.isSubtype t = true) ∧
      (objects.Nodup → (∀ o ∈ objects, o.listTypes.Nodup) →
        os = objects.filter (fun o => o.isSubtype t))) := by
  refine ⟨fun o => o.isSubtype_iff t, ?_, fun os hos => ⟨?_, ?_, ?_⟩⟩
  · have h := ObjMap.has_create objects t
    unfold ObjMap.has at h
    rw [← Option.not_isSome_iff_eq_none, h]
    simp
  · exact ObjMap.nonEmpty_create objects t os hos
  · intro o
    have := ObjMap.mem_entry_create objects t o
    simp only [ObjMap.entry, hos, Option.getD_some] at this
    rw [this, Obj.isSubtype_iff]
  · intro hn ht
    have he : os = (ObjMap.create objects).entry t := by simp [ObjMap.entry, hos]
    rw [he, ObjMap.entry_create]
    clear he hos
    induction objects with
    | nil => simp
    | cons o objects ih =>
      rw [List.nodup_cons] at hn
      rw [List.flatMap_cons, List.filter_cons, ih hn.2 (fun o' ho' => ht o' (by simp [ho']))]
      have h1 := List.nodup_iff_count_le_one.1 (ht o (by simp)) t
      have h2 : o.listTypes.count t = 0 ↔ ¬ o.isSubtype t = true := by
        rw [List.count_eq_zero, Obj.mem_listTypes, Obj.isSubtype_iff]
      by_cases hs : o.isSubtype t = true
      · have : o.listTypes.count t = 1 := by
          have : ¬ o.listTypes.count t = 0 := by rw [h2]; simpa using hs
          omega
        simp [this, hs]
      · have : o.listTypes.count t = 0 := h2.2 hs
        simp [this, hs]

/-- C10, continued. The subtype relation: every object is a subtype of its own type and of `object`; and
if `t'` lies above `t` on the chain of a type (`IsSubtype(t)` objects have `t`'s ancestors), it is
transitive along the hierarchy. -/
theorem C10_subtype_laws (o : Obj) :
    o.isSubtype n!"object" = true ∧ o.isSubtype o.typeName = true ∧
    (∀ t ∈ o.types, o.isSubtype t = true) ∧
    (∀ super : Obj, super.types <:+ o.types → ∀ t, super.isSubtype t = true → o.isSubtype t = true) := by
  refine ⟨by rw [Obj.isSubtype_iff]; exact Or.inl rfl, ?_, ?_, ?_⟩
  · rw [Obj.isSubtype_iff]
    unfold Obj.typeName HasType
    split
    · exact Or.inl rfl
    · rename_i h; right; rw [h]; simp
  · intro t ht; rw [Obj.isSubtype_iff]; exact Or.inr ht
  · intro super hs t
    rw [Obj.isSubtype_iff, Obj.isSubtype_iff]
    rintro (h | h)
    · exact Or.inl h
    · exact Or.inr (hs.subset h)

/-- Non-vacuity: a hierarchy hook < movable < object with an unrelated table. -/
example : let hook : Obj := ⟨n!"hook", [n!"tool", n!"movable", n!"object"]⟩
    let table : Obj := ⟨n!"table", [n!"object"]⟩
    (ObjMap.create [table, hook]).find n!"movable" = some [hook] ∧
    (ObjMap.create [table, hook]).find n!"object" = some [table, hook] ∧
    (ObjMap.create [table, hook]).find n!"robot" = none ∧
    [table, hook].Nodup ∧ (∀ o ∈ [table, hook], o.listTypes.Nodup) := by decide

/-- C11. For a symbol with at least one parameter, constructing its parameter generator succeeds, the
generator visits exactly the well-typed argument lists over the declared objects, each once when the
objects and their type chains are duplicate free, and nothing when some parameter type has no object. -/
theorem C11_parameter_generator_exact (objects params : List Obj) (hp : params ≠ []) :
    ∃ options l, paramGen (ObjMap.create objects) params = .ok options ∧
      (∀ budget, Comb.size options < budget → Comb.forward Obj.dflt options budget = .ok l) ∧
      Comb.size options = l.length ∧
      (∀ args, args ∈ l ↔ WellTyped objects params args) ∧
      (objects.Nodup → (∀ o ∈ objects, o.listTypes.Nodup) → l.Nodup) ∧
      ((∃ p ∈ params, ∀ o ∈ objects, ¬ HasType o p.typeName) → l = []) := by
  have hm := ObjMap.nonEmpty_create objects
  have hne := paramTypes_ne hm params
  refine ⟨paramTypes (ObjMap.create objects) params,
    if paramTypes (ObjMap.create objects) params = [] then [] else
      cartesian (paramTypes (ObjMap.create objects) params), paramGen_ok hm params, ?_, ?_, ?_, ?_, ?_⟩
  · intro budget hb
    by_cases h0 : paramTypes (ObjMap.create objects) params = []
    · rw [h0] at hb ⊢
      cases budget with
      | zero => simp at hb
      | succ b => rfl
    · rw [if_neg h0]
      have hs := Comb.size_of_ne_nil h0
      have hp := Comb.count_pos hne
      obtain ⟨c, h1, h2⟩ := Comb.iter_spec Obj.dflt h0 hne 0 hp
      have he : ∀ os : List (List Obj), Comb.iter Obj.dflt os (Comb.size os : Int) = .ok ⟨[], (Comb.size os : Int)⟩ := by
        intro os; simp [Comb.iter, Comb.outside_nat]
      have h2' : Comb.iter Obj.dflt (paramTypes (ObjMap.create objects) params) 0 = .ok ⟨c, ((0 : Nat) : Int)⟩ := h2
      simp only [Comb.forward, Comb.begin, Comb.endIt, h2', he, Res.bind_ok]
      rw [Comb.traverse_forward Obj.dflt h0 hne _ 0 budget c (Nat.zero_add _) (by rw [← hs]; exact hb) hp h1]
      simp
  · split
    · rename_i h; rw [h]; rfl
    · rename_i h; rw [Comb.length_cartesian, Comb.size_of_ne_nil h]
  · intro args
    exact mem_gen_create hp (genLoop_ok hne)
  · intro hn ht
    split
    · simp
    · apply Comb.nodup_cartesian
      rw [paramTypes_eq]
      split
      · intro o ho
        rw [List.mem_map] at ho
        obtain ⟨p, _, rfl⟩ := ho
        exact ObjMap.nodup_entry_create hn ht _
      · simp
  · rintro ⟨p, hp', hno⟩
    have : paramTypes (ObjMap.create objects) params = [] := by
      rw [paramTypes_eq, if_neg]
      intro h
      have := h p hp'
      rw [ObjMap.has_create] at this
      obtain ⟨o, ho, hot⟩ := this
      exact hno o ho hot
    simp [this]

/-- Non-vacuity: two typed parameters. -/
example : let a : Obj := ⟨n!"a", [n!"block"]⟩
    let b : Obj := ⟨n!"b", [n!"block"]⟩
    let r : Obj := ⟨n!"r", [n!"robot"]⟩
    genLoop (paramTypes (ObjMap.create [a, b, r]) [⟨n!"x", [n!"robot"]⟩, ⟨n!"y", [n!"block"]⟩]) =
      .ok [[r, a], [r, b]] := by decide

/-- C12 refuted. A symbol without parameters should have exactly one argument list, the empty one; its
generator has none, whatever the objects. -/
theorem C12_zero_parameters_refuted (objects : List Obj) :
    paramGen (ObjMap.create objects) [] = .ok [] ∧ Comb.size ([] : List (List Obj)) = 0 ∧
    genLoop [] = .ok [] ∧ ¬ (genLoop [] = .ok [[]]) := by
  refine ⟨rfl, rfl, rfl, by decide⟩

end Symbolic
