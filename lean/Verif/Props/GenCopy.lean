import Verif.Lemmas.GenCopy
import Verif.Lemmas.Object

/-!
# C76: copies of parameter generators are independent
-/

namespace Symbolic

/-- **C76.** A program that makes, copies, moves, assigns and destroys existing generators is defined, and afterwards every
generator that has a value has the size, the elements and the positions of this value, whatever became of the generators it
was copied or moved from. -/
theorem C76_values_partial (ops : List GenOp) (h : GenVals.LegalAll [] ops) :
    ∃ m, GenMem.empty.run ops = .ok m ∧ ∀ g v, (GenVals.run [] ops)[g]? = some (.val v) →
      m.size g = .ok (if v = [] then 0 else (cartesian v).length) ∧
      m.loop g = .ok (if v = [] then [] else cartesian v) ∧
      (∀ i, m.atIdx g i = Comb.atIdx Obj.dflt v i) ∧
      ∀ args, m.find g args = Comb.find Obj.same v args := by
  obtain ⟨m, h1, h2⟩ := GenMem.run_rel GenMem.empty_rel h
  refine ⟨m, h1, ?_⟩
  intro g v hv
  obtain ⟨p1, p2, p3⟩ := GenMem.view_of h2 hv
  refine ⟨?_, ?_, ?_, ?_⟩
  · rw [p2]
    split
    · rename_i he
      rw [he]
      rfl
    · rename_i he
      rw [Comb.length_cartesian, Comb.size_of_ne_nil he]
  · simp only [GenMem.loop, p1, Res.bind_ok]
    exact genLoop_ok fun o ho he => p3 (he ▸ ho)
  · intro i
    simp only [GenMem.atIdx, p1, Res.bind_ok]
  · intro args
    simp only [GenMem.find, p1, Res.bind_ok]

/-- **C76.** In particular, a copy of the generator of a symbol lists the well-typed argument lists of the symbol. -/
theorem C76_typed_partial (ops : List GenOp) (h : GenVals.LegalAll [] ops) (objects params : List Obj) (hp : params ≠ []) (g : Nat)
    (hg : (GenVals.run [] ops)[g]? = some (.val (paramTypes (ObjMap.create objects) params))) :
    ∃ m l, GenMem.empty.run ops = .ok m ∧ m.loop g = .ok l ∧ m.size g = .ok l.length ∧
      ∀ args, args ∈ l ↔ WellTyped objects params args := by
  obtain ⟨m, h1, h2⟩ := C76_values_partial ops h
  obtain ⟨p1, p2, _⟩ := h2 g _ hg
  refine ⟨m, _, h1, p2, ?_, ?_⟩
  · rw [p1]
    split <;> rfl
  · intro args
    exact mem_gen_create hp (genLoop_ok (paramTypes_ne (ObjMap.nonEmpty_create objects) params))

/-- **C76.** A generator that was destroyed or never made cannot be used: every use and every further operation on it is
undefined. -/
theorem C76_destroyed (ops : List GenOp) (h : GenVals.LegalAll [] ops) (g : Nat) (hg : ¬ GenVals.Alive (GenVals.run [] ops) g) :
    ∃ m, GenMem.empty.run ops = .ok m ∧ m.size g = .ub ∧ m.loop g = .ub ∧ (∀ i, m.atIdx g i = .ub) ∧
      (∀ args, m.find g args = .ub) ∧ m.step (.copy g) = .ub ∧ m.step (.move g) = .ub ∧ m.step (.destroy g) = .ub := by
  obtain ⟨m, h1, h2⟩ := GenMem.run_rel GenMem.empty_rel h
  have hx : m.gen g = .ub := by
    cases hm : m.gens[g]? with
    | none => simp only [GenMem.gen, hm]
    | some og =>
      have hlt : g < (GenVals.run [] ops).length := by
        rw [h2.len]
        exact (List.getElem?_eq_some_iff.1 hm).1
      have hs := List.getElem?_eq_getElem hlt
      have hd : (GenVals.run [] ops)[g] = .dead := by
        by_contra hne
        exact hg ⟨_, hs, hne⟩
      have hh := h2.holds g _ og hs hm
      rw [hd] at hh
      cases og with
      | none => simp only [GenMem.gen, hm]
      | some x => exact hh.elim
  refine ⟨m, h1, ?_, ?_, fun i => ?_, fun args => ?_, ?_, ?_, ?_⟩ <;>
    simp only [GenMem.size, GenMem.loop, GenMem.atIdx, GenMem.find, GenMem.view, GenMem.step, hx] <;> rfl

/-- **C76 refuted** for moved-from generators: they are not empty but list what was moved to the other generator, and
listing them is undefined once that one is destroyed. This holds for all option lists. -/
theorem C76_moved_refuted (v : List (List Obj)) (hv : v ≠ []) (hf : [] ∉ v) :
    GenVals.LegalAll [] [.make v, .move 0, .destroy 1] ∧
    (∃ m, GenMem.empty.run [.make v, .move 0] = .ok m ∧ m.size 0 = .ok (cartesian v).length ∧ m.loop 0 = .ok (cartesian v)) ∧
    ∃ m, GenMem.empty.run [.make v, .move 0, .destroy 1] = .ok m ∧ m.size 0 = .ok (cartesian v).length ∧ m.loop 0 = .ub := by
  have hs : Comb.size v = (cartesian v).length := by rw [Comb.length_cartesian, Comb.size_of_ne_nil hv]
  refine ⟨⟨hf, ⟨_, rfl, by simp⟩, ⟨_, rfl, by simp [GenVal.copied]⟩, trivial⟩, ⟨⟨[some v],
    [some ⟨none, (List.range v.length).map fun i => (0, i), Comb.size v⟩,
      some ⟨some 0, (List.range v.length).map fun i => (0, i), Comb.size v⟩]⟩, ?_, ?_, ?_⟩, ⟨⟨[none],
    [some ⟨none, (List.range v.length).map fun i => (0, i), Comb.size v⟩, none]⟩, ?_, ?_, ?_⟩⟩
  · simp [GenMem.run, GenMem.step, GenMem.create, GenMem.build, hf, GenMem.gen, GenMem.own, GenMem.buf, GenMem.empty, Res.bind_ok,
      Res.pure_eq]
  · simp [GenMem.size, GenMem.gen, Res.bind_ok, Res.pure_eq, hs]
  · simp only [GenMem.loop, GenMem.view, GenMem.gen, List.getElem?_cons_zero, Res.bind_ok]
    rw [List.range_eq_range', GenMem.deref_suffix (v := v) (by rfl) 0 _ (by simp), List.drop_zero, Res.bind_ok,
      genLoop_ok fun o ho he => hf (he ▸ ho), if_neg hv]
  · simp [GenMem.run, GenMem.step, GenMem.create, GenMem.build, hf, GenMem.gen, GenMem.own, GenMem.buf, GenMem.empty, Res.bind_ok,
      Res.pure_eq, GenMem.release]
  · simp [GenMem.size, GenMem.gen, Res.bind_ok, Res.pure_eq, hs]
  · cases v with
    | nil => exact absurd rfl hv
    | cons o v =>
      simp only [GenMem.loop, GenMem.view, GenMem.gen, List.getElem?_cons_zero, Res.bind_ok, List.length_cons,
        List.range_succ_eq_map, List.map_cons, GenMem.deref, GenMem.buf]
      rfl

/-- Non-vacuity: a copy is assigned over, its source destroyed, and a third generator gets the value by a move. -/
example :
    let a : Obj := ⟨n!"a", [n!"object"]⟩
    let b : Obj := ⟨n!"b", [n!"object"]⟩
    let v := paramTypes (ObjMap.create [a, b]) [⟨n!"?x", [n!"object"]⟩, ⟨n!"?y", [n!"object"]⟩]
    let ops : List GenOp := [.make v, .make [[a]], .copy 0, .destroy 0, .moveAssign 1 2, .assign 2 1, .move 1, .destroy 1]
    GenVals.run [] ops = [.dead, .dead, .val v, .val v] ∧
    (GenMem.empty.run ops >>= fun m => m.loop 2) = .ok [[a, a], [a, b], [b, a], [b, b]] ∧
    (GenMem.empty.run ops >>= fun m => m.loop 3) = .ok [[a, a], [a, b], [b, a], [b, b]] ∧
    (GenMem.empty.run ops >>= fun m => m.size 3) = .ok 4 := by decide

/-- Non-vacuity: these operations are legal. -/
example (a : Obj) : GenVals.LegalAll [] [.make [[a]], .copy 0, .destroy 0, .move 1, .moveAssign 1 2, .assign 2 1] :=
  ⟨by simp [GenVals.Legal], ⟨_, rfl, by simp⟩, ⟨_, rfl, by simp⟩, ⟨_, rfl, by simp [GenVal.copied]⟩,
    ⟨⟨_, rfl, by simp⟩, ⟨_, rfl, by simp [GenVal.copied]⟩⟩, ⟨⟨_, rfl, by simp⟩, ⟨_, rfl, by simp [GenVal.copied]⟩⟩, trivial⟩

end Symbolic
