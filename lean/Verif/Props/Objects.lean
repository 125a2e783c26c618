import Verif.Lemmas.Heap
import Verif.Lemmas.Construct
import Verif.Examples.Demo

/-!
# C38, C39: AddObject and RemoveObject
-/

namespace Symbolic

/-! ## C38 -/

/-- **C38, refuted for every Pddl and every object.** `AddObject` changes nothing that `object_map()` answers, and so no
parameter list has a new argument list, no formula changes its value and `ListValidActions` lists the same calls. -/
theorem C38_enumeration_unchanged_refuted [StrHash] (P P' : Pddl) (name type : Name)
    (h : P.addObject name type = .ok P') :
    P'.omap = P.omap ∧
    (∀ params, genLoop (paramTypes P'.omap params) = genLoop (paramTypes P.omap params)) ∧
    (∀ (g : Goal) params (s : State) args, g.eval P'.omap params s args = g.eval P.omap params s args) ∧
    (∀ s, P'.listValidActions s = P.listValidActions s) := by
  unfold Pddl.addObject at h
  split at h
  · simp at h
  · simp only [Res.ok.injEq] at h
    subst h
    refine ⟨rfl, fun _ => rfl, fun _ _ _ _ => rfl, fun s => ?_⟩
    have hf : ∀ (P Q : Pddl) (op : Op), P.omap = Q.omap → ∀ l, P.filterValid s op l = Q.filterValid s op l := by
      intro P Q op hm l
      induction l with
      | nil => rfl
      | cons as l ih => simp only [Pddl.filterValid, ih, hm]
    have hl : ∀ (P Q : Pddl), P.omap = Q.omap → ∀ ops, P.listLoop s ops = Q.listLoop s ops := by
      intro P Q hm ops
      induction ops with
      | nil => rfl
      | cons op ops ih => simp only [Pddl.listLoop, Pddl.listValidArguments, hf P Q op hm, ih, hm]
    unfold Pddl.listValidActions
    apply hl
    rfl

/-- **C38**, what holds: in a domain with types, `objects()` has the new object at its end, with the chain of the declared
type; strings that mention the object are understood, and names known before mean the same objects as before. Missing:
`object_map()` and everything that enumerates it, see `C38_enumeration_unchanged_refuted`. -/
theorem C38_new_object_partial [StrHash] (P : Pddl) (types : List (List Name)) (ht : P.tree.types = some types)
    (name type : Name) (chain : List Name) (hc : chain ∈ types) (hh : chain.head? = some type)
    (hu : ∀ c ∈ types, c.head? = some type → c = chain) (hnew : ∀ o ∈ P.symbols, o.name ≠ name) :
    ∃ P', P.addObject name type = .ok P' ∧ P'.objects = P.objects ++ [⟨name, chain⟩] ∧
      lookupObject P'.symbols name = .ok ⟨name, chain⟩ ∧ (∀ t ∈ chain, (⟨name, chain⟩ : Obj).isSubtype t = true) ∧
      (∀ o, HasType ⟨name, chain⟩ o ↔ o = n!"object" ∨ o ∈ chain) ∧
      ∀ n, n ≠ name → lookupObject P'.symbols n = lookupObject P.symbols n := by
  have hfind : types.find? (fun c => decide (c.head? = some type)) = some chain := by
    cases hf : types.find? (fun c => decide (c.head? = some type)) with
    | none => exact absurd (List.find?_eq_none.1 hf chain hc) (by simp [hh])
    | some c =>
      have h1 := List.find?_some hf
      simp only [decide_eq_true_eq] at h1
      rw [hu c (List.mem_of_find?_eq_some hf) h1]
  refine ⟨{ P with tree := { P.tree with objects := P.tree.objects ++ [⟨name, chain⟩] },
                   objects := P.objects ++ [⟨name, chain⟩] }, ?_, rfl, ?_, ?_, fun o => Iff.rfl, ?_⟩
  · simp only [Pddl.addObject, ht, hfind]
  · simp only [lookupObject, Pddl.symbols, ← List.append_assoc]
    rw [List.find?_append, List.find?_eq_none.2]
    · simp
    · intro o ho
      simpa using hnew o ho
  · intro t h
    simp only [Obj.isSubtype]
    split
    · rfl
    · simpa using h
  · intro n hn
    simp only [lookupObject, Pddl.symbols, ← List.append_assoc]
    rw [List.find?_append]
    have : ([⟨name, chain⟩] : List Obj).find? (fun o => decide (o.name = n)) = none := by simp [Ne.symm hn]
    rw [this, Option.or_none]

section
open Demo
attribute [local instance] lenHash

/-- The hypotheses hold for a new box `c`. -/
example : P.tree.types = some [tBox, tObj] ∧ tBox ∈ [tBox, tObj] ∧ tBox.head? = some n!"box" ∧
    (∀ c ∈ [tBox, tObj], c.head? = some n!"box" → c = tBox) ∧ ∀ o ∈ P.symbols, o.name ≠ n!"c" := by
  have hB := Pddl.built P_made
  refine ⟨by rw [hB.tree]; rfl, by decide, by decide, by decide, ?_⟩
  simp only [Pddl.symbols, hB.tree]
  decide

/-- **C38, refuted.** A box `c` is added; `pick(c)` is a valid action, and it is not listed. -/
theorem C38_valid_action_not_listed_refuted :
    (do
      let P' ← P.addObject n!"c" n!"box"
      let b ← P'.isValidAction P'.initial n!"pick(c)"
      let l ← P'.listValidActions P'.initial
      pure (b, l)) = .ok (true, [n!"pick(a)", n!"pick(b)"]) := by decide +kernel

/-- In a domain without types `AddObject` dereferences a null pointer. -/
theorem C38_untyped_refuted [StrHash] (P : Pddl) (h : P.tree.types = none) (name type : Name) :
    P.addObject name type = .ub := by simp [Pddl.addObject, h]

end

/-! ## C39 -/

open PddlHeap in
theorem run_inv : ∀ (calls : List Call) {h : PddlHeap} {cs ps : List Obj}, h.Inv cs ps → h.types ≠ none →
    Careful (cs.map Obj.name) ((cs ++ ps).map Obj.name) calls →
    ∃ h' ps', h.run calls = .ok h' ∧ h'.Inv cs ps' ∧ (cs ++ ps').map Obj.name = namesAfter ((cs ++ ps).map Obj.name) calls
  | [], h, cs, ps, hi, _, _ => ⟨h, ps, rfl, hi, rfl⟩
  | .add n ty :: rest, h, cs, ps, hi, ht, hc => by
    cases hty : h.types with
    | none => exact absurd hty ht
    | some types =>
      obtain ⟨h', e1, e2, e3⟩ := addObject_inv (type := ty) hi hty hc.1
      have hm : (cs ++ (ps ++ [(⟨n, chainOf types ty⟩ : Obj)])).map Obj.name = (cs ++ ps).map Obj.name ++ [n] := by simp
      obtain ⟨h'', ps'', f1, f2, f3⟩ := run_inv rest e3 (by rw [e2]; exact ht) (by rw [hm]; exact hc.2)
      exact ⟨h'', ps'', by simp only [run, e1, Res.bind_ok, f1], f2, by rw [f3, hm]; rfl⟩
  | .remove n :: rest, h, cs, ps, hi, ht, hc => by
    obtain ⟨h', ps', e1, e2, e3, e4, _⟩ := removeObject_inv hi hc.1
    have hm : (cs ++ ps').map Obj.name = ((cs ++ ps).map Obj.name).erase n := by
      rw [List.map_append, List.map_append, List.erase_append_right _ hc.1, e4]
    obtain ⟨h'', ps'', f1, f2, f3⟩ := run_inv rest e3 (by rw [e2]; exact ht) (by rw [hm]; exact hc.2)
    exact ⟨h'', ps'', by simp only [run, e1, Res.bind_ok, f1], f2, by rw [f3, hm]; rfl⟩

/-- The model with pointers and the model with values agree: on construction and on `AddObject`. -/
theorem heap_agrees [StrHash] (t : Ptree) (b : Bool) (n : Nat) (P : Pddl) (hP : Pddl.make t b n = .ok P)
    (hn : ((t.constants ++ t.objects).map Obj.name).Nodup) (name type : Name)
    (hnew : name ∉ (t.constants ++ t.objects).map Obj.name) (ht : t.types ≠ none) :
    (PddlHeap.make t).derefAll (PddlHeap.make t).objects = .ok P.objects ∧
    ∃ h' P', (PddlHeap.make t).addObject name type = .ok h' ∧ P.addObject name type = .ok P' ∧
      h'.derefAll h'.objects = .ok P'.objects := by
  have hB := Pddl.built hP
  have hi := PddlHeap.make_inv t hn
  have hall := hi.consts.append hi.objs
  rw [← hi.all] at hall
  refine ⟨by rw [PddlHeap.derefAll_iff.2 hall, hB.objects], ?_⟩
  cases hty : t.types with
  | none => exact absurd hty ht
  | some types =>
    obtain ⟨h', e1, _, e3⟩ := PddlHeap.addObject_inv (types := types) (type := type) hi hty hnew
    refine ⟨h', { P with tree := { P.tree with objects := P.tree.objects ++ [⟨name, PddlHeap.chainOf types type⟩] },
                         objects := P.objects ++ [⟨name, PddlHeap.chainOf types type⟩] }, e1, ?_, ?_⟩
    · simp only [Pddl.addObject, hB.tree, hty]
      rfl
    · have := e3.consts.append e3.objs
      rw [← e3.all, ← List.append_assoc] at this
      rw [PddlHeap.derefAll_iff.2 this, hB.objects]

/-- **C39**, what holds: through every history of additions of new names and removals of objects of the problem, `objects()`
refers to live symbols only; their names are those of the constants and objects plus the added, minus the removed ones;
and `Object(pddl, name)` finds a live symbol of that name or throws. Missing: `object_map()`, states and removed
constants, see the refutations. -/
theorem C39_objects_live_partial (t : Ptree) (hn : ((t.constants ++ t.objects).map Obj.name).Nodup) (ht : t.types ≠ none)
    (calls : List PddlHeap.Call)
    (hc : PddlHeap.Careful (t.constants.map Obj.name) ((t.constants ++ t.objects).map Obj.name) calls) :
    ∃ h, (PddlHeap.make t).run calls = .ok h ∧ (∀ a ∈ h.objects, ¬ h.Dangling a) ∧
      (∃ os, h.derefAll h.objects = .ok os ∧
        os.map Obj.name = PddlHeap.namesAfter ((t.constants ++ t.objects).map Obj.name) calls) ∧
      ∀ name,
        (name ∈ PddlHeap.namesAfter ((t.constants ++ t.objects).map Obj.name) calls →
          ∃ a o, h.lookup name = .ok a ∧ a ∈ h.objects ∧ h.deref a = .ok o ∧ o.name = name) ∧
        (name ∉ PddlHeap.namesAfter ((t.constants ++ t.objects).map Obj.name) calls →
          h.lookup name = .exc .runtimeError) := by
  obtain ⟨h, ps, h1, h2, h3⟩ := run_inv calls (PddlHeap.make_inv t hn) ht hc
  have hall := h2.consts.append h2.objs
  rw [← h2.all] at hall
  refine ⟨h, h1, fun a ha => hall.live ha, ⟨_, PddlHeap.derefAll_iff.2 hall, h3⟩, fun name => ?_⟩
  rw [← h3]
  exact PddlHeap.lookup_inv h2 name

/-- **C39.** After construction the entry of a type in `object_map()` points to exactly the objects of this type, and there is
no entry for a type without objects. -/
theorem C39_object_map (t : Ptree) (type : Name) :
    (∃ as, (PddlHeap.make t).ofType type = .ok as ∧
      (∀ a, a ∈ as ↔ ∃ o, (PddlHeap.make t).deref a = .ok o ∧ HasType o type) ∧ ∃ o ∈ t.constants ++ t.objects, HasType o type) ∨
    ((PddlHeap.make t).ofType type = .exc .outOfRange ∧ ∀ o ∈ t.constants ++ t.objects, ¬ HasType o type) := by
  have hd : ∀ a o, (PddlHeap.make t).deref a = .ok o ↔ (t.constants ++ t.objects)[a]? = some o := by
    intro a o
    simp only [PddlHeap.deref, PddlHeap.make, List.getElem?_map]
    cases (t.constants ++ t.objects)[a]? <;> simp
  cases hf : (PddlHeap.make t).omap.find? (fun e => decide (e.1 = type)) with
  | none =>
    refine .inr ⟨by simp only [PddlHeap.ofType, hf], fun o ho hty => ?_⟩
    obtain ⟨a, ha⟩ := List.mem_iff_getElem?.1 ho
    obtain ⟨e, h1, _⟩ := (PddlHeap.make_ofType_iff t type a).2 ⟨o, ha, (Obj.mem_listTypes o type).2 hty⟩
    rw [hf] at h1
    cases h1
  | some e =>
    have key : ∀ a, a ∈ e.2 ↔ ∃ o, (PddlHeap.make t).deref a = .ok o ∧ HasType o type := by
      intro a
      have := PddlHeap.make_ofType_iff t type a
      simp only [PddlHeap.MapsTo, hf, Option.some.injEq, exists_eq_left'] at this
      rw [this]
      simp only [hd, Obj.mem_listTypes]
    refine .inl ⟨e.2, by simp only [PddlHeap.ofType, hf], key, ?_⟩
    obtain ⟨a, ha⟩ := List.exists_mem_of_ne_nil _ (PddlHeap.make_noEmpty t e (List.mem_of_find?_eq_some hf))
    obtain ⟨o, h1, h2⟩ := (key a).1 ha
    exact ⟨o, List.mem_of_getElem? ((hd a o).1 h1), h2⟩

/-- **C39, refuted for every Pddl and every object.** After `RemoveObject(name)` `object_map()` still has the removed
object in the entry of each of its types. -/
theorem C39_object_map_dangles_refuted (t : Ptree) (hn : ((t.constants ++ t.objects).map Obj.name).Nodup) (o : Obj)
    (ho : o ∈ t.constants ++ t.objects) (type : Name) (hty : HasType o type) :
    ∃ h, (PddlHeap.make t).removeObject o.name = .ok h ∧ ∃ as, h.ofType type = .ok as ∧ ∃ a ∈ as, h.Dangling a := by
  have hi := PddlHeap.make_inv t hn
  have hall := hi.consts.append hi.objs
  rw [← hi.all] at hall
  have hm : o.name ∈ (t.constants ++ t.objects).map Obj.name := List.mem_map_of_mem ho
  have hf := PddlHeap.findName_spec (name := o.name) hall
  rw [if_pos hm] at hf
  have hlt := List.idxOf_lt_length_iff.2 hm
  have hlt' : ((t.constants ++ t.objects).map Obj.name).idxOf o.name < (t.constants ++ t.objects).length := by
    simpa using hlt
  have hget : (t.constants ++ t.objects)[((t.constants ++ t.objects).map Obj.name).idxOf o.name]? = some o := by
    rw [List.getElem?_eq_getElem hlt']
    have := List.getElem_idxOf hlt
    rw [List.getElem_map] at this
    exact congrArg some (List.inj_on_of_nodup_map hn (List.getElem_mem hlt') ho this)
  generalize ((t.constants ++ t.objects).map Obj.name).idxOf o.name = i at hf hget hlt'
  have hidx : Res.index (PddlHeap.make t).objects i = .ok i := by
    rw [Res.index_eq_ok]
    simp only [PddlHeap.make, List.getElem?_range hlt']
  have hf' := PddlHeap.findName_spec (name := o.name) hi.objs
  obtain ⟨h, e1, e2, e3, _⟩ := PddlHeap.removeObject_found hf hidx hf'
  obtain ⟨as, h1, h2⟩ := PddlHeap.make_ofType t hget ((Obj.mem_listTypes o type).2 hty)
  refine ⟨h, e1, as, ?_, i, h2, PddlHeap.dangling_freed e2⟩
  simp only [PddlHeap.ofType, e3]
  exact h1

theorem findName_dangling {h : PddlHeap} {name : Name} {a : Nat} (ha : h.Dangling a) : ∀ {pre post : List Nat} {os : List Obj},
    h.Holds pre os → name ∉ os.map Obj.name → h.findName name (pre ++ a :: post) = .ub
  | [], post, _, .nil, _ => by
    have : h.deref a = .ub := ha
    simp [PddlHeap.findName, this]
  | b :: pre, post, _, .cons ho hos, hn => by
    simp only [List.map_cons, List.mem_cons, not_or] at hn
    simp only [List.cons_append, PddlHeap.findName, ho, Res.bind_ok, if_neg (Ne.symm hn.1), findName_dangling ha hos hn.2,
      Res.bind_ub]

/-- **C39, refuted for every Pddl with constants.** After `RemoveObject` of a constant of the domain, `Object(pddl, name)`
is undefined for every name that is not one of the constants declared before it. -/
theorem C39_constant_dangles_refuted (t : Ptree) (hn : ((t.constants ++ t.objects).map Obj.name).Nodup)
    (pre post : List Obj) (c : Obj) (hc : t.constants = pre ++ c :: post) :
    ∃ h, (PddlHeap.make t).removeObject c.name = .ok h ∧ (∃ a ∈ h.constants, h.Dangling a) ∧
      ∀ name, name ∉ pre.map Obj.name → h.lookup name = .ub := by
  have hi := PddlHeap.make_inv t hn
  have hall := hi.consts.append hi.objs
  rw [← hi.all] at hall
  have hm : c.name ∈ (t.constants ++ t.objects).map Obj.name := List.mem_map_of_mem (by simp [hc])
  have hpre : c.name ∉ pre.map Obj.name := by
    rw [hc] at hn
    simp only [List.append_assoc, List.map_append, List.map_cons, List.cons_append] at hn
    intro hmem
    exact (List.nodup_append.1 hn).2.2 _ hmem _ (List.mem_cons_self ..) rfl
  have hidx' : ((t.constants ++ t.objects).map Obj.name).idxOf c.name = pre.length := by
    rw [hc]
    simp only [List.append_assoc, List.map_append, List.map_cons, List.cons_append]
    rw [List.idxOf_append_of_notMem hpre]
    simp
  have hf := PddlHeap.findName_spec (name := c.name) hall
  rw [if_pos hm, hidx'] at hf
  have hlt : pre.length < t.constants.length := by simp [hc]
  have hidx : Res.index (PddlHeap.make t).objects pre.length = .ok pre.length := by
    rw [Res.index_eq_ok]
    simp only [PddlHeap.make]
    exact List.getElem?_range (by simp; omega)
  have hf' := PddlHeap.findName_spec (name := c.name) hi.objs
  obtain ⟨h, e1, e2, _, e4, e5⟩ := PddlHeap.removeObject_found hf hidx hf'
  refine ⟨h, e1, ?_, fun name hname => ?_⟩
  · exact ⟨pre.length, by rw [e4]; simp [PddlHeap.make, hlt], PddlHeap.dangling_freed e2⟩
  · have hsplit : (PddlHeap.make t).domConstants = List.range pre.length ++ pre.length ::
        (List.range post.length).map (pre.length + 1 + ·) := by
      simp only [PddlHeap.make, hc, List.length_append, List.length_cons]
      rw [show pre.length + (post.length + 1) = pre.length + 1 + post.length by omega, List.range_add, List.range_succ,
        List.append_assoc]
      rfl
    have hpreHolds : (PddlHeap.make t).Holds (List.range pre.length) pre := by
      have := PddlHeap.holds_range (h := PddlHeap.make t) (os := pre) (k := 0) fun i o ho => PddlHeap.make_deref t (by
        rw [Nat.zero_add, hc, List.append_assoc, List.getElem?_append_left (List.getElem?_eq_some_iff.1 ho).1, ho])
      simpa using this
    simp only [PddlHeap.lookup, e5, hsplit]
    rw [findName_dangling (PddlHeap.dangling_freed e2) (hpreHolds.free (by simp) e2) hname]
    rfl

section
open Demo

/-- A history: add the box `c`, remove `a`, add another `a`. -/
example : tree.types ≠ none ∧ ((tree.constants ++ tree.objects).map Obj.name).Nodup ∧
    PddlHeap.Careful (tree.constants.map Obj.name) ((tree.constants ++ tree.objects).map Obj.name)
      [.add n!"c" n!"box", .remove n!"a", .add n!"a" n!"box"] := by
  refine ⟨by simp [tree], by decide, ?_⟩
  simp only [PddlHeap.Careful]
  decide

/-- **C39, refuted** for states: after `RemoveObject("a")` the initial state still holds the freed symbol of `a`. -/
theorem C39_initial_state_refuted :
    (do
      let h ← (PddlHeap.make tree).removeObject n!"a"
      let p ← Res.index h.initial 0
      let a ← Res.index p.2 0
      h.deref a) = .ub := by decide +kernel

end

end Symbolic
