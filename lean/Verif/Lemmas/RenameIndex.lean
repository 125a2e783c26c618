import Verif.Lemmas.RenameApi
import Verif.Lemmas.StateIndex

/-!
The StateIndex under a renaming, with two hash functions.
-/

namespace Symbolic

theorem Comb.groupSizes_map {α β : Type} (f : α → β) : ∀ os : List (List α),
    Comb.groupSizes (os.map (List.map f)) = Comb.groupSizes os
  | [] => rfl
  | [_] => rfl
  | _ :: o :: os => by
    have := Comb.groupSizes_map f (o :: os)
    simp only [List.map_cons] at this
    simp only [List.map_cons, Comb.groupSizes, this, List.length_map]

theorem Comb.size_map {α β : Type} (f : α → β) (os : List (List α)) :
    Comb.size (os.map (List.map f)) = Comb.size os := by
  unfold Comb.size
  rw [Comb.groupSizes_map]
  cases os with
  | nil => rfl
  | cons o os =>
    simp only [List.map_cons]
    cases Comb.groupSizes (o :: os) with
    | nil => rfl
    | cons g gs => simp only [List.length_map]

/-- Past the end, `operator[]` returns the first combination. -/
theorem Comb.get_past {α : Type} (dflt : α) {os : List (List α)} (h0 : os ≠ []) (hne : ∀ o ∈ os, o ≠ []) {i : Nat}
    (hi : Comb.size os ≤ i) : ∃ c, (cartesian os)[0]? = some c ∧ Comb.get dflt os (i : Int) = .ok c := by
  have hs := Comb.size_of_ne_nil h0
  have hp := Comb.count_pos hne
  obtain ⟨c, h1, h2⟩ := Comb.iter_spec dflt h0 hne 0 hp
  have h2' : Comb.iter dflt os 0 = .ok ⟨c, ((0 : Nat) : Int)⟩ := h2
  refine ⟨c, h1, ?_⟩
  have e : ((0 : Nat) : Int) + (i : Int) = (i : Int) := by simp
  have e' : ¬ ((0 : Nat) : Int) = (i : Int) := by
    have : 0 < Comb.size os := by rw [hs]; exact hp
    omega
  simp only [Comb.get, Comb.begin, h2', Res.bind_ok, Comb.advance, e, Comb.moveTo, if_neg e', Comb.outside_nat,
    decide_eq_true hi, if_true, Res.pure_eq]

theorem Comb.get_map {α β : Type} (dflt : α) (dflt' : β) (f : α → β) {os : List (List α)} (hne : ∀ o ∈ os, o ≠ []) (i : Nat) :
    SameOutcome (fun a b => b = a.map f) (Comb.get dflt os (i : Int)) (Comb.get dflt' (os.map (List.map f)) (i : Int)) := by
  by_cases h0 : os = []
  · subst h0
    have : ∀ {γ : Type} (d : γ), Comb.get d ([] : List (List γ)) (i : Int) = .ok [] := by
      intro γ d
      cases i with
      | zero => rfl
      | succ i => rfl
    rw [List.map_nil, this, this]
    rfl
  · have h0' : os.map (List.map f) ≠ [] := by simpa using h0
    have hne' : ∀ o ∈ os.map (List.map f), o ≠ [] := by
      intro o ho
      obtain ⟨o', ho', rfl⟩ := List.mem_map.1 ho
      simpa using hne o' ho'
    by_cases hi : i < Comb.size os
    · obtain ⟨c, h1, h2⟩ := Comb.get_spec dflt hne hi
      obtain ⟨c', h1', h2'⟩ := Comb.get_spec dflt' hne' (i := i) (by rw [Comb.size_map]; exact hi)
      rw [cartesian_map, List.getElem?_map, h1] at h1'
      rw [h2, h2']
      exact (Option.some.inj h1').symm
    · obtain ⟨c, h1, h2⟩ := Comb.get_past dflt h0 hne (i := i) (by omega)
      obtain ⟨c', h1', h2'⟩ := Comb.get_past dflt' h0' hne' (i := i) (by rw [Comb.size_map]; omega)
      rw [cartesian_map, List.getElem?_map, h1] at h1'
      rw [h2, h2']
      exact (Option.some.inj h1').symm

theorem cumSum_map {f : List (List Obj) → List (List Obj)} (hf : ∀ o, Comb.size (f o) = Comb.size o) :
    ∀ (gs : List (List (List Obj))) (acc : Nat), cumSum (gs.map f) acc = cumSum gs acc
  | [], _ => rfl
  | g :: gs, acc => by simp only [List.map_cons, cumSum, hf, cumSum_map hf gs]

/-! ## No new names -/

theorem Renaming.id_proper : Renaming.id.Proper := ⟨fun _ _ h => h, fun _ _ h => h, fun _ _ h => h, rfl, rfl⟩

theorem Obj.rename_id : Obj.rename .id = fun o => o := by
  funext o; simp [Obj.rename, Renaming.id]

theorem Atom.rename_id : Atom.rename .id = fun a => a := by
  funext a; simp [Atom.rename, Renaming.id]

theorem Term.rename_id : Term.rename .id = fun t => t := by
  funext t; cases t <;> simp [Term.rename, Obj.rename_id]

mutual
theorem Goal.rename_id : ∀ g : Goal, g.rename .id = g
  | .atom p ts => by rw [Goal.rename, Term.rename_id, List.map_id']; rfl
  | .conj gs => by rw [Goal.rename, Goal.renameAll_id gs]
  | .disj gs => by rw [Goal.rename, Goal.renameAll_id gs]
  | .neg g => by rw [Goal.rename, Goal.rename_id g]
  | .all vars g => by rw [Goal.rename, Goal.rename_id g, Obj.rename_id, List.map_id']
  | .ex vars g => by rw [Goal.rename, Goal.rename_id g, Obj.rename_id, List.map_id']
  | .other => rfl
theorem Goal.renameAll_id : ∀ gs : List Goal, Goal.renameAll .id gs = gs
  | [] => rfl
  | g :: gs => by rw [Goal.renameAll, Goal.rename_id g, Goal.renameAll_id gs]
end

theorem renameEffect_id : renameEffect .id = fun x => x := by
  funext x; rw [renameEffect, Term.rename_id, List.map_id']; rfl

mutual
theorem Eff.rename_id : ∀ e : Eff, e.rename .id = e
  | .mk fs adds dels cs => by rw [Eff.rename, FList.rename_id fs, CList.rename_id cs, renameEffect_id, List.map_id', List.map_id']
theorem FList.rename_id : ∀ fs : FList, fs.rename .id = fs
  | .nil => rfl
  | .cons vars e rest => by rw [FList.rename, Eff.rename_id e, FList.rename_id rest, Obj.rename_id, List.map_id']
theorem CList.rename_id : ∀ cs : CList, cs.rename .id = cs
  | .nil => rfl
  | .cons g e rest => by rw [CList.rename, Eff.rename_id e, CList.rename_id rest, Goal.rename_id g]
end

theorem Op.rename_id : Op.rename .id = fun op => op := by
  funext op
  simp only [Op.rename, Goal.rename_id, Eff.rename_id, Obj.rename_id, List.map_id']
  rfl

theorem PredDecl.rename_id : PredDecl.rename .id = fun p => p := by
  funext p
  simp only [PredDecl.rename, Obj.rename_id, List.map_id']
  rfl

theorem Drv.rename_id : Drv.rename .id = fun d => d := by
  funext d
  simp only [Drv.rename, Obj.rename_id, List.map_id', Goal.rename_id]
  rfl

theorem Ptree.rename_id (t : Ptree) : t.rename .id = t := by
  have e : Renaming.id.pred = fun n => n := rfl
  have e' : ∀ o : Option (List (List Name)), o.map (fun x => x) = o := fun o => by cases o <;> rfl
  have e'' : List.map (fun l : List Name => l) = fun x => x := by funext l; exact List.map_id' l
  have e3 : List.map (fun l : Name => l) = fun x => x := by funext l; exact List.map_id' l
  simp only [Ptree.rename, e, e3, e'', e', Obj.rename_id, Op.rename_id, PredDecl.rename_id, Drv.rename_id, Atom.rename_id, List.map_id',
    Goal.rename_id]

theorem sameState_id {h₁ h₂ : StrHash} {s : @State h₁} {t : @State h₂} : SameState .id s t ↔ ∀ a, s.Has a ↔ t.Has a := by
  unfold SameState
  simp only [Atom.rename_id]
  constructor
  · exact fun h a => ⟨fun ha => (h a).2 ⟨a, ha, rfl⟩, fun ha => by obtain ⟨b, hb, rfl⟩ := (h a).1 ha; exact hb⟩
  · exact fun h a => ⟨fun ha => ⟨a, (h a).2 ha, rfl⟩, by rintro ⟨b, hb, rfl⟩; exact (h a).1 hb⟩

theorem sameCall_id (c : Name) : SameCall .id c c := ⟨rfl, by simp [Renaming.id]⟩

/-! ## The index -/

/-- The index with other names. -/
def StateIndex.rename (ρ : Renaming) (I : StateIndex) : StateIndex :=
  ⟨I.preds.map (PredDecl.rename ρ), I.omap.rename ρ, I.useCache⟩

section
variable {ρ : Renaming} (hρ : ρ.Proper) {h₁ h₂ : StrHash}
include hρ

theorem gens_rename (I : StateIndex) : (I.rename ρ).gens = I.gens.map (List.map (List.map (Obj.rename ρ))) := by
  unfold StateIndex.gens StateIndex.rename
  simp only [List.map_map]
  apply List.map_congr_left
  intro p _
  exact paramTypes_rename hρ I.omap p.params

theorem groups_rename (I : StateIndex) : (I.rename ρ).groups = I.groups := by
  unfold StateIndex.groups
  rw [gens_rename hρ, cumSum_map fun o => Comb.size_map _ o]

theorem lookupProp_rename {I : StateIndex} (hm : I.omap.NonEmpty) (i : Nat) :
    SameOutcome (fun a b => b = a.rename ρ) (I.lookupProp i) ((I.rename ρ).lookupProp i) := by
  unfold StateIndex.lookupProp
  rw [groups_rename hρ]
  refine SameOutcome.bind (R := Eq) (SameOutcome.refl (fun _ => rfl) _) ?_
  rintro start _ rfl
  refine (SameOutcome.index (PredDecl.rename ρ) I.preds _).bind ?_
  rintro p _ rfl
  have := Comb.get_map Obj.dflt Obj.dflt (Obj.rename ρ) (paramTypes_ne hm p.params) (i - start)
  rw [← paramTypes_rename hρ] at this
  refine SameOutcome.bind this ?_
  rintro os _ rfl
  exact ofObjs_rename ρ p.name os

theorem predIdx_rename (name : Name) : ∀ (ps : List PredDecl) (i : Nat),
    predIdx (ρ.pred name) (ps.map (PredDecl.rename ρ)) i = predIdx name ps i
  | [], _ => rfl
  | p :: ps, i => by
    simp only [List.map_cons, predIdx, predIdx_rename name ps]
    have : (p.rename ρ).name = ρ.pred name ↔ p.name = name := ⟨hρ.pred _ _, fun e => by simp only [PredDecl.rename, e]⟩
    simp only [this]

theorem findLoop_rename : ∀ (os : List (List Obj)) (gs : List Nat) (as : List Name) (k : Nat),
    Comb.findLoop Obj.same (os.map (List.map (Obj.rename ρ))) gs ((as.map ρ.obj).map fun n => ⟨n, []⟩) k =
      Comb.findLoop Obj.same os gs (as.map fun n => ⟨n, []⟩) k
  | [], _, [], _ => rfl
  | [], _, _ :: _, _ => rfl
  | _ :: _, [], [], _ => rfl
  | _ :: _, _ :: _, [], _ => rfl
  | _ :: _, [], _ :: _, _ => rfl
  | o :: os, g :: gs, a :: as, k => by
    have hf : ∀ l : List Obj, Comb.findIdx Obj.same ⟨ρ.obj a, []⟩ (l.map (Obj.rename ρ)) = Comb.findIdx Obj.same ⟨a, []⟩ l := by
      intro l
      induction l with
      | nil => rfl
      | cons x l ih =>
        have : (x.rename ρ).same ⟨ρ.obj a, []⟩ = x.same ⟨a, []⟩ := Obj.same_rename hρ x ⟨a, []⟩
        simp only [List.map_cons, Comb.findIdx, this, ih]
    simp only [List.map_cons, Comb.findLoop, hf]
    cases Comb.findIdx Obj.same ⟨a, []⟩ o with
    | none => rfl
    | some j => exact findLoop_rename os gs as _

theorem lookupIdx_rename (I : StateIndex) (a : Atom) : (I.rename ρ).lookupIdx (a.rename ρ) = I.lookupIdx a := by
  unfold StateIndex.lookupIdx
  have e1 : (a.rename ρ).pred = ρ.pred a.pred := rfl
  have e2 : (a.rename ρ).args = a.args.map ρ.obj := rfl
  have e3 : (I.rename ρ).preds = I.preds.map (PredDecl.rename ρ) := rfl
  have e4 : (I.rename ρ).omap = I.omap.rename ρ := rfl
  rw [e1, e2, e3, e4, predIdx_rename hρ, groups_rename hρ]
  cases predIdx a.pred I.preds 0 with
  | none => rfl
  | some k =>
    simp only
    symm
    refine (SameOutcome.index (PredDecl.rename ρ) I.preds k).bind_eq ?_
    rintro p _ rfl
    have e5 : (p.rename ρ).params = p.params.map (Obj.rename ρ) := rfl
    unfold Comb.find
    rw [e5, paramTypes_rename hρ, Comb.groupSizes_map, findLoop_rename hρ]

theorem stateLoop'_rename {I : StateIndex} (hm : I.omap.NonEmpty) : ∀ (v : List Bool) (i : Nat) {s : @State h₁} {t : @State h₂},
    SameState ρ s t → SameOutcome (SameState ρ) (@StateIndex.stateLoop' h₁ I v i s) (@StateIndex.stateLoop' h₂ (I.rename ρ) v i t)
  | [], _, s, t, h => h
  | false :: v, i, s, t, h => stateLoop'_rename hm v (i + 1) h
  | true :: v, i, s, t, h => by
    simp only [StateIndex.stateLoop']
    refine (lookupProp_rename hρ hm i).bind ?_
    rintro a _ rfl
    exact stateLoop'_rename hm v (i + 1) (h.insert hρ a).2

omit hρ in
theorem indexLoop'_all {I : StateIndex} : ∀ (as : List Atom) (v v' : List Bool), I.indexLoop' as v = .ok v' →
    ∀ a ∈ as, ∃ i, I.lookupIdx a = .ok i ∧ i < v.length
  | [], _, _, _, _, ha => by simp at ha
  | a :: as, v, v', h, b, hb => by
    simp only [StateIndex.indexLoop', Res.bind_eq_ok] at h
    obtain ⟨i, hi, h⟩ := h
    split at h
    · rename_i hlt
      rcases List.mem_cons.1 hb with rfl | hb
      · exact ⟨i, hi, hlt⟩
      · obtain ⟨j, hj, hlt'⟩ := indexLoop'_all as _ v' h b hb
        exact ⟨j, hj, by simpa using hlt'⟩
    · cases h

theorem indexLoop'_rename (I : StateIndex) {s : @State h₁} {t : @State h₂} (h : SameState ρ s t) {v v' : List Bool}
    (hv : I.indexLoop' (@State.elems h₁ s) v = .ok v') : (I.rename ρ).indexLoop' (@State.elems h₂ t) v = .ok v' := by
  have hall := indexLoop'_all _ _ _ hv
  have hp := h.elems_perm hρ
  obtain ⟨w, h1, h2, h3⟩ := StateIndex.indexLoop'_spec (@State.elems h₁ s) v hall
  rw [hv] at h1
  cases h1
  obtain ⟨w', k1, k2, k3⟩ := StateIndex.indexLoop'_spec (I := I.rename ρ) (@State.elems h₂ t) v (by
    intro b hb
    obtain ⟨a, ha, rfl⟩ := List.mem_map.1 (hp.mem_iff.1 hb)
    rw [lookupIdx_rename hρ]
    exact hall a ha)
  rw [k1]
  congr 1
  apply List.ext_getElem?
  intro j
  by_cases hj : j < v.length
  · have e : w'[j]? = some true ↔ v'[j]? = some true := by
      rw [k3 j hj, h3 j hj]
      refine or_congr_right ⟨?_, ?_⟩
      · rintro ⟨b, hb, hl⟩
        obtain ⟨a, ha, rfl⟩ := List.mem_map.1 (hp.mem_iff.1 hb)
        rw [lookupIdx_rename hρ] at hl
        exact ⟨a, ha, hl⟩
      · rintro ⟨a, ha, hl⟩
        exact ⟨a.rename ρ, hp.mem_iff.2 (List.mem_map.2 ⟨a, ha, rfl⟩), by rw [lookupIdx_rename hρ]; exact hl⟩
    have l1 : j < w'.length := by omega
    have l2 : j < v'.length := by omega
    rw [List.getElem?_eq_getElem l1, List.getElem?_eq_getElem l2] at e ⊢
    simp only [Option.some.injEq] at e ⊢
    exact Bool.eq_iff_iff.2 e
  · rw [List.getElem?_eq_none (by omega), List.getElem?_eq_none (by omega)]

omit hρ in
theorem stateIndex_rename {P : @Pddl h₁} {Q : @Pddl h₂} (h : SamePddl ρ P Q) :
    @Pddl.stateIndex h₂ Q = (@Pddl.stateIndex h₁ P).rename ρ := by
  unfold Pddl.stateIndex StateIndex.rename
  rw [h.omap, h.tree]
  rfl

end

end Symbolic
