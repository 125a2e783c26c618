import Mathlib.Data.List.Perm.Subperm
import Verif.Spec.Symmetry
import Verif.Spec.Reorder
import Verif.Spec.TypeChecked
import Verif.Spec.Cascade
import Verif.Lemmas.SameObjects
import Verif.Lemmas.Rename

/-!
The domain with exchanged objects is the same domain, in another order.
-/

namespace Symbolic

theorem Renaming.objects_proper {π : Name → Name} (h : ∀ x y, π x = π y → x = y) : (Renaming.objects π).Proper :=
  ⟨h, fun _ _ h => h, fun _ _ h => h, rfl, rfl⟩

theorem Obj.rename_objects (π : Name → Name) (o : Obj) : o.rename (.objects π) = ⟨π o.name, o.types⟩ := by
  simp [Obj.rename, Renaming.objects]

theorem map_eq_self {α : Type} {f : α → α} : ∀ {l : List α}, (∀ a ∈ l, f a = a) → l.map f = l
  | [], _ => rfl
  | a :: l, h => by
    rw [List.map_cons, h a (by simp), map_eq_self fun b hb => h b (by simp [hb])]

namespace Ptree.Symmetry

variable {t : Ptree} {π : Name → Name} (h : t.Symmetry π)
include h

theorem ops_eq : (t.rename (.objects π)).ops = t.ops := map_eq_self h.ops
theorem drvs_eq : (t.rename (.objects π)).drvs = t.drvs := map_eq_self h.drvs
theorem preds_eq : (t.rename (.objects π)).preds = t.preds := map_eq_self h.preds

theorem names_map : ((t.rename (.objects π)).constants ++ (t.rename (.objects π)).objects).map Obj.name =
    ((t.constants ++ t.objects).map Obj.name).map π := by
  simp [Ptree.rename, Obj.rename, Renaming.objects, Function.comp_def]

theorem names_nodup (hnd : ((t.constants ++ t.objects).map Obj.name).Nodup) :
    (((t.rename (.objects π)).constants ++ (t.rename (.objects π)).objects).map Obj.name).Nodup := by
  rw [h.names_map]
  exact List.Nodup.map (fun x y e => h.inj x y e) hnd

theorem same_objects (hnd : ((t.constants ++ t.objects).map Obj.name).Nodup) (o : Obj) :
    o ∈ t.constants ++ t.objects ↔
      o ∈ (t.rename (.objects π)).constants ++ (t.rename (.objects π)).objects := by
  have e0 : (t.rename (.objects π)).constants ++ (t.rename (.objects π)).objects =
      (t.constants ++ t.objects).map (Obj.rename (.objects π)) := (List.map_append ..).symm
  have hsub : (t.rename (.objects π)).constants ++ (t.rename (.objects π)).objects ⊆ t.constants ++ t.objects := by
    rw [e0]
    intro x hx
    obtain ⟨y, hy, rfl⟩ := List.mem_map.1 hx
    exact h.objects y hy
  have hn := List.Nodup.of_map _ (h.names_nodup hnd)
  have hp := (List.subperm_of_subset hn hsub).perm_of_length_le (by rw [e0, List.length_map])
  exact hp.mem_iff.symm

theorem sameDomain (hnd : ((t.constants ++ t.objects).map Obj.name).Nodup) : SameDomain t (t.rename (.objects π)) :=
  ⟨h.same_objects hnd, fun op => by rw [h.ops_eq], fun d => by rw [h.drvs_eq]⟩

end Ptree.Symmetry

/-! ## Type checking depends on which objects there are, not on their order -/

theorem atomLits_objects {os₁ os₂ : List Obj} (ho : ∀ o, o ∈ os₁ ↔ o ∈ os₂) (scope : List Name) (l : List (Name × List Term)) :
    AtomLits os₁ scope l ↔ AtomLits os₂ scope l := by simp only [AtomLits, goalWF_objects ho]

mutual
theorem effFormed_objects {os₁ os₂ : List Obj} (ho : ∀ o, o ∈ os₁ ↔ o ∈ os₂) : ∀ (e : Eff) (scope : List Name),
    e.Formed os₁ scope ↔ e.Formed os₂ scope
  | .mk fs adds dels cs, scope => by
    simp only [Eff.Formed, atomLits_objects ho, fListFormed_objects ho fs, cListFormed_objects ho cs]
theorem fListFormed_objects {os₁ os₂ : List Obj} (ho : ∀ o, o ∈ os₁ ↔ o ∈ os₂) : ∀ (e : FList) (scope : List Name),
    e.Formed os₁ scope ↔ e.Formed os₂ scope
  | .nil, scope => by simp only [FList.Formed]
  | .cons vs e rest, scope => by simp only [FList.Formed, effFormed_objects ho e, fListFormed_objects ho rest]
theorem cListFormed_objects {os₁ os₂ : List Obj} (ho : ∀ o, o ∈ os₁ ↔ o ∈ os₂) : ∀ (e : CList) (scope : List Name),
    e.Formed os₁ scope ↔ e.Formed os₂ scope
  | .nil, scope => by simp only [CList.Formed]
  | .cons g e rest, scope => by simp only [CList.Formed, goalWF_objects ho, effFormed_objects ho e, cListFormed_objects ho rest]
end

theorem isA_objects {os₁ os₂ : List Obj} (ho : ∀ o, o ∈ os₁ ↔ o ∈ os₂) (scope : List Obj) (T : Name) (x : Term) :
    x.IsA os₁ scope T ↔ x.IsA os₂ scope T := by
  cases x <;> simp only [Term.IsA, ho]

theorem litsChecked_objects {os₁ os₂ : List Obj} (ho : ∀ o, o ∈ os₁ ↔ o ∈ os₂) (preds : List PredDecl) (scope : List Obj)
    (l : List (Name × List Term)) : LitsChecked os₁ preds scope l ↔ LitsChecked os₂ preds scope l := by
  simp only [LitsChecked, isType_congr ho, isA_objects ho]

mutual
theorem effChecked_objects {os₁ os₂ : List Obj} (ho : ∀ o, o ∈ os₁ ↔ o ∈ os₂) (up : Name → List Name) (preds : List PredDecl) :
    ∀ (e : Eff) (scope : List Obj), e.Checked up os₁ preds scope ↔ e.Checked up os₂ preds scope
  | .mk fs adds dels cs, scope => by
    simp only [Eff.Checked, litsChecked_objects ho, fListChecked_objects ho up preds fs, cListChecked_objects ho up preds cs]
theorem fListChecked_objects {os₁ os₂ : List Obj} (ho : ∀ o, o ∈ os₁ ↔ o ∈ os₂) (up : Name → List Name) (preds : List PredDecl) :
    ∀ (e : FList) (scope : List Obj), e.Checked up os₁ preds scope ↔ e.Checked up os₂ preds scope
  | .nil, scope => by simp only [FList.Checked]
  | .cons vs e rest, scope => by
    simp only [FList.Checked, effChecked_objects ho up preds e, fListChecked_objects ho up preds rest]
theorem cListChecked_objects {os₁ os₂ : List Obj} (ho : ∀ o, o ∈ os₁ ↔ o ∈ os₂) (up : Name → List Name) (preds : List PredDecl) :
    ∀ (e : CList) (scope : List Obj), e.Checked up os₁ preds scope ↔ e.Checked up os₂ preds scope
  | .nil, scope => by simp only [CList.Checked]
  | .cons g e rest, scope => by
    simp only [CList.Checked, effChecked_objects ho up preds e, cListChecked_objects ho up preds rest]
end

theorem opChecked_objects {os₁ os₂ : List Obj} (ho : ∀ o, o ∈ os₁ ↔ o ∈ os₂) {up : Name → List Name} {preds : List PredDecl}
    {op : Op} (h : op.Checked up os₁ preds) : op.Checked up os₂ preds where
  names := h.names
  fits := h.fits
  formed := (effFormed_objects ho _ _).1 h.formed
  fresh := h.fresh
  eff := (effChecked_objects ho _ _ _ _).1 h.eff
  axiom_ := fun ha => ⟨(h.axiom_ ha).1, (goalWF_objects ho _ _).1 (h.axiom_ ha).2.1, (h.axiom_ ha).2.2⟩

theorem Ptree.Symmetry.typeChecked {t : Ptree} {π : Name → Name} (h : t.Symmetry π) {up : Name → List Name}
    (ht : t.TypeChecked up) : (t.rename (.objects π)).TypeChecked up where
  hier := ht.hier
  names := h.names_nodup ht.names
  objects := fun o ho => ht.objects o ((h.same_objects ht.names o).2 ho)
  predNames := by rw [h.preds_eq]; exact ht.predNames
  preds := by rw [h.preds_eq]; exact ht.preds
  ops := by
    rw [h.preds_eq, h.ops_eq]
    exact fun op ho => opChecked_objects (h.same_objects ht.names) (ht.ops op ho)
  drvs := by rw [h.preds_eq, h.drvs_eq]; exact ht.drvs
  init := by
    rw [h.preds_eq]
    intro x hx
    obtain ⟨y, hy, rfl⟩ := List.mem_map.1 hx
    obtain ⟨d, hd, os, hw, rfl⟩ := ht.init y hy
    refine ⟨d, hd, os.map (Obj.rename (.objects π)), ?_, ?_⟩
    · rw [WellTyped, List.forall₂_map_right_iff]
      refine List.Forall₂.imp (fun p o ho => ⟨?_, ?_⟩) hw
      · exact (h.same_objects ht.names _).1 (h.objects o ho.1)
      · have := ho.2
        rwa [Obj.rename_objects]
    · rw [← ofObjs_rename]
      rfl

/-! ## Well-formed formulas have enough arguments -/

mutual
theorem goalWF_enough {objects : List Obj} : ∀ (g : Goal) (scope : List Name), g.WF objects scope → g.EnoughArgs objects
  | .atom p ts, scope, h => by
    simp only [Goal.WF] at h
    simp only [Goal.EnoughArgs, EnoughArgs]
    refine ⟨fun e => by rw [h.2.1 e], fun e => ?_⟩
    by_cases hp : p = n!"="
    · rw [h.2.1 hp]; omega
    · rw [h.2.2 hp e]
  | .conj gs, scope, h => by simp only [Goal.WF] at h; simp only [Goal.EnoughArgs]; exact goalWFs_enough gs scope h
  | .disj gs, scope, h => by simp only [Goal.WF] at h; simp only [Goal.EnoughArgs]; exact goalWFs_enough gs scope h
  | .neg g, scope, h => by simp only [Goal.WF] at h; simp only [Goal.EnoughArgs]; exact goalWF_enough g scope h
  | .all vs g, scope, h => by simp only [Goal.WF] at h; simp only [Goal.EnoughArgs]; exact goalWF_enough g _ h.2
  | .ex vs g, scope, h => by simp only [Goal.WF] at h; simp only [Goal.EnoughArgs]; exact goalWF_enough g _ h.2
  | .other, scope, h => by simp only [Goal.EnoughArgs]
theorem goalWFs_enough {objects : List Obj} : ∀ (gs : List Goal) (scope : List Name), Goal.WFs objects scope gs →
    Goal.EnoughArgsAll objects gs
  | [], scope, h => by simp only [Goal.EnoughArgsAll]
  | g :: gs, scope, h => by
    simp only [Goal.WFs] at h
    simp only [Goal.EnoughArgsAll]
    exact ⟨goalWF_enough g scope h.1, goalWFs_enough gs scope h.2⟩
end

theorem wfLits_enough {objects : List Obj} {scope : List Name} {l : List (Name × List Term)} (h : WFLits objects scope l) :
    ∀ x ∈ l, EnoughArgs objects x.1 x.2 := fun x hx =>
  ⟨fun e => absurd e (h x.1 x.2 hx).2.1, fun e => absurd e (h x.1 x.2 hx).2.2⟩

mutual
theorem effWF_enough {objects : List Obj} : ∀ (e : Eff) (scope : List Name), e.WF objects scope → e.EnoughArgs objects
  | .mk fs adds dels cs, scope, h => by
    simp only [Eff.WF] at h
    simp only [Eff.EnoughArgs]
    exact ⟨fListWF_enough fs scope h.1, wfLits_enough h.2.1, wfLits_enough h.2.2.1, cListWF_enough cs scope h.2.2.2⟩
theorem fListWF_enough {objects : List Obj} : ∀ (e : FList) (scope : List Name), e.WF objects scope → e.EnoughArgs objects
  | .nil, scope, h => by simp only [FList.EnoughArgs]
  | .cons vs e rest, scope, h => by
    simp only [FList.WF] at h
    simp only [FList.EnoughArgs]
    exact ⟨effWF_enough e _ h.2.1, fListWF_enough rest scope h.2.2⟩
theorem cListWF_enough {objects : List Obj} : ∀ (e : CList) (scope : List Name), e.WF objects scope → e.EnoughArgs objects
  | .nil, scope, h => by simp only [CList.EnoughArgs]
  | .cons g e rest, scope, h => by
    simp only [CList.WF] at h
    simp only [CList.EnoughArgs]
    exact ⟨goalWF_enough g scope h.1, effWF_enough e scope h.2.1, cListWF_enough rest scope h.2.2⟩
end

end Symbolic
