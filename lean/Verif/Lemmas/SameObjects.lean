import Verif.Spec.Axioms
import Verif.Spec.Effects
import Verif.Spec.Derived

/-!
The specifications only depend on which objects there are, not on the order in which they are listed.
-/

namespace Symbolic

theorem wellTyped_congr {os₁ os₂ : List Obj} (ho : ∀ o, o ∈ os₁ ↔ o ∈ os₂) {vs as : List Obj} :
    WellTyped os₁ vs as ↔ WellTyped os₂ vs as := by
  unfold WellTyped
  constructor <;> intro h <;> refine h.imp fun _ _ h => ⟨?_, h.2⟩
  · exact (ho _).1 h.1
  · exact (ho _).2 h.1

theorem isType_congr {os₁ os₂ : List Obj} (ho : ∀ o, o ∈ os₁ ↔ o ∈ os₂) (p : Name) : IsType os₁ p ↔ IsType os₂ p := by
  simp only [IsType, ho]

theorem satAtom_objects {os₁ os₂ : List Obj} (ho : ∀ o, o ∈ os₁ ↔ o ∈ os₂) (S : Atom → Prop) (env : Env) (p : Name)
    (ts : List Term) : SatAtom os₁ S env p ts ↔ SatAtom os₂ S env p ts := by
  simp only [SatAtom, isType_congr ho]

mutual
theorem sat_objects {os₁ os₂ : List Obj} (ho : ∀ o, o ∈ os₁ ↔ o ∈ os₂) (S : Atom → Prop) : ∀ (g : Goal) (env : Env),
    Sat os₁ S env g ↔ Sat os₂ S env g
  | .atom p ts, env => by simp only [Sat, satAtom_objects ho]
  | .conj gs, env => by simp only [Sat]; exact satAll_objects ho S gs env
  | .disj gs, env => by simp only [Sat]; exact satAny_objects ho S gs env
  | .neg g, env => by simp only [Sat, sat_objects ho S g]
  | .all vs g, env => by simp only [Sat, wellTyped_congr ho, sat_objects ho S g]
  | .ex vs g, env => by simp only [Sat, wellTyped_congr ho, sat_objects ho S g]
  | .other, env => by simp only [Sat]
theorem satAll_objects {os₁ os₂ : List Obj} (ho : ∀ o, o ∈ os₁ ↔ o ∈ os₂) (S : Atom → Prop) : ∀ (gs : List Goal) (env : Env),
    SatAll os₁ S env gs ↔ SatAll os₂ S env gs
  | [], env => by simp only [SatAll]
  | g :: gs, env => by simp only [SatAll, sat_objects ho S g, satAll_objects ho S gs]
theorem satAny_objects {os₁ os₂ : List Obj} (ho : ∀ o, o ∈ os₁ ↔ o ∈ os₂) (S : Atom → Prop) : ∀ (gs : List Goal) (env : Env),
    SatAny os₁ S env gs ↔ SatAny os₂ S env gs
  | [], env => by simp only [SatAny]
  | g :: gs, env => by simp only [SatAny, sat_objects ho S g, satAny_objects ho S gs]
end

mutual
theorem Eff.says_objects {os₁ os₂ : List Obj} (ho : ∀ o, o ∈ os₁ ↔ o ∈ os₂) (S : Atom → Prop) : ∀ (e : Eff) (env : Env),
    e.Says os₁ S env ↔ e.Says os₂ S env
  | .mk fs adds dels cs, env => by
    simp only [Eff.Says, satAtom_objects ho, FList.says_objects ho S fs, CList.says_objects ho S cs]
theorem FList.says_objects {os₁ os₂ : List Obj} (ho : ∀ o, o ∈ os₁ ↔ o ∈ os₂) (S : Atom → Prop) : ∀ (e : FList) (env : Env),
    e.Says os₁ S env ↔ e.Says os₂ S env
  | .nil, env => by simp only [FList.Says]
  | .cons vs e rest, env => by
    simp only [FList.Says, wellTyped_congr ho, Eff.says_objects ho S e, FList.says_objects ho S rest]
theorem CList.says_objects {os₁ os₂ : List Obj} (ho : ∀ o, o ∈ os₁ ↔ o ∈ os₂) (S : Atom → Prop) : ∀ (e : CList) (env : Env),
    e.Says os₁ S env ↔ e.Says os₂ S env
  | .nil, env => by simp only [CList.Says]
  | .cons g e rest, env => by
    simp only [CList.Says, sat_objects ho, Eff.says_objects ho S e, CList.says_objects ho S rest]
end

mutual
theorem goalWF_objects {os₁ os₂ : List Obj} (ho : ∀ o, o ∈ os₁ ↔ o ∈ os₂) : ∀ (g : Goal) (scope : List Name),
    g.WF os₁ scope ↔ g.WF os₂ scope
  | .atom p ts, scope => by simp only [Goal.WF, isType_congr ho]
  | .conj gs, scope => by simp only [Goal.WF]; exact goalWFs_objects ho gs scope
  | .disj gs, scope => by simp only [Goal.WF]; exact goalWFs_objects ho gs scope
  | .neg g, scope => by simp only [Goal.WF]; exact goalWF_objects ho g scope
  | .all vs g, scope => by simp only [Goal.WF, goalWF_objects ho g]
  | .ex vs g, scope => by simp only [Goal.WF, goalWF_objects ho g]
  | .other, scope => by simp only [Goal.WF]
theorem goalWFs_objects {os₁ os₂ : List Obj} (ho : ∀ o, o ∈ os₁ ↔ o ∈ os₂) : ∀ (gs : List Goal) (scope : List Name),
    Goal.WFs os₁ scope gs ↔ Goal.WFs os₂ scope gs
  | [], scope => by simp only [Goal.WFs]
  | g :: gs, scope => by simp only [Goal.WFs, goalWF_objects ho g, goalWFs_objects ho gs]
end

theorem wfLits_objects {os₁ os₂ : List Obj} (ho : ∀ o, o ∈ os₁ ↔ o ∈ os₂) (scope : List Name) (l : List (Name × List Term)) :
    WFLits os₁ scope l ↔ WFLits os₂ scope l := by simp only [WFLits, isType_congr ho]

mutual
theorem effWF_objects {os₁ os₂ : List Obj} (ho : ∀ o, o ∈ os₁ ↔ o ∈ os₂) : ∀ (e : Eff) (scope : List Name),
    e.WF os₁ scope ↔ e.WF os₂ scope
  | .mk fs adds dels cs, scope => by
    simp only [Eff.WF, wfLits_objects ho, fListWF_objects ho fs, cListWF_objects ho cs]
theorem fListWF_objects {os₁ os₂ : List Obj} (ho : ∀ o, o ∈ os₁ ↔ o ∈ os₂) : ∀ (e : FList) (scope : List Name),
    e.WF os₁ scope ↔ e.WF os₂ scope
  | .nil, scope => by simp only [FList.WF]
  | .cons vs e rest, scope => by simp only [FList.WF, effWF_objects ho e, fListWF_objects ho rest]
theorem cListWF_objects {os₁ os₂ : List Obj} (ho : ∀ o, o ∈ os₁ ↔ o ∈ os₂) : ∀ (e : CList) (scope : List Name),
    e.WF os₁ scope ↔ e.WF os₂ scope
  | .nil, scope => by simp only [CList.WF]
  | .cons g e rest, scope => by simp only [CList.WF, goalWF_objects ho, effWF_objects ho e, cListWF_objects ho rest]
end

mutual
theorem makes_objects {os₁ os₂ : List Obj} (ho : ∀ o, o ∈ os₁ ↔ o ∈ os₂) (S : Atom → Prop) (sign : Bool) :
    ∀ (e : Eff) (env : Env) (x : Atom), Makes os₁ S sign env e x ↔ Makes os₂ S sign env e x
  | .mk fs adds dels cs, env, x => by simp only [Makes, makesF_objects ho S sign fs, makesC_objects ho S sign cs]
theorem makesF_objects {os₁ os₂ : List Obj} (ho : ∀ o, o ∈ os₁ ↔ o ∈ os₂) (S : Atom → Prop) (sign : Bool) :
    ∀ (e : FList) (env : Env) (x : Atom), MakesF os₁ S sign env e x ↔ MakesF os₂ S sign env e x
  | .nil, env, x => by simp only [MakesF]
  | .cons vs e rest, env, x => by
    simp only [MakesF, wellTyped_congr ho, makes_objects ho S sign e, makesF_objects ho S sign rest]
theorem makesC_objects {os₁ os₂ : List Obj} (ho : ∀ o, o ∈ os₁ ↔ o ∈ os₂) (S : Atom → Prop) (sign : Bool) :
    ∀ (e : CList) (env : Env) (x : Atom), MakesC os₁ S sign env e x ↔ MakesC os₂ S sign env e x
  | .nil, env, x => by simp only [MakesC]
  | .cons g e rest, env, x => by
    simp only [MakesC, sat_objects ho, makes_objects ho S sign e, makesC_objects ho S sign rest]
end

theorem drvWF_objects {os₁ os₂ : List Obj} (ho : ∀ o, o ∈ os₁ ↔ o ∈ os₂) (d : Drv) : d.WF os₁ ↔ d.WF os₂ :=
  ⟨fun h => ⟨h.1, (goalWF_objects ho _ _).1 h.2⟩, fun h => ⟨h.1, (goalWF_objects ho _ _).2 h.2⟩⟩

theorem isDerived_congr {os₁ os₂ : List Obj} (ho : ∀ o, o ∈ os₁ ↔ o ∈ os₂) {ds₁ ds₂ : List Drv} (hd : ∀ d, d ∈ ds₁ ↔ d ∈ ds₂)
    (x : Atom) : IsDerived os₁ ds₁ x ↔ IsDerived os₂ ds₂ x := by simp only [IsDerived, hd, wellTyped_congr ho]

theorem fixpoint_congr {os₁ os₂ : List Obj} (ho : ∀ o, o ∈ os₁ ↔ o ∈ os₂) {ds₁ ds₂ : List Drv} (hd : ∀ d, d ∈ ds₁ ↔ d ∈ ds₂)
    (S : Atom → Prop) : Fixpoint os₁ ds₁ S ↔ Fixpoint os₂ ds₂ S := by
  simp only [Fixpoint, hd, wellTyped_congr ho, Drv.Holds, sat_objects ho]

theorem isHead_congr {ds₁ ds₂ : List Drv} (hd : ∀ d, d ∈ ds₁ ↔ d ∈ ds₂) (p : Name) : IsHead ds₁ p ↔ IsHead ds₂ p := by
  simp only [IsHead, hd]

theorem acyclic_congr {ds₁ ds₂ : List Drv} (hd : ∀ d, d ∈ ds₁ ↔ d ∈ ds₂) (rank : Name → Nat) :
    Acyclic rank ds₁ ↔ Acyclic rank ds₂ := by
  simp only [Acyclic, hd, isHead_congr hd]

end Symbolic
