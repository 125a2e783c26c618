import Verif.Spec.Rename
import Verif.Lemmas.Object
import Verif.Lemmas.State
import Verif.Lemmas.Res

/-!
Evaluation and effects under a renaming: every step of the one run is a step of the other.
-/

namespace Symbolic

/-! ## Outcomes -/

theorem SameOutcome.bind {α β γ δ : Type} {R : α → β → Prop} {S : γ → δ → Prop} {x : Res α} {y : Res β}
    {f : α → Res γ} {g : β → Res δ} (h : SameOutcome R x y) (hf : ∀ a b, R a b → SameOutcome S (f a) (g b)) :
    SameOutcome S (x >>= f) (y >>= g) := by
  cases x <;> cases y <;> simp_all [SameOutcome]

theorem SameOutcome.bind_eq {α β γ : Type} {R : α → β → Prop} {x : Res α} {y : Res β}
    {f : α → Res γ} {g : β → Res γ} (h : SameOutcome R x y) (hf : ∀ a b, R a b → f a = g b) :
    (x >>= f) = (y >>= g) := by
  cases x <;> cases y <;> simp_all only [SameOutcome, Res.bind_ok, Res.bind_exc, Res.bind_ub, Res.bind_fuel]
  exact hf _ _ h

theorem SameOutcome.ok_left {α β : Type} {R : α → β → Prop} {x : Res α} {y : Res β} (h : SameOutcome R x y) {a : α}
    (hx : x = .ok a) : ∃ b, y = .ok b ∧ R a b := by
  subst hx
  cases y <;> simp_all [SameOutcome]

theorem SameOutcome.ok_right {α β : Type} {R : α → β → Prop} {x : Res α} {y : Res β} (h : SameOutcome R x y) {b : β}
    (hy : y = .ok b) : ∃ a, x = .ok a ∧ R a b := by
  subst hy
  cases x <;> simp_all [SameOutcome]

theorem SameOutcome.of_eq {α β : Type} {R : α → β → Prop} {x y : Res α} (h : x = y) {f : α → β}
    (hf : ∀ a, R a (f a)) : SameOutcome R x (do let a ← y; pure (f a)) := by
  subst h
  cases x <;> simp_all [SameOutcome]

theorem SameOutcome.eq {α : Type} {x y : Res α} (h : SameOutcome (fun a b => b = a) x y) : y = x := by
  cases x <;> cases y <;> simp_all [SameOutcome]

theorem SameOutcome.refl {α : Type} {R : α → α → Prop} (hR : ∀ a, R a a) (x : Res α) : SameOutcome R x x := by
  cases x <;> simp_all [SameOutcome]

theorem SameOutcome.mono {α β : Type} {R S : α → β → Prop} {x : Res α} {y : Res β} (h : SameOutcome R x y)
    (hRS : ∀ a b, R a b → S a b) : SameOutcome S x y := by
  cases x <;> cases y <;> simp_all [SameOutcome]

theorem SameOutcome.index {α β : Type} (f : α → β) (l : List α) (i : Nat) :
    SameOutcome (fun a b => b = f a) (Res.index l i) (Res.index (l.map f) i) := by
  unfold Res.index
  rw [List.getElem?_map]
  cases l[i]? <;> simp [SameOutcome]

/-! ## Objects -/

section
variable {ρ : Renaming} (hρ : ρ.Proper)
include hρ

theorem Obj.same_rename (a b : Obj) : (a.rename ρ).same (b.rename ρ) = a.same b := by
  unfold Obj.same Obj.rename
  by_cases h : a.name = b.name
  · simp [h]
  · have : ρ.obj a.name ≠ ρ.obj b.name := fun h' => h (hρ.obj _ _ h')
    simp [h, this]

omit hρ in
theorem Renaming.Proper.dflt (hρ : ρ.Proper) : ρ.pred kDefaultType = kDefaultType := hρ.object

theorem Obj.typeName_rename (o : Obj) : (o.rename ρ).typeName = ρ.pred o.typeName := by
  unfold Obj.typeName Obj.rename
  cases o.types <;> simp [hρ.dflt]

theorem Obj.isSubtype_rename (o : Obj) (p : Name) : (o.rename ρ).isSubtype (ρ.pred p) = o.isSubtype p := by
  unfold Obj.isSubtype Obj.rename
  have h : ρ.pred p = kDefaultType ↔ p = kDefaultType :=
    ⟨fun h => hρ.pred _ _ (h.trans hρ.dflt.symm), fun h => by rw [h, hρ.dflt]⟩
  simp only [h, List.any_map]
  split
  · rfl
  · congr 1
    funext t
    simp only [Function.comp, decide_eq_decide]
    exact ⟨hρ.pred _ _, fun h => by rw [h]⟩

theorem Obj.listTypes_rename (o : Obj) : (o.rename ρ).listTypes = o.listTypes.map ρ.pred := by
  unfold Obj.listTypes
  simp only [Obj.rename, List.getLast?_map]
  cases o.types.getLast? with
  | none => simp [hρ.dflt]
  | some t =>
    simp only [Option.map_some]
    by_cases h : t = kDefaultType
    · subst h; simp [hρ.dflt]
    · have : ρ.pred t ≠ kDefaultType := fun h' => h (hρ.pred _ _ (h'.trans hρ.dflt.symm))
      simp [h, this, hρ.dflt]

omit hρ in
/-- The renamed object map. -/
def ObjMap.rename (ρ : Renaming) (m : ObjMap) : ObjMap := m.map fun e => (ρ.pred e.1, e.2.map (Obj.rename ρ))

theorem ObjMap.push_rename (m : ObjMap) (t : Name) (o : Obj) :
    (m.rename ρ).push (ρ.pred t) (o.rename ρ) = (m.push t o).rename ρ := by
  induction m with
  | nil => simp [ObjMap.rename, ObjMap.push]
  | cons e rest ih =>
    obtain ⟨t', os⟩ := e
    simp only [ObjMap.rename, List.map_cons, ObjMap.push] at ih ⊢
    by_cases h : t' = t
    · subst h; simp
    · have : ρ.pred t' ≠ ρ.pred t := fun h' => h (hρ.pred _ _ h')
      simp [h, this, ih]

theorem ObjMap.find_rename (m : ObjMap) (t : Name) :
    (m.rename ρ).find (ρ.pred t) = (m.find t).map (List.map (Obj.rename ρ)) := by
  induction m with
  | nil => simp [ObjMap.rename, ObjMap.find]
  | cons e rest ih =>
    obtain ⟨t', os⟩ := e
    simp only [ObjMap.rename, List.map_cons, ObjMap.find] at ih ⊢
    by_cases h : t' = t
    · subst h; simp
    · have : ρ.pred t' ≠ ρ.pred t := fun h' => h (hρ.pred _ _ h')
      simp [h, this, ih]

theorem ObjMap.has_rename (m : ObjMap) (t : Name) : (m.rename ρ).has (ρ.pred t) = m.has t := by
  simp [ObjMap.has, ObjMap.find_rename hρ]

theorem ObjMap.create_rename (objects : List Obj) :
    ObjMap.create (objects.map (Obj.rename ρ)) = (ObjMap.create objects).rename ρ := by
  unfold ObjMap.create
  have h1 : ∀ (o : Obj) (ts : List Name) (m : ObjMap),
      (ts.map ρ.pred).foldl (fun m t => m.push t (o.rename ρ)) (m.rename ρ) =
        (ts.foldl (fun m t => m.push t o) m).rename ρ := by
    intro o ts
    induction ts with
    | nil => intro m; rfl
    | cons t ts ih => intro m; simp only [List.map_cons, List.foldl_cons, ObjMap.push_rename hρ, ih]
  have h2 : ∀ (os : List Obj) (m : ObjMap),
      (os.map (Obj.rename ρ)).foldl (fun m o => o.listTypes.foldl (fun m t => m.push t o) m) (m.rename ρ) =
        (os.foldl (fun m o => o.listTypes.foldl (fun m t => m.push t o) m) m).rename ρ := by
    intro os
    induction os with
    | nil => intro m; rfl
    | cons o os ih => intro m; simp only [List.map_cons, List.foldl_cons, Obj.listTypes_rename hρ, h1, ih]
  exact h2 objects []

theorem atomKind_rename (m : ObjMap) (p : Name) : atomKind (m.rename ρ) (ρ.pred p) = atomKind m p := by
  unfold atomKind
  have h : ρ.pred p = n!"=" ↔ p = n!"=" := ⟨fun h => hρ.pred _ _ (h.trans hρ.eq.symm), fun h => by rw [h, hρ.eq]⟩
  simp only [h, ObjMap.has_rename hρ]

theorem paramTypes_rename (m : ObjMap) (params : List Obj) :
    paramTypes (m.rename ρ) (params.map (Obj.rename ρ)) = (paramTypes m params).map (List.map (Obj.rename ρ)) := by
  unfold paramTypes
  suffices ∀ acc, paramTypes.go (m.rename ρ) (params.map (Obj.rename ρ)) (acc.map (List.map (Obj.rename ρ))) =
      (paramTypes.go m params acc).map (List.map (Obj.rename ρ)) from this []
  induction params with
  | nil => intro acc; rfl
  | cons p ps ih =>
    intro acc
    simp only [List.map_cons, paramTypes.go, Obj.typeName_rename hρ, ObjMap.find_rename hρ]
    cases m.find p.typeName with
    | none => rfl
    | some os => simp only [Option.map_some]; rw [← ih]; simp

end

/-! ## Generators -/

theorem cartesian_map {α β : Type} (f : α → β) (l : List (List α)) :
    cartesian (l.map (List.map f)) = (cartesian l).map (List.map f) := by
  induction l with
  | nil => rfl
  | cons o os ih =>
    simp only [List.map_cons, cartesian, ih]
    rw [List.flatMap_map, List.map_flatMap]
    simp only [List.map_map]
    rfl

theorem genLoop_rename (ρ : Renaming) {options : List (List Obj)} (hne : ∀ o ∈ options, o ≠ []) :
    SameOutcome (fun l l' => l' = l.map (List.map (Obj.rename ρ))) (genLoop options)
      (genLoop (options.map (List.map (Obj.rename ρ)))) := by
  rw [genLoop_ok hne, genLoop_ok (by
    intro o ho
    obtain ⟨o', ho', rfl⟩ := List.mem_map.1 ho
    simpa using hne o' ho')]
  simp only [SameOutcome, List.map_eq_nil_iff, cartesian_map]
  split <;> simp

theorem ctor_rename (ρ : Renaming) (options : List (List Obj)) :
    SameOutcome (fun l l' => l' = l.map (List.map (Obj.rename ρ))) (Comb.ctor options)
      (Comb.ctor (options.map (List.map (Obj.rename ρ)))) := by
  unfold Comb.ctor
  have : (options.map (List.map (Obj.rename ρ))).any List.isEmpty = options.any List.isEmpty := by
    rw [List.any_map]; congr 1; funext o; simp
  rw [this]
  split <;> simp [SameOutcome]

/-! ## Arguments -/

theorem idxParams_rename {ρ : Renaming} (hρ : ρ.Proper) (params propParams : List Obj) :
    idxParams (params.map (Obj.rename ρ)) (propParams.map (Obj.rename ρ)) = idxParams params propParams := by
  unfold idxParams
  simp only [List.length_map, List.getElem?_map]
  congr 1
  funext i
  congr 1
  funext j
  cases propParams[i]? <;> cases params[j]? <;> simp [Obj.same_rename hρ]

theorem applyLoop_rename (f : Obj → Obj) (args : List Obj) : ∀ (l : List (Nat × Nat)) (buf : List Obj),
    SameOutcome (fun l l' => l' = l.map f) (applyLoop args l buf) (applyLoop (args.map f) l (buf.map f))
  | [], buf => rfl
  | (i, j) :: rest, buf => by
    unfold applyLoop
    refine (SameOutcome.index f args j).bind ?_
    rintro a b rfl
    simp only [List.length_map]
    split
    · rw [← List.map_set]; exact applyLoop_rename f args rest _
    · trivial

theorem map_term_rename (ρ : Renaming) (ts : List Term) :
    (ts.map (Term.rename ρ)).map Term.obj = (ts.map Term.obj).map (Obj.rename ρ) := by
  simp only [List.map_map]
  congr 1
  funext t
  cases t <;> rfl

theorem applyFn_rename {ρ : Renaming} (hρ : ρ.Proper) (params : List Obj) (ts : List Term) (args : List Obj) :
    SameOutcome (fun l l' => l' = l.map (Obj.rename ρ)) (applyFn params (ts.map Term.obj) args)
      (applyFn (params.map (Obj.rename ρ)) ((ts.map (Term.rename ρ)).map Term.obj) (args.map (Obj.rename ρ))) := by
  unfold applyFn
  rw [map_term_rename, idxParams_rename hρ]
  exact applyLoop_rename _ _ _ _

theorem ofObjs_rename (ρ : Renaming) (p : Name) (os : List Obj) :
    Atom.ofObjs (ρ.pred p) (os.map (Obj.rename ρ)) = (Atom.ofObjs p os).rename ρ := by
  simp [Atom.ofObjs, Atom.rename, Obj.rename, Function.comp_def]

theorem Atom.rename_inj {ρ : Renaming} (hρ : ρ.Proper) {a b : Atom} (h : a.rename ρ = b.rename ρ) : a = b := by
  obtain ⟨p, as⟩ := a
  obtain ⟨q, bs⟩ := b
  simp only [Atom.rename, Atom.mk.injEq] at h
  obtain ⟨h1, h2⟩ := h
  have := hρ.pred _ _ h1
  subst this
  have : as = bs := List.map_injective_iff.2 (fun x y h => hρ.obj x y h) h2
  subst this
  rfl

/-! ## States -/

variable {σ τ : Type} [StateLike σ] [StateLike τ]

/-- Two kinds of states answer and change alike. -/
structure Tracks (ρ : Renaming) (R : σ → τ → Prop) : Prop where
  contains : ∀ s t, R s t → ∀ a, StateLike.contains t (Atom.rename ρ a) = StateLike.contains s a
  lacks : ∀ s t, R s t → ∀ a, StateLike.lacks t (Atom.rename ρ a) = StateLike.lacks s a
  insert : ∀ s t, R s t → ∀ a, (StateLike.insert t (Atom.rename ρ a)).1 = (StateLike.insert s a).1 ∧
    R (StateLike.insert s a).2 (StateLike.insert t (Atom.rename ρ a)).2
  erase : ∀ s t, R s t → ∀ a, (StateLike.erase t (Atom.rename ρ a)).1 = (StateLike.erase s a).1 ∧
    R (StateLike.erase s a).2 (StateLike.erase t (Atom.rename ρ a)).2
  cond : ∀ r, StateLike.cond (σ := τ) r = StateLike.cond (σ := σ) r

section
variable {ρ : Renaming} (hρ : ρ.Proper) {R : σ → τ → Prop} (hR : Tracks ρ R)
include hρ hR

theorem evalAtom_rename {s : σ} {t : τ} (h : R s t) (m : ObjMap) (params : List Obj) (p : Name) (ts : List Term)
    (args : List Obj) :
    evalAtom (m.rename ρ) (params.map (Obj.rename ρ)) (ρ.pred p) (ts.map (Term.rename ρ)) t (args.map (Obj.rename ρ)) =
      evalAtom m params p ts s args := by
  unfold evalAtom
  symm
  refine (applyFn_rename hρ params ts args).bind_eq ?_
  rintro os _ rfl
  rw [atomKind_rename hρ]
  cases atomKind m p
  · refine (SameOutcome.index _ os 0).bind_eq ?_
    rintro a _ rfl
    refine (SameOutcome.index _ os 1).bind_eq ?_
    rintro b _ rfl
    rw [Obj.same_rename hρ]
  · refine (SameOutcome.index _ os 0).bind_eq ?_
    rintro a _ rfl
    rw [Obj.isSubtype_rename hρ]
  · simp only [ofObjs_rename]
    exact (hR.contains s t h _).symm

theorem evalNeg_rename {s : σ} {t : τ} (h : R s t) (m : ObjMap) (params : List Obj) (g : Goal) (args : List Obj)
    (r : Res Bool) :
    evalNeg (m.rename ρ) (params.map (Obj.rename ρ)) (g.rename ρ) t (args.map (Obj.rename ρ)) r =
      evalNeg m params g s args r := by
  cases g with
  | atom p ts =>
    simp only [Goal.rename, evalNeg, atomKind_rename hρ]
    cases atomKind m p <;> simp only
    symm
    refine (applyFn_rename hρ params ts args).bind_eq ?_
    rintro os _ rfl
    simp only [ofObjs_rename]
    exact (hR.lacks s t h _).symm
  | conj => rfl
  | disj => rfl
  | neg => rfl
  | all => rfl
  | ex => rfl
  | other => rfl

omit hρ hR in
theorem loopAll_map {f g : List Obj → Res Bool} {k : List Obj → List Obj} (hf : ∀ os, g (k os) = f os) :
    ∀ l, loopAll g (l.map k) = loopAll f l
  | [] => rfl
  | os :: l => by simp only [List.map_cons, loopAll, hf, loopAll_map hf l]

omit hρ hR in
theorem loopAny_map {f g : List Obj → Res Bool} {k : List Obj → List Obj} (hf : ∀ os, g (k os) = f os) :
    ∀ l, loopAny g (l.map k) = loopAny f l
  | [] => rfl
  | os :: l => by simp only [List.map_cons, loopAny, hf, loopAny_map hf l]

set_option linter.unusedSectionVars false in
mutual
theorem Goal.eval_rename {s : σ} {t : τ} (h : R s t) {m : ObjMap} (hm : m.NonEmpty) : ∀ (g : Goal) (params args : List Obj),
    (g.rename ρ).eval (m.rename ρ) (params.map (Obj.rename ρ)) t (args.map (Obj.rename ρ)) = g.eval m params s args
  | .atom p ts, params, args => by
    simp only [Goal.rename, Goal.eval]; exact evalAtom_rename hρ hR h m params p ts args
  | .conj gs, params, args => by simp only [Goal.rename, Goal.eval]; exact Goal.evalAll_rename h hm gs params args
  | .disj gs, params, args => by simp only [Goal.rename, Goal.eval]; exact Goal.evalAny_rename h hm gs params args
  | .neg g, params, args => by
    simp only [Goal.rename, Goal.eval, Goal.eval_rename h hm g params args]
    exact evalNeg_rename hρ hR h m params g args _
  | .all vars g, params, args => by
    simp only [Goal.rename, Goal.eval, paramTypes_rename hρ]
    symm
    refine (genLoop_rename ρ (paramTypes_ne hm vars)).bind_eq ?_
    rintro l _ rfl
    refine (loopAll_map ?_ l).symm
    intro os
    rw [← List.map_append, ← List.map_append]
    exact Goal.eval_rename h hm g _ _
  | .ex vars g, params, args => by
    simp only [Goal.rename, Goal.eval, paramTypes_rename hρ]
    symm
    refine (genLoop_rename ρ (paramTypes_ne hm vars)).bind_eq ?_
    rintro l _ rfl
    refine (loopAny_map ?_ l).symm
    intro os
    rw [← List.map_append, ← List.map_append]
    exact Goal.eval_rename h hm g _ _
  | .other, params, args => by simp only [Goal.rename, Goal.eval]
theorem Goal.evalAll_rename {s : σ} {t : τ} (h : R s t) {m : ObjMap} (hm : m.NonEmpty) :
    ∀ (gs : List Goal) (params args : List Obj),
    Goal.evalAll (Goal.renameAll ρ gs) (m.rename ρ) (params.map (Obj.rename ρ)) t (args.map (Obj.rename ρ)) =
      Goal.evalAll gs m params s args
  | [], _, _ => by simp only [Goal.renameAll, Goal.evalAll]
  | g :: gs, params, args => by
    simp only [Goal.renameAll, Goal.evalAll, Goal.eval_rename h hm g params args, Goal.evalAll_rename h hm gs params args]
theorem Goal.evalAny_rename {s : σ} {t : τ} (h : R s t) {m : ObjMap} (hm : m.NonEmpty) :
    ∀ (gs : List Goal) (params args : List Obj),
    Goal.evalAny (Goal.renameAll ρ gs) (m.rename ρ) (params.map (Obj.rename ρ)) t (args.map (Obj.rename ρ)) =
      Goal.evalAny gs m params s args
  | [], _, _ => by simp only [Goal.renameAll, Goal.evalAny]
  | g :: gs, params, args => by
    simp only [Goal.renameAll, Goal.evalAny, Goal.eval_rename h hm g params args, Goal.evalAny_rename h hm gs params args]
end

end

/-! ## Effects -/

/-- The renamed axiom. -/
def Ax.rename (ρ : Renaming) (ax : Ax) : Ax :=
  ⟨ax.op.rename ρ, ax.pos, ρ.pred ax.pred, ax.ctxArgs.map (Obj.rename ρ), ax.arguments.map (List.map (Obj.rename ρ))⟩

/-- Same change code and related states. -/
def SameChange {σ τ : Type} (R : σ → τ → Prop) (x : Nat × σ) (y : Nat × τ) : Prop := y.1 = x.1 ∧ R x.2 y.2

/-- What follows a change is related. -/
def FireFollows (ρ : Renaming) (R : σ → τ → Prop) (fire : Fire σ) (fire' : Fire τ) : Prop :=
  ∀ sign pred params eff args s t, R s t → SameOutcome R (fire sign pred params eff args s)
    (fire' sign (ρ.pred pred) (params.map (Obj.rename ρ)) (eff.map (Obj.rename ρ)) (args.map (Obj.rename ρ)) t)

section
variable {ρ : Renaming} (hρ : ρ.Proper) {R : σ → τ → Prop} (hR : Tracks ρ R)
include hρ hR

theorem applySimple_rename {fire : Fire σ} {fire' : Fire τ} (hf : FireFollows ρ R fire fire') {s : σ} {t : τ} (h : R s t)
    (m : ObjMap) (sign : Bool) (p : Name) (ts : List Term) (params args : List Obj) :
    SameOutcome (SameChange R) (applySimple m fire sign p ts params args s)
      (applySimple (m.rename ρ) fire' sign (ρ.pred p) (ts.map (Term.rename ρ)) (params.map (Obj.rename ρ))
        (args.map (Obj.rename ρ)) t) := by
  unfold applySimple
  refine (applyFn_rename hρ params ts args).bind ?_
  rintro os _ rfl
  rw [atomKind_rename hρ]
  cases atomKind m p
  · refine (SameOutcome.index _ os 0).bind ?_
    rintro a _ rfl
    refine (SameOutcome.index _ os 1).bind ?_
    rintro b _ rfl
    rw [Obj.same_rename hρ]
    split
    · exact ⟨rfl, h⟩
    · rfl
  · refine (SameOutcome.index _ os 0).bind ?_
    rintro a _ rfl
    rw [Obj.isSubtype_rename hρ]
    split
    · exact ⟨rfl, h⟩
    · rfl
  · simp only [ofObjs_rename, map_term_rename]
    have key : ∀ (r : Nat × σ) (r' : Nat × τ), r'.1 = r.1 → R r.2 r'.2 →
        SameOutcome (SameChange R)
          (if r.1 = 0 then pure r else do
            let s' ← fire sign p params (ts.map Term.obj) args r.2
            pure (r.1, s'))
          (if r'.1 = 0 then pure r' else do
            let s' ← fire' sign (ρ.pred p) (params.map (Obj.rename ρ)) ((ts.map Term.obj).map (Obj.rename ρ))
              (args.map (Obj.rename ρ)) r'.2
            pure (r'.1, s')) := by
      intro r r' h1 h2
      rw [h1]
      split
      · exact ⟨h1, h2⟩
      · refine (hf sign p params _ args _ _ h2).bind ?_
        intro s' t' h3
        exact ⟨rfl, h3⟩
    cases sign
    · exact key _ _ (hR.erase s t h _).1 (hR.erase s t h _).2
    · exact key _ _ (hR.insert s t h _).1 (hR.insert s t h _).2

omit [StateLike σ] [StateLike τ] hρ hR in
theorem sameChange_max {r r2 : Nat × σ} {r' r2' : Nat × τ} (h : SameChange R r r') (h2 : SameChange R r2 r2') :
    SameChange R (max r.1 r2.1, r2.2) (max r'.1 r2'.1, r2'.2) := ⟨by simp only [h.1, h2.1], h2.2⟩

theorem applySimples_rename {fire : Fire σ} {fire' : Fire τ} (hf : FireFollows ρ R fire fire') (m : ObjMap) (sign : Bool)
    (params args : List Obj) : ∀ (l : List (Name × List Term)) {s : σ} {t : τ}, R s t →
    SameOutcome (SameChange R) (applySimples m fire sign params args l s)
      (applySimples (m.rename ρ) fire' sign (params.map (Obj.rename ρ)) (args.map (Obj.rename ρ))
        (l.map (renameEffect ρ)) t)
  | [], s, t, h => ⟨rfl, h⟩
  | (p, ts) :: rest, s, t, h => by
    simp only [List.map_cons, renameEffect, applySimples]
    refine (applySimple_rename hρ hR hf h m sign p ts params args).bind ?_
    intro r r' h1
    refine (applySimples_rename hf m sign params args rest h1.2).bind ?_
    intro r2 r2' h2
    exact sameChange_max h1 h2

omit [StateLike σ] [StateLike τ] hρ hR in
theorem loopEff_rename {f : List Obj → σ → Res (Nat × σ)} {g : List Obj → τ → Res (Nat × τ)} {k : List Obj → List Obj}
    (hf : ∀ os s t, R s t → SameOutcome (SameChange R) (f os s) (g (k os) t)) : ∀ (l : List (List Obj)) {s : σ} {t : τ},
    R s t → SameOutcome (SameChange R) (loopEff f l s) (loopEff g (l.map k) t)
  | [], s, t, h => ⟨rfl, h⟩
  | os :: l, s, t, h => by
    simp only [List.map_cons, loopEff]
    refine (hf os s t h).bind ?_
    intro r r' h1
    refine (loopEff_rename hf l h1.2).bind ?_
    intro r2 r2' h2
    exact sameChange_max h1 h2

set_option linter.unusedSectionVars false in
mutual
theorem Eff.apply_rename {fire : Fire σ} {fire' : Fire τ} (hf : FireFollows ρ R fire fire') {m : ObjMap} (hm : m.NonEmpty) :
    ∀ (e : Eff) (params args : List Obj) {s : σ} {t : τ}, R s t →
    SameOutcome (SameChange R) (e.apply m fire params args s)
      ((e.rename ρ).apply (m.rename ρ) fire' (params.map (Obj.rename ρ)) (args.map (Obj.rename ρ)) t)
  | .mk fs adds dels cs, params, args, s, t, h => by
    simp only [Eff.rename, Eff.apply]
    refine (FList.apply_rename hf hm fs params args h).bind ?_
    intro r1 r1' h1
    refine (applySimples_rename hρ hR hf m true params args adds h1.2).bind ?_
    intro r2 r2' h2
    refine (applySimples_rename hρ hR hf m false params args dels h2.2).bind ?_
    intro r3 r3' h3
    refine (CList.apply_rename hf hm cs params args h3.2).bind ?_
    intro r4 r4' h4
    exact ⟨by simp only [h1.1, h2.1, h3.1, h4.1], h4.2⟩
theorem FList.apply_rename {fire : Fire σ} {fire' : Fire τ} (hf : FireFollows ρ R fire fire') {m : ObjMap} (hm : m.NonEmpty) :
    ∀ (fs : FList) (params args : List Obj) {s : σ} {t : τ}, R s t →
    SameOutcome (SameChange R) (fs.apply m fire params args s)
      ((fs.rename ρ).apply (m.rename ρ) fire' (params.map (Obj.rename ρ)) (args.map (Obj.rename ρ)) t)
  | .nil, params, args, s, t, h => by simp only [FList.rename, FList.apply]; exact ⟨rfl, h⟩
  | .cons vars e rest, params, args, s, t, h => by
    simp only [FList.rename, FList.apply, paramTypes_rename hρ]
    refine (genLoop_rename ρ (paramTypes_ne hm vars)).bind ?_
    rintro l _ rfl
    refine SameOutcome.bind (R := SameChange R) (loopEff_rename ?_ l h) ?_
    · intro os s t h
      rw [← List.map_append, ← List.map_append]
      exact Eff.apply_rename hf hm e _ _ h
    · intro r r' h1
      refine (FList.apply_rename hf hm rest params args h1.2).bind ?_
      intro r2 r2' h2
      exact sameChange_max h1 h2
theorem CList.apply_rename {fire : Fire σ} {fire' : Fire τ} (hf : FireFollows ρ R fire fire') {m : ObjMap} (hm : m.NonEmpty) :
    ∀ (cs : CList) (params args : List Obj) {s : σ} {t : τ}, R s t →
    SameOutcome (SameChange R) (cs.apply m fire params args s)
      ((cs.rename ρ).apply (m.rename ρ) fire' (params.map (Obj.rename ρ)) (args.map (Obj.rename ρ)) t)
  | .nil, params, args, s, t, h => by simp only [CList.rename, CList.apply]; exact ⟨rfl, h⟩
  | .cons g e rest, params, args, s, t, h => by
    simp only [CList.rename, CList.apply, Goal.eval_rename hρ hR h hm g params args, hR.cond]
    refine SameOutcome.bind (R := Eq) (SameOutcome.refl (fun _ => rfl) _) ?_
    rintro b _ rfl
    refine SameOutcome.bind (R := SameChange R) ?_ ?_
    · cases b
      · exact ⟨rfl, h⟩
      · exact Eff.apply_rename hf hm e params args h
    · intro r r' h1
      refine (CList.apply_rename hf hm rest params args h1.2).bind ?_
      intro r2 r2' h2
      exact sameChange_max h1 h2
end

omit hR in
theorem firstIdx_rename (o : Obj) (ps : List Obj) : firstIdx (o.rename ρ) (ps.map (Obj.rename ρ)) = firstIdx o ps := by
  induction ps with
  | nil => rfl
  | cons p ps ih => simp only [List.map_cons, firstIdx, Obj.same_rename hρ, ih]

omit hρ hR in
/-- The renamed match. -/
def AxMatch.rename (ρ : Renaming) (mt : AxMatch) : AxMatch :=
  ⟨mt.args.map (Obj.rename ρ), mt.idx, mt.future.map (fun x => (x.1, x.2.rename ρ))⟩

omit hR in
theorem axMatchLoop_rename (actionParams axiomParams : List Obj) : ∀ (ps qs : List Obj) (acc : AxMatch),
    SameOutcome (fun x y => y = x.map (AxMatch.rename ρ)) (axMatchLoop actionParams axiomParams ps qs acc)
      (axMatchLoop (actionParams.map (Obj.rename ρ)) (axiomParams.map (Obj.rename ρ)) (ps.map (Obj.rename ρ))
        (qs.map (Obj.rename ρ)) (acc.rename ρ))
  | [], _, acc => by simp [axMatchLoop, SameOutcome]
  | _ :: _, [], _ => by simp [axMatchLoop, SameOutcome]
  | p :: ps, q :: qs, acc => by
    simp only [List.map_cons, axMatchLoop, firstIdx_rename hρ]
    have ih := axMatchLoop_rename actionParams axiomParams ps qs
    cases firstIdx q axiomParams with
    | none =>
      cases firstIdx p actionParams with
      | none =>
        simp only [Obj.same_rename hρ]
        split
        · exact ih acc
        · rfl
      | some j => simpa [AxMatch.rename] using ih { acc with future := acc.future ++ [(j, q)] }
    | some i =>
      cases firstIdx p actionParams with
      | none => simpa [AxMatch.rename, List.map_set] using ih { acc with args := acc.args.set i p }
      | some j => simpa [AxMatch.rename] using ih { acc with idx := acc.idx ++ [(i, j)] }

omit hR in
theorem axMatch_rename (actionParams effParams axiomParams ctxArgs : List Obj) :
    SameOutcome (fun x y => y = x.map (AxMatch.rename ρ)) (axMatch actionParams effParams axiomParams ctxArgs)
      (axMatch (actionParams.map (Obj.rename ρ)) (effParams.map (Obj.rename ρ)) (axiomParams.map (Obj.rename ρ))
        (ctxArgs.map (Obj.rename ρ))) := by
  simpa [axMatch, AxMatch.rename] using
    axMatchLoop_rename hρ actionParams axiomParams effParams ctxArgs ⟨axiomParams, [], []⟩

omit hR in
theorem futureOk_rename (args : List Obj) : ∀ l : List (Nat × Obj),
    futureOk (args.map (Obj.rename ρ)) (l.map fun x => (x.1, x.2.rename ρ)) = futureOk args l
  | [] => rfl
  | (j, o) :: rest => by
    simp only [List.map_cons, futureOk]
    symm
    refine (SameOutcome.index (Obj.rename ρ) args j).bind_eq ?_
    rintro a _ rfl
    rw [Obj.same_rename hρ, futureOk_rename args rest]

omit hR in
theorem AxMatch.apply_rename (mt : AxMatch) (args : List Obj) :
    SameOutcome (fun x y => y = x.map (List.map (Obj.rename ρ))) (mt.apply args)
      ((mt.rename ρ).apply (args.map (Obj.rename ρ))) := by
  unfold AxMatch.apply
  have h : futureOk (args.map (Obj.rename ρ)) (mt.rename ρ).future = futureOk args mt.future :=
    futureOk_rename hρ args mt.future
  rw [h]
  refine SameOutcome.bind (R := Eq) (SameOutcome.refl (fun _ => rfl) _) ?_
  rintro b _ rfl
  cases b
  · rfl
  · refine (applyLoop_rename (Obj.rename ρ) args mt.idx mt.args).bind ?_
    rintro l _ rfl
    rfl

omit [StateLike σ] [StateLike τ] hR in
theorem fireLoop_rename {run : Ax → List Obj → σ → Res (Nat × σ)} {run' : Ax → List Obj → τ → Res (Nat × τ)}
    (hrun : ∀ ax as s t, R s t → SameOutcome (SameChange R) (run ax as s) (run' (ax.rename ρ) (as.map (Obj.rename ρ)) t))
    (sign : Bool) (p : Name) (params eff args : List Obj) : ∀ (axs : List Ax) {s : σ} {t : τ}, R s t →
    SameOutcome R (fireLoop run sign p params eff args axs s)
      (fireLoop run' sign (ρ.pred p) (params.map (Obj.rename ρ)) (eff.map (Obj.rename ρ)) (args.map (Obj.rename ρ))
        (axs.map (Ax.rename ρ)) t)
  | [], s, t, h => h
  | ax :: rest, s, t, h => by
    have hp : (ax.rename ρ).pos = sign ∧ (ax.rename ρ).pred = ρ.pred p ↔ ax.pos = sign ∧ ax.pred = p := by
      simp only [Ax.rename]
      exact ⟨fun h => ⟨h.1, hρ.pred _ _ h.2⟩, fun h => ⟨h.1, by rw [h.2]⟩⟩
    simp only [List.map_cons, fireLoop, hp]
    have ih := fun {s t} h => fireLoop_rename hrun sign p params eff args rest (s := s) (t := t) h
    split
    · refine (axMatch_rename hρ params eff ax.op.params ax.ctxArgs).bind ?_
      rintro mt _ rfl
      cases mt with
      | none => exact ih h
      | some mt =>
        refine (AxMatch.apply_rename hρ mt args).bind ?_
        rintro as _ rfl
        cases as with
        | none => exact ih h
        | some as =>
          refine (hrun ax as s t h).bind ?_
          intro r r' h1
          exact ih h1.2
    · exact ih h

theorem fireN_rename {m : ObjMap} (hm : m.NonEmpty) (axs : List Ax) : ∀ n,
    FireFollows ρ R (fireN m axs n) (fireN (m.rename ρ) (axs.map (Ax.rename ρ)) n)
  | 0 => by
    intro sign pred params eff args s t h
    simp only [fireN]
    exact fireLoop_rename hρ (R := R) (run := fun _ _ _ => .fuel) (run' := fun _ _ _ => .fuel) (fun _ _ _ _ _ => trivial)
      sign pred params eff args axs h
  | n + 1 => by
    intro sign pred params eff args s t h
    simp only [fireN]
    exact fireLoop_rename hρ
      (fun ax as s t h => Eff.apply_rename hρ hR (fireN_rename hm axs n) hm ax.op.eff ax.op.params as h)
      sign pred params eff args axs h

theorem Op.apply_rename {m : ObjMap} (hm : m.NonEmpty) (axs : List Ax) (n : Nat) (op : Op) (args : List Obj) {s : σ} {t : τ}
    (h : R s t) : SameOutcome (SameChange R) (op.apply m axs n args s)
      ((op.rename ρ).apply (m.rename ρ) (axs.map (Ax.rename ρ)) n (args.map (Obj.rename ρ)) t) :=
  Eff.apply_rename hρ hR (fireN_rename hρ hR hm axs n) hm op.eff op.params args h

theorem Op.isValid_rename {m : ObjMap} (hm : m.NonEmpty) (op : Op) (args : List Obj) {s : σ} {t : τ} (h : R s t) :
    (op.rename ρ).isValid (m.rename ρ) t (args.map (Obj.rename ρ)) = op.isValid m s args :=
  Goal.eval_rename hρ hR h hm op.pre op.params args

end

/-! ## Construction -/

section
variable {ρ : Renaming} (hρ : ρ.Proper)
include hρ

omit hρ in
theorem paramGen_rename (hρ : ρ.Proper) (m : ObjMap) (params : List Obj) :
    SameOutcome (fun l l' => l' = l.map (List.map (Obj.rename ρ))) (paramGen m params)
      (paramGen (m.rename ρ) (params.map (Obj.rename ρ))) := by
  unfold paramGen
  rw [paramTypes_rename hρ]
  exact ctor_rename ρ _

set_option linter.unusedSectionVars false in
mutual
theorem Goal.create_rename (m : ObjMap) : ∀ g : Goal, (g.rename ρ).create (m.rename ρ) = g.create m
  | .atom _ _ => rfl
  | .conj gs => by simp only [Goal.rename, Goal.create]; exact Goal.createAll_rename m gs
  | .disj gs => by simp only [Goal.rename, Goal.create]; exact Goal.createAll_rename m gs
  | .neg g => by simp only [Goal.rename, Goal.create]; exact Goal.create_rename m g
  | .all vars g => by
    simp only [Goal.rename, Goal.create, Goal.create_rename m g]
    congr 1; funext _
    exact ((paramGen_rename hρ m vars).bind_eq (fun _ _ _ => rfl)).symm
  | .ex vars g => by
    simp only [Goal.rename, Goal.create, Goal.create_rename m g]
    congr 1; funext _
    exact ((paramGen_rename hρ m vars).bind_eq (fun _ _ _ => rfl)).symm
  | .other => rfl
theorem Goal.createAll_rename (m : ObjMap) : ∀ gs : List Goal,
    Goal.createAll (Goal.renameAll ρ gs) (m.rename ρ) = Goal.createAll gs m
  | [] => rfl
  | g :: gs => by simp only [Goal.renameAll, Goal.createAll, Goal.create_rename m g, Goal.createAll_rename m gs]
end

theorem createSimple_loop_rename (sign : Bool) (params : List Obj) (p : Name) (eff : List Obj) : ∀ axs : List Ax,
    createSimple.loop sign (params.map (Obj.rename ρ)) (ρ.pred p) (eff.map (Obj.rename ρ)) (axs.map (Ax.rename ρ)) =
      createSimple.loop sign params p eff axs
  | [] => rfl
  | ax :: rest => by
    have hp : (ax.rename ρ).pos = sign ∧ (ax.rename ρ).pred = ρ.pred p ↔ ax.pos = sign ∧ ax.pred = p := by
      simp only [Ax.rename]
      exact ⟨fun h => ⟨h.1, hρ.pred _ _ h.2⟩, fun h => ⟨h.1, by rw [h.2]⟩⟩
    simp only [List.map_cons, createSimple.loop, hp, createSimple_loop_rename sign params p eff rest]
    split
    · exact ((axMatch_rename hρ params eff ax.op.params ax.ctxArgs).bind_eq (fun _ _ _ => rfl)).symm
    · rfl

theorem createSimple_rename (m : ObjMap) (axs : List Ax) (sign : Bool) (params : List Obj) : ∀ l : List (Name × List Term),
    createSimple (m.rename ρ) (axs.map (Ax.rename ρ)) sign (params.map (Obj.rename ρ)) (l.map (renameEffect ρ)) =
      createSimple m axs sign params l
  | [] => rfl
  | (p, ts) :: rest => by
    simp only [List.map_cons, renameEffect, createSimple, atomKind_rename hρ, createSimple_rename m axs sign params rest,
      map_term_rename]
    rw [createSimple_loop_rename hρ]

set_option linter.unusedSectionVars false in
mutual
theorem Eff.create_rename (m : ObjMap) (axs : List Ax) : ∀ (e : Eff) (params : List Obj),
    (e.rename ρ).create (m.rename ρ) (axs.map (Ax.rename ρ)) (params.map (Obj.rename ρ)) = e.create m axs params
  | .mk fs adds dels cs, params => by
    simp only [Eff.rename, Eff.create, FList.create_rename m axs fs, createSimple_rename hρ, CList.create_rename m axs cs]
theorem FList.create_rename (m : ObjMap) (axs : List Ax) : ∀ (fs : FList) (params : List Obj),
    (fs.rename ρ).create (m.rename ρ) (axs.map (Ax.rename ρ)) (params.map (Obj.rename ρ)) = fs.create m axs params
  | .nil, params => rfl
  | .cons vars e rest, params => by
    simp only [FList.rename, FList.create, ← List.map_append, Eff.create_rename m axs e, FList.create_rename m axs rest]
    congr 1; funext _
    exact ((paramGen_rename hρ m vars).bind_eq (fun _ _ _ => rfl)).symm
theorem CList.create_rename (m : ObjMap) (axs : List Ax) : ∀ (cs : CList) (params : List Obj),
    (cs.rename ρ).create (m.rename ρ) (axs.map (Ax.rename ρ)) (params.map (Obj.rename ρ)) = cs.create m axs params
  | .nil, params => rfl
  | .cons g e rest, params => by
    simp only [CList.rename, CList.create, Goal.create_rename hρ, Eff.create_rename m axs e, CList.create_rename m axs rest]
end

end

end Symbolic
