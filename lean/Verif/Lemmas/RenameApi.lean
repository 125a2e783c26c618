import Verif.Lemmas.RenameDnf
import Verif.Lemmas.Planner

/-!
The functions of a Pddl, the planner and the searches under a renaming, with two hash functions.
-/

namespace Symbolic

/-- Everything in the second Pddl is the renamed counterpart. -/
structure SamePddl (ρ : Renaming) {h₁ h₂ : StrHash} (P : @Pddl h₁) (Q : @Pddl h₂) : Prop where
  tree : @Pddl.tree h₂ Q = (@Pddl.tree h₁ P).rename ρ
  constants : @Pddl.constants h₂ Q = (@Pddl.constants h₁ P).map (Obj.rename ρ)
  objects : @Pddl.objects h₂ Q = (@Pddl.objects h₁ P).map (Obj.rename ρ)
  omap : @Pddl.omap h₂ Q = (@Pddl.omap h₁ P).rename ρ
  axioms : @Pddl.axioms h₂ Q = (@Pddl.axioms h₁ P).map (Ax.rename ρ)
  actions : @Pddl.actions h₂ Q = (@Pddl.actions h₁ P).map (Op.rename ρ)
  initial : SameState ρ (@Pddl.initial h₁ P) (@Pddl.initial h₂ Q)
  nonEmpty : (@Pddl.omap h₁ P).NonEmpty

theorem filter_ops_rename (ρ : Renaming) (f : Bool → Bool) (ops : List Op) :
    (ops.map (Op.rename ρ)).filter (fun op => f op.isAxiom) = (ops.filter fun op => f op.isAxiom).map (Op.rename ρ) := by
  rw [List.filter_map]
  rfl

section
variable {ρ : Renaming} (hρ : ρ.Proper) {h₁ h₂ : StrHash}
include hρ

/-! ## Construction -/

theorem createOps_rename (m : ObjMap) (axs : List Ax) : ∀ ops : List Op,
    @Pddl.createOps (m.rename ρ) (axs.map (Ax.rename ρ)) (ops.map (Op.rename ρ)) = @Pddl.createOps m axs ops
  | [] => rfl
  | op :: ops => by
    simp only [List.map_cons, Pddl.createOps, Op.create_rename hρ, createOps_rename m axs ops]

theorem createPreds_rename (m : ObjMap) : ∀ ps : List PredDecl,
    @Pddl.createPreds (m.rename ρ) (ps.map (PredDecl.rename ρ)) = @Pddl.createPreds m ps
  | [] => rfl
  | p :: ps => by
    simp only [List.map_cons, Pddl.createPreds, PredDecl.rename, createPreds_rename m ps]
    exact ((paramGen_rename hρ m p.params).bind_eq (fun _ _ _ => rfl)).symm

theorem createDrvs_rename (m : ObjMap) : ∀ ds : List Drv,
    @Pddl.createDrvs (m.rename ρ) (ds.map (Drv.rename ρ)) = @Pddl.createDrvs m ds
  | [] => rfl
  | d :: ds => by
    simp only [List.map_cons, Pddl.createDrvs, Drv.rename, createDrvs_rename m ds, Goal.create_rename hρ]
    exact ((paramGen_rename hρ m d.params).bind_eq (fun _ _ _ => rfl)).symm

theorem makeAxioms_rename {c : NfCtx} {objects : List Obj} (hm : MapOk c.omap objects) (axs : List Ax) : ∀ ops : List Op,
    (∀ op ∈ ops, ((∃ x, contextOf op.pre = .ok x) ∨ op.pre.EnoughArgs objects) ∧ (op.eff.NoCond ∨ op.eff.EnoughArgs objects)) →
    SameOutcome (fun a b => b = a.map (Ax.rename ρ)) (@Pddl.makeAxioms h₁ c axs ops)
      (@Pddl.makeAxioms h₂ (c.rename ρ) (axs.map (Ax.rename ρ)) (ops.map (Op.rename ρ)))
  | [], _ => rfl
  | op :: ops, h => by
    simp only [List.map_cons, Pddl.makeAxioms]
    refine (Ax.make_rename hρ hm axs op (h op (by simp)).1 (h op (by simp)).2).bind ?_
    rintro ax _ rfl
    refine (makeAxioms_rename hm axs ops fun o ho => h o (by simp [ho])).bind ?_
    rintro r _ rfl
    rfl

theorem make_rename (t : Ptree) (b : Bool) (n : Nat)
    (hax : ∀ op ∈ t.ops, op.isAxiom = true → ((∃ x, contextOf op.pre = .ok x) ∨ op.pre.EnoughArgs (t.constants ++ t.objects)) ∧
      (op.eff.NoCond ∨ op.eff.EnoughArgs (t.constants ++ t.objects))) :
    SameOutcome (SamePddl ρ) (@Pddl.make h₁ t b n) (@Pddl.make h₂ (t.rename ρ) b n) := by
  unfold Pddl.make
  have hm := ObjMap.nonEmpty_create (t.constants ++ t.objects)
  have e0 : (t.rename ρ).constants ++ (t.rename ρ).objects = (t.constants ++ t.objects).map (Obj.rename ρ) :=
    (List.map_append ..).symm
  have e1 : ObjMap.create ((t.constants ++ t.objects).map (Obj.rename ρ)) = (ObjMap.create (t.constants ++ t.objects)).rename ρ :=
    ObjMap.create_rename hρ _
  have e2 : (t.rename ρ).ops.filter (·.isAxiom) = (t.ops.filter (·.isAxiom)).map (Op.rename ρ) :=
    filter_ops_rename ρ (fun b => b) t.ops
  have e3 : (t.rename ρ).ops.filter (!·.isAxiom) = (t.ops.filter (!·.isAxiom)).map (Op.rename ρ) :=
    filter_ops_rename ρ (fun b => !b) t.ops
  have e4 : (t.rename ρ).preds = t.preds.map (PredDecl.rename ρ) := rfl
  have e5 : (t.rename ρ).drvs = t.drvs.map (Drv.rename ρ) := rfl
  have e6 : (t.rename ρ).goal = t.goal.rename ρ := rfl
  have e7 : (t.rename ρ).init = t.init.map (Atom.rename ρ) := rfl
  have hax' : ∀ op ∈ t.ops.filter (·.isAxiom), ((∃ x, contextOf op.pre = .ok x) ∨ op.pre.EnoughArgs (t.constants ++ t.objects)) ∧
      (op.eff.NoCond ∨ op.eff.EnoughArgs (t.constants ++ t.objects)) := fun op hop => by
    obtain ⟨g1, g2⟩ := List.mem_filter.1 hop
    exact hax op g1 g2
  simp only [e0, e1, e2, e3, e4, e5, e6, e7, createPreds_rename hρ, createDrvs_rename hρ, Goal.create_rename hρ]
  refine (makeAxioms_rename (h₁ := h₁) (h₂ := h₂) hρ (c := ⟨t.constants ++ t.objects, ObjMap.create (t.constants ++ t.objects), []⟩)
    (MapOk.create _) [] _ hax').bind ?_
  rintro axs0 _ rfl
  refine SameOutcome.bind (R := Eq) (SameOutcome.refl (fun _ => rfl) _) ?_
  rintro _ _ -
  refine SameOutcome.bind (R := Eq) (SameOutcome.refl (fun _ => rfl) _) ?_
  rintro _ _ -
  have e8 : (t.preds.map (PredDecl.rename ρ)).isEmpty = t.preds.isEmpty := by cases t.preds <;> rfl
  rw [e8]
  split
  · trivial
  refine SameOutcome.bind (R := Eq) (SameOutcome.refl (fun _ => rfl) _) ?_
  rintro _ _ -
  refine (makeAxioms_rename (h₁ := h₁) (h₂ := h₂) hρ (c := ⟨t.constants ++ t.objects, ObjMap.create (t.constants ++ t.objects), []⟩)
    (MapOk.create _) axs0 _ hax').bind ?_
  rintro axs _ rfl
  rw [createOps_rename hρ]
  refine SameOutcome.bind (R := Eq) (SameOutcome.refl (fun _ => rfl) _) ?_
  rintro _ _ -
  refine SameOutcome.bind (R := SameState ρ) ?_ ?_
  · split
    · exact consistentFix_rename hρ hm axs n n (SameState.ofList ρ t.init)
    · exact SameState.ofList ρ t.init
  · intro s s' hs
    exact ⟨rfl, rfl, by simp, rfl, rfl, rfl, hs, hm⟩

/-- Whatever the effects of axioms are: if both are constructed. -/
theorem make_rename_ok {t : Ptree} {b : Bool} {n : Nat} {P : @Pddl h₁} {Q : @Pddl h₂}
    (h : @Pddl.make h₁ t b n = .ok P) (h' : @Pddl.make h₂ (t.rename ρ) b n = .ok Q) : SamePddl ρ P Q := by
  obtain ⟨b1, b2, b3, b4, b5, b6, -⟩ := @Pddl.built h₁ _ _ _ _ h
  obtain ⟨c1, c2, c3, c4, c5, c6, -⟩ := @Pddl.built h₂ _ _ _ _ h'
  have hm := ObjMap.nonEmpty_create (t.constants ++ t.objects)
  have e0 : (t.rename ρ).constants ++ (t.rename ρ).objects = (t.constants ++ t.objects).map (Obj.rename ρ) :=
    (List.map_append ..).symm
  have homap : @Pddl.omap h₂ Q = (@Pddl.omap h₁ P).rename ρ := by
    rw [c4, b4, e0, ObjMap.create_rename hρ]
  have hne : (@Pddl.omap h₁ P).NonEmpty := by rw [b4]; exact hm
  have haxs : @Pddl.axioms h₂ Q = (@Pddl.axioms h₁ P).map (Ax.rename ρ) := by
    have k1 := b6
    have k2 := c6
    have e2 : (t.rename ρ).ops.filter (·.isAxiom) = (t.ops.filter (·.isAxiom)).map (Op.rename ρ) :=
      filter_ops_rename ρ (fun b => b) t.ops
    rw [e2, homap, e0] at k2
    revert k1 k2
    generalize @Pddl.axioms h₁ P = l1
    generalize @Pddl.axioms h₂ Q = l2
    generalize t.ops.filter (·.isAxiom) = ops
    intro k1
    induction k1 generalizing l2 with
    | nil => intro k2; cases k2; rfl
    | cons g1 _ ih =>
      intro k2
      cases k2 with
      | cons g2 k2 =>
        obtain ⟨axs, g1⟩ := g1
        obtain ⟨axs', g2⟩ := g2
        rw [List.map_cons, ih _ k2]
        congr 1
        exact Ax.make_rename_ok (c := ⟨t.constants ++ t.objects, @Pddl.omap h₁ P, []⟩) hρ hne g1 g2
  refine ⟨by rw [c1, b1], by rw [c2, b2]; rfl, by rw [c3, b3, e0], homap, haxs, ?_, ?_,
    hne⟩
  · rw [c5, b5]
    exact filter_ops_rename ρ (fun b => !b) t.ops
  · have hinit : SameOutcome (SameState ρ)
        (if b then @Pddl.consistentFix h₁ (@Pddl.omap h₁ P) (@Pddl.axioms h₁ P) n n (@State.ofList h₁ t.init)
          else pure (@State.ofList h₁ t.init))
        (if b then @Pddl.consistentFix h₂ (@Pddl.omap h₂ Q) (@Pddl.axioms h₂ Q) n n (@State.ofList h₂ (t.rename ρ).init)
          else pure (@State.ofList h₂ (t.rename ρ).init)) := by
      rw [homap, haxs]
      split
      · exact consistentFix_rename hρ hne _ n n (SameState.ofList ρ t.init)
      · exact SameState.ofList ρ t.init
    have fact : ∀ {h : StrHash} {t : Ptree} {R : @Pddl h}, @Pddl.make h t b n = .ok R →
        (if b then @Pddl.consistentFix h (@Pddl.omap h R) (@Pddl.axioms h R) n n (@State.ofList h t.init)
          else pure (@State.ofList h t.init)) = .ok (@Pddl.initial h R) := by
      intro h t R hR
      simp only [Pddl.make, Res.bind_eq_ok] at hR
      obtain ⟨axs0, g1, _, g2, _, g3, g4⟩ := hR
      split at g4
      · cases g4
      simp only [Res.bind_eq_ok, Res.pure_eq, Res.ok.injEq] at g4
      obtain ⟨_, g5, axs, g6, _, g7, s, g8, rfl⟩ := g4
      exact g8
    rw [fact h, fact h'] at hinit
    exact hinit

theorem addObject_rename {P : @Pddl h₁} {Q : @Pddl h₂} (h : SamePddl ρ P Q) (name type : Name) :
    SameOutcome (SamePddl ρ) (@Pddl.addObject h₁ P name type) (@Pddl.addObject h₂ Q (ρ.obj name) (ρ.pred type)) := by
  unfold Pddl.addObject
  have ht : (@Pddl.tree h₂ Q).types = (@Pddl.tree h₁ P).types.map (List.map (List.map ρ.pred)) := by rw [h.tree]; rfl
  rw [ht]
  cases hty : (@Pddl.tree h₁ P).types with
  | none => trivial
  | some types =>
    simp only [Option.map_some, SameOutcome]
    have hf : ∀ l : List (List Name), (l.map (List.map ρ.pred)).find? (fun c => decide (c.head? = some (ρ.pred type))) =
        (l.find? (fun c => decide (c.head? = some type))).map (List.map ρ.pred) := by
      intro l
      induction l with
      | nil => rfl
      | cons c l ih =>
        simp only [List.map_cons, List.find?_cons]
        have hc : (c.map ρ.pred).head? = some (ρ.pred type) ↔ c.head? = some type := by
          cases c with
          | nil => simp
          | cons x c =>
            simp only [List.map_cons, List.head?_cons, Option.some.injEq]
            exact ⟨hρ.pred _ _, fun e => by rw [e]⟩
        by_cases hh : c.head? = some type
        · rw [decide_eq_true hh, decide_eq_true (hc.2 hh)]; rfl
        · rw [decide_eq_false hh, decide_eq_false (fun e => hh (hc.1 e))]; exact ih
    have hd : Pddl.defaultChain (types.map (List.map ρ.pred)) = (Pddl.defaultChain types).map ρ.pred := by
      unfold Pddl.defaultChain
      have : (types.map (List.map ρ.pred)).any (fun c => decide (c.getLast? = some kDefaultType)) =
          types.any (fun c => decide (c.getLast? = some kDefaultType)) := by
        rw [List.any_map]
        congr 1
        funext c
        simp only [Function.comp, List.getLast?_map]
        have : Option.map ρ.pred c.getLast? = some kDefaultType ↔ c.getLast? = some kDefaultType := by
          cases c.getLast? with
          | none => simp
          | some x =>
            simp only [Option.map_some, Option.some.injEq]
            constructor
            · intro e; exact hρ.pred _ _ (e.trans hρ.dflt.symm)
            · rintro rfl; exact hρ.dflt
        simp only [this]
      rw [this]
      split
      · simp [hρ.dflt]
      · rfl
    rw [hf, hd]
    cases types.find? (fun c : List Name => decide (c.head? = some type)) with
    | none =>
      refine ⟨?_, h.constants, ?_, h.omap, h.axioms, h.actions, h.initial, h.nonEmpty⟩
      · simp [h.tree, Ptree.rename, hty, Obj.rename]
      · simp [h.objects, Obj.rename]
    | some c =>
      refine ⟨?_, h.constants, ?_, h.omap, h.axioms, h.actions, h.initial, h.nonEmpty⟩
      · simp [h.tree, Ptree.rename, hty, Obj.rename]
      · simp [h.objects, Obj.rename]

theorem Renamed.same {P : @Pddl h₁} {Q : @Pddl h₂} (h : Renamed ρ P Q) : SamePddl ρ P Q := by
  induction h with
  | make h h' => exact make_rename_ok hρ h h'
  | @addObject _ _ _ _ name type _ h h' ih =>
    have := addObject_rename hρ ih name type
    rw [h, h'] at this
    exact this
  | setInitial _ hs ih => exact ⟨ih.tree, ih.constants, ih.objects, ih.omap, ih.axioms, ih.actions, hs, ih.nonEmpty⟩

/-! ## Parsing -/

theorem lookupAll_rename (objects : List Obj) : ∀ ns : List Name, SameOutcome (fun a b => b = a.map (Obj.rename ρ))
    (lookupAll objects ns) (lookupAll (objects.map (Obj.rename ρ)) (ns.map ρ.obj))
  | [] => rfl
  | n :: ns => by
    simp only [List.map_cons, lookupAll]
    refine SameOutcome.bind (R := fun a b => b = a.rename ρ) ?_ ?_
    · unfold lookupObject
      rw [find_rename hρ]
      cases objects.find? (fun o => decide (o.name = n)) <;> rfl
    · rintro o _ rfl
      refine (lookupAll_rename objects ns).bind ?_
      rintro os _ rfl
      rfl

variable {P : @Pddl h₁} {Q : @Pddl h₂} (h : SamePddl ρ P Q)
include h

theorem getOp_rename (n : Name) : SameOutcome (fun a b => b = a.rename ρ) (@Pddl.getOp h₁ P n) (@Pddl.getOp h₂ Q (ρ.op n)) := by
  unfold Pddl.getOp
  have : ∀ l : List Op, (l.map (Op.rename ρ)).find? (fun op => decide (op.name = ρ.op n)) =
      (l.find? (fun op => decide (op.name = n))).map (Op.rename ρ) := by
    intro l
    induction l with
    | nil => rfl
    | cons o l ih =>
      simp only [List.map_cons, List.find?_cons]
      by_cases hn : o.name = n
      · simp [hn, Op.rename]
      · have h' : ¬ (o.rename ρ).name = ρ.op n := fun e => hn (hρ.op _ _ e)
        simp only [hn, h', decide_false]
        exact ih
  have e : (@Pddl.tree h₂ Q).ops = (@Pddl.tree h₁ P).ops.map (Op.rename ρ) := by rw [h.tree]; rfl
  rw [e, this]
  cases (@Pddl.tree h₁ P).ops.find? (fun op => decide (op.name = n)) <;> rfl

omit h in
theorem checkTypes_rename : ∀ ps as : List Obj,
    Pddl.checkTypes (ps.map (Obj.rename ρ)) (as.map (Obj.rename ρ)) = Pddl.checkTypes ps as
  | [], _ => rfl
  | _ :: _, [] => rfl
  | p :: ps, a :: as => by
    simp only [List.map_cons, Pddl.checkTypes, Obj.typeName_rename hρ, Obj.isSubtype_rename hρ, checkTypes_rename ps as]

omit hρ in
theorem symbols_rename : @Pddl.symbols h₂ Q = (@Pddl.symbols h₁ P).map (Obj.rename ρ) := by
  unfold Pddl.symbols
  rw [h.tree]
  exact (List.map_append ..).symm

theorem parseAction_rename {c d : Name} (hc : SameCall ρ c d) :
    SameOutcome (fun x y => y = (x.1.rename ρ, x.2.map (Obj.rename ρ))) (@Pddl.parseAction h₁ P c) (@Pddl.parseAction h₂ Q d) := by
  unfold Pddl.parseAction
  rw [hc.1]
  refine (getOp_rename hρ h (parseHead c)).bind ?_
  rintro op _ rfl
  rw [h.omap, h.axioms, Op.create_rename hρ]
  refine SameOutcome.bind (R := Eq) (SameOutcome.refl (fun _ => rfl) _) ?_
  rintro _ _ -
  unfold parseArguments
  rw [hc.2, symbols_rename h]
  refine (lookupAll_rename hρ _ _).bind ?_
  rintro args _ rfl
  have e : (op.rename ρ).params = op.params.map (Obj.rename ρ) := rfl
  rw [e, List.length_map, List.length_map, checkTypes_rename hρ]
  split
  · rfl
  · refine SameOutcome.bind (R := Eq) (SameOutcome.refl (fun _ => rfl) _) ?_
    rintro _ _ -
    rfl

theorem parseAtom_rename {c d : Name} (hc : SameText ρ c d) :
    SameOutcome (fun x y => y = x.rename ρ) (parseAtom (@Pddl.symbols h₁ P) c) (parseAtom (@Pddl.symbols h₂ Q) d) := by
  unfold parseAtom parseArguments
  rw [hc.1, hc.2, symbols_rename h]
  refine (lookupAll_rename hρ _ _).bind ?_
  rintro args _ rfl
  exact ofObjs_rename ρ _ args

theorem insertParsed_rename {cs ds : List Name} (hcs : List.Forall₂ (SameText ρ) cs ds) :
    ∀ {s : @State h₁} {t : @State h₂}, SameState ρ s t → SameOutcome (SameState ρ)
      (@insertParsed h₁ (@Pddl.symbols h₁ P) s cs) (@insertParsed h₂ (@Pddl.symbols h₂ Q) t ds) := by
  induction hcs with
  | nil => intro s t hs; exact hs
  | cons hc _ ih =>
    intro s t hs
    simp only [insertParsed]
    refine (parseAtom_rename hρ h hc).bind ?_
    rintro a _ rfl
    exact ih (hs.insert hρ a).2

/-! ## Functions on states -/

theorem applyOp_rename (n : Nat) (op : Op) (args : List Obj) {s : @State h₁} {t : @State h₂} (hs : SameState ρ s t) :
    SameOutcome (SameState ρ) (@Pddl.applyOp h₁ P n op args s)
      (@Pddl.applyOp h₂ Q n (op.rename ρ) (args.map (Obj.rename ρ)) t) := by
  unfold Pddl.applyOp
  rw [h.omap, h.axioms]
  refine (Op.apply_rename hρ (followsState hρ) h.nonEmpty _ n op args hs).bind ?_
  intro r r' hr
  have e : @Pddl.drvs h₂ Q = (@Pddl.drvs h₁ P).map (Drv.rename ρ) := by unfold Pddl.drvs; rw [h.tree]; rfl
  rw [e]
  refine (drvsFix_rename hρ h.nonEmpty n _ n hr.2).bind ?_
  intro r2 r2' hr2
  exact hr2.2

theorem isValid_rename (op : Op) (args : List Obj) {s : @State h₁} {t : @State h₂} (hs : SameState ρ s t) :
    @Op.isValid (@State h₂) _ (@Pddl.omap h₂ Q) (op.rename ρ) t (args.map (Obj.rename ρ)) =
      @Op.isValid (@State h₁) _ (@Pddl.omap h₁ P) op s args := by
  rw [h.omap]
  exact Op.isValid_rename hρ (followsState hρ) h.nonEmpty op args hs

theorem nextState_rename (n : Nat) {s : @State h₁} {t : @State h₂} (hs : SameState ρ s t) {c d : Name} (hc : SameCall ρ c d) :
    SameOutcome (SameState ρ) (@Pddl.nextState h₁ P n s c) (@Pddl.nextState h₂ Q n t d) := by
  unfold Pddl.nextState
  refine (parseAction_rename hρ h hc).bind ?_
  rintro x _ rfl
  exact applyOp_rename hρ h n x.1 x.2 hs

theorem applyActions_rename (n : Nat) {cs ds : List Name} (hcs : List.Forall₂ (SameCall ρ) cs ds) :
    ∀ {s : @State h₁} {t : @State h₂}, SameState ρ s t →
    SameOutcome (SameState ρ) (@Pddl.applyActions h₁ P n s cs) (@Pddl.applyActions h₂ Q n t ds) := by
  induction hcs with
  | nil => intro s t hs; exact hs
  | cons hc _ ih =>
    intro s t hs
    simp only [Pddl.applyActions]
    refine (parseAction_rename hρ h hc).bind ?_
    rintro x _ rfl
    refine (applyOp_rename hρ h n x.1 x.2 hs).bind ?_
    intro s' t' hs'
    exact ih hs'

theorem derivedState_rename (n : Nat) {s : @State h₁} {t : @State h₂} (hs : SameState ρ s t) :
    SameOutcome (SameState ρ) (@Pddl.derivedState h₁ P n s) (@Pddl.derivedState h₂ Q n t) := by
  unfold Pddl.derivedState
  have e : @Pddl.drvs h₂ Q = (@Pddl.drvs h₁ P).map (Drv.rename ρ) := by unfold Pddl.drvs; rw [h.tree]; rfl
  rw [e, h.omap]
  refine (drvsFix_rename hρ h.nonEmpty n _ n hs).bind ?_
  intro r2 r2' hr2
  exact hr2.2

theorem consistentState_rename (n : Nat) {s : @State h₁} {t : @State h₂} (hs : SameState ρ s t) :
    SameOutcome (SameState ρ) (@Pddl.consistentState h₁ P n s) (@Pddl.consistentState h₂ Q n t) := by
  unfold Pddl.consistentState
  rw [h.omap, h.axioms]
  exact consistentFix_rename hρ h.nonEmpty _ n n hs

theorem consistentStateP_rename (n : Nat) {s : @PartialState h₁} {t : @PartialState h₂} (hs : SamePartial ρ s t) :
    SameOutcome (SamePartial ρ) (@Pddl.consistentStateP h₁ P n s) (@Pddl.consistentStateP h₂ Q n t) := by
  unfold Pddl.consistentStateP
  rw [h.omap, h.axioms]
  exact consistentFixP_rename hρ h.nonEmpty _ n 0 hs

theorem isValidAction_rename {s : @State h₁} {t : @State h₂} (hs : SameState ρ s t) {c d : Name} (hc : SameCall ρ c d) :
    @Pddl.isValidAction h₂ Q t d = @Pddl.isValidAction h₁ P s c := by
  unfold Pddl.isValidAction
  symm
  refine (parseAction_rename hρ h hc).bind_eq ?_
  rintro x _ rfl
  exact (isValid_rename hρ h x.1 x.2 hs).symm

theorem isValidState_rename (n : Nat) {s : @State h₁} {t : @State h₂} (hs : SameState ρ s t) :
    @Pddl.isValidState h₂ Q n t = @Pddl.isValidState h₁ P n s := by
  unfold Pddl.isValidState
  rw [h.omap, h.axioms]
  exact validLoop_rename hρ h.nonEmpty _ n hs _

theorem isValidStateP_rename (n : Nat) {s : @PartialState h₁} {t : @PartialState h₂} (hs : SamePartial ρ s t) :
    @Pddl.isValidStateP h₂ Q n t = @Pddl.isValidStateP h₁ P n s := by
  unfold Pddl.isValidStateP
  rw [h.omap, h.axioms]
  exact consistentPFix_rename hρ h.nonEmpty _ n n hs

theorem isValidTuple_rename (n : Nat) {s u : @State h₁} {t v : @State h₂} (hs : SameState ρ s t) {c d : Name}
    (hc : SameCall ρ c d) (hu : SameState ρ u v) :
    @Pddl.isValidTuple h₂ Q n t d v = @Pddl.isValidTuple h₁ P n s c u := by
  unfold Pddl.isValidTuple
  symm
  refine (parseAction_rename hρ h hc).bind_eq ?_
  rintro x _ rfl
  simp only [isValid_rename hρ h x.1 x.2 hs]
  congr 1
  funext b
  split
  · refine (applyOp_rename hρ h n x.1 x.2 hs).bind_eq ?_
    intro s' t' hs'
    rw [hs'.beq hρ hu]
  · rfl

theorem isGoalSatisfied_rename {s : @State h₁} {t : @State h₂} (hs : SameState ρ s t) :
    @Pddl.isGoalSatisfied h₂ Q t = @Pddl.isGoalSatisfied h₁ P s := by
  unfold Pddl.isGoalSatisfied
  rw [h.omap, h.tree]
  exact Goal.eval_rename hρ (followsState hρ) hs h.nonEmpty _ [] []

theorem validPlanFrom_rename (n : Nat) {cs ds : List Name} (hcs : List.Forall₂ (SameCall ρ) cs ds) :
    ∀ {s : @State h₁} {t : @State h₂}, SameState ρ s t →
    @Pddl.validPlanFrom h₂ Q n t ds = @Pddl.validPlanFrom h₁ P n s cs := by
  induction hcs with
  | nil => intro s t hs; exact isGoalSatisfied_rename hρ h hs
  | cons hc _ ih =>
    intro s t hs
    simp only [Pddl.validPlanFrom]
    symm
    refine (parseAction_rename hρ h hc).bind_eq ?_
    rintro x _ rfl
    simp only [isValid_rename hρ h x.1 x.2 hs]
    congr 1
    funext b
    split
    · refine (applyOp_rename hρ h n x.1 x.2 hs).bind_eq ?_
      intro s' t' hs'
      exact (ih hs').symm
    · rfl

theorem isValidPlan_rename (n : Nat) {cs ds : List Name} (hcs : List.Forall₂ (SameCall ρ) cs ds) :
    @Pddl.isValidPlan h₂ Q n ds = @Pddl.isValidPlan h₁ P n cs := validPlanFrom_rename hρ h n hcs h.initial

/-! ## Lists of instances -/

theorem filterValid_rename {s : @State h₁} {t : @State h₂} (hs : SameState ρ s t) (op : Op) : ∀ l : List (List Obj),
    SameOutcome (fun a b => b = a.map (List.map (Obj.rename ρ))) (@Pddl.filterValid h₁ P s op l)
      (@Pddl.filterValid h₂ Q t (op.rename ρ) (l.map (List.map (Obj.rename ρ))))
  | [] => rfl
  | as :: rest => by
    simp only [List.map_cons, Pddl.filterValid, isValid_rename hρ h op as hs]
    refine SameOutcome.bind (R := Eq) (SameOutcome.refl (fun _ => rfl) _) ?_
    rintro b _ rfl
    refine (filterValid_rename hs op rest).bind ?_
    rintro r _ rfl
    cases b <;> rfl

theorem listValidArguments_rename {s : @State h₁} {t : @State h₂} (hs : SameState ρ s t) (op : Op) :
    SameOutcome (fun a b => b = a.map (List.map (Obj.rename ρ))) (@Pddl.listValidArguments h₁ P s op)
      (@Pddl.listValidArguments h₂ Q t (op.rename ρ)) := by
  unfold Pddl.listValidArguments
  have e : (op.rename ρ).params = op.params.map (Obj.rename ρ) := rfl
  rw [h.omap, e]
  refine (paramGen_rename hρ _ op.params).bind ?_
  rintro _ _ -
  have hg := genLoop_rename ρ (paramTypes_ne h.nonEmpty op.params)
  rw [← paramTypes_rename hρ] at hg
  refine hg.bind ?_
  rintro l _ rfl
  exact filterValid_rename hρ h hs op l

omit hρ h in
theorem callOf_rename (op : Op) (as : List Obj) :
    Pddl.callOf (op.rename ρ) (as.map (Obj.rename ρ)) = callString (ρ.op op.name) ((as.map Obj.name).map ρ.obj) := by
  simp only [Pddl.callOf, Op.rename, List.map_map]
  rfl

omit hρ h in
theorem SameCalls.append {cs ds cs' ds' : List Name} (h : SameCalls ρ cs ds) (h' : SameCalls ρ cs' ds') :
    SameCalls ρ (cs ++ cs') (ds ++ ds') := by
  obtain ⟨xs, rfl, rfl⟩ := h
  obtain ⟨ys, rfl, rfl⟩ := h'
  exact ⟨xs ++ ys, by simp, by simp⟩

omit hρ h in
theorem SameCalls.ofOp (op : Op) (l : List (List Obj)) :
    SameCalls ρ (l.map (Pddl.callOf op)) ((l.map (List.map (Obj.rename ρ))).map (Pddl.callOf (op.rename ρ))) := by
  refine ⟨l.map fun as => (op.name, as.map Obj.name), ?_, ?_⟩
  · rw [List.map_map]; rfl
  · rw [List.map_map, List.map_map]
    apply List.map_congr_left
    intro as _
    exact callOf_rename op as

theorem listLoop_rename {s : @State h₁} {t : @State h₂} (hs : SameState ρ s t) : ∀ ops : List Op,
    SameOutcome (SameCalls ρ) (@Pddl.listLoop h₁ P s ops) (@Pddl.listLoop h₂ Q t (ops.map (Op.rename ρ)))
  | [] => ⟨[], rfl, rfl⟩
  | op :: ops => by
    simp only [List.map_cons, Pddl.listLoop]
    refine (listValidArguments_rename hρ h hs op).bind ?_
    rintro l _ rfl
    refine (listLoop_rename hs ops).bind ?_
    intro r r' hr
    exact (SameCalls.ofOp op l).append hr

theorem listValidActions_rename {s : @State h₁} {t : @State h₂} (hs : SameState ρ s t) :
    SameOutcome (SameCalls ρ) (@Pddl.listValidActions h₁ P s) (@Pddl.listValidActions h₂ Q t) := by
  unfold Pddl.listValidActions
  rw [h.actions]
  exact listLoop_rename hρ h hs _

/-! ## The planner -/

omit h in
theorem visited_rename {l : List (@State h₁)} {l' : List (@State h₂)} (hl : List.Forall₂ (SameState ρ) l l')
    {s : @State h₁} {t : @State h₂} (hs : SameState ρ s t) : @PNode.visited h₂ l' t = @PNode.visited h₁ l s := by
  unfold PNode.visited
  induction hl with
  | nil => rfl
  | cons h1 _ ih => simp only [List.any_cons, ih, h1.beq hρ hs]

omit h in
theorem insertAnc_rename {l : List (@State h₁)} {l' : List (@State h₂)} (hl : List.Forall₂ (SameState ρ) l l')
    {s : @State h₁} {t : @State h₂} (hs : SameState ρ s t) :
    List.Forall₂ (SameState ρ) (@PNode.insert h₁ l s) (@PNode.insert h₂ l' t) := by
  unfold PNode.insert
  rw [visited_rename hρ hl hs]
  split
  · exact hl
  · exact List.rel_append hl (.cons hs .nil)

theorem scanAll_rename (n : Nat) {p : @PNode h₁} {q : @PNode h₂} (hp : SameNode ρ p q) : ∀ l : List (Op × List Obj),
    SameOutcome (List.Forall₂ (SameNode ρ)) (@Pddl.scanAll h₁ P n p l)
      (@Pddl.scanAll h₂ Q n q (l.map fun x => (x.1.rename ρ, x.2.map (Obj.rename ρ))))
  | [] => .nil
  | (op, as) :: rest => by
    simp only [List.map_cons, Pddl.scanAll, isValid_rename hρ h op as hp.state]
    refine SameOutcome.bind (R := Eq) (SameOutcome.refl (fun _ => rfl) _) ?_
    rintro b _ rfl
    have ha := insertAnc_rename hρ hp.anc hp.state
    split
    · refine (applyOp_rename hρ h n op as hp.state).bind ?_
      intro s t hs
      rw [visited_rename hρ ha hs]
      split
      · exact scanAll_rename n hp rest
      · refine (scanAll_rename n hp rest).bind ?_
        intro r r' hr
        refine .cons ⟨hs, ha, .inr ?_, ?_⟩ hr
        · exact SameCalls.ofOp op [as]
        · show _ + 1 = _ + 1; rw [hp.depth]
    · exact scanAll_rename n hp rest

theorem instances_rename : ∀ ops : List Op, @instances h₂ Q (ops.map (Op.rename ρ)) =
    (@instances h₁ P ops).map fun x => (x.1.rename ρ, x.2.map (Obj.rename ρ)) := by
  intro ops
  unfold instances
  rw [List.flatMap_map, List.map_flatMap]
  congr 1
  funext op
  have e : (op.rename ρ).params = op.params.map (Obj.rename ρ) := rfl
  rw [h.omap, e, paramTypes_rename hρ]
  have et : ∀ l : List (List Obj), tuples (l.map (List.map (Obj.rename ρ))) = (tuples l).map (List.map (Obj.rename ρ)) := by
    intro l
    unfold tuples
    cases l with
    | nil => rfl
    | cons x l => simp only [List.map_cons, List.cons_ne_nil, if_false]; exact cartesian_map (Obj.rename ρ) (x :: l)
  rw [et, List.map_map, List.map_map]
  rfl

theorem children_rename (n : Nat) {p : @PNode h₁} {q : @PNode h₂} (hp : SameNode ρ p q) :
    SameOutcome (List.Forall₂ (SameNode ρ)) (@Pddl.children h₁ P n p) (@Pddl.children h₂ Q n q) := by
  by_cases h0 : @Pddl.actions h₁ P = []
  · have h0' : @Pddl.actions h₂ Q = [] := by rw [h.actions, h0]; rfl
    have e1 : @Pddl.children h₁ P n p = .ub := by unfold Pddl.children Pddl.nodeBegin; rw [h0]; rfl
    have e2 : @Pddl.children h₂ Q n q = .ub := by unfold Pddl.children Pddl.nodeBegin; rw [h0']; rfl
    rw [e1, e2]
    trivial
  · have h0' : @Pddl.actions h₂ Q ≠ [] := by rw [h.actions]; simpa using h0
    have hne : ∀ op ∈ @Pddl.actions h₁ P, ∀ o ∈ @Pddl.gen h₁ P op, o ≠ [] := fun op _ => paramTypes_ne h.nonEmpty op.params
    have hne' : ∀ op ∈ @Pddl.actions h₂ Q, ∀ o ∈ @Pddl.gen h₂ Q op, o ≠ [] := by
      intro op hop
      rw [h.actions] at hop
      obtain ⟨op, hop, rfl⟩ := List.mem_map.1 hop
      unfold Pddl.gen
      have e : (op.rename ρ).params = op.params.map (Obj.rename ρ) := rfl
      rw [h.omap, e, paramTypes_rename hρ]
      intro o ho
      obtain ⟨o', ho', rfl⟩ := List.mem_map.1 ho
      simpa using paramTypes_ne h.nonEmpty op.params o' ho'
    rw [@Pddl.children_eq h₁ P hne n p h0, @Pddl.children_eq h₂ Q hne' n q h0', h.actions, instances_rename hρ h]
    exact scanAll_rename hρ h n hp _

theorem plannerRoot_rename (n : Nat) {s : @State h₁} {t : @State h₂} (hs : SameState ρ s t) :
    SameOutcome (SameNode ρ) (@Pddl.plannerRoot h₁ P n s) (@Pddl.plannerRoot h₂ Q n t) := by
  unfold Pddl.plannerRoot
  refine (consistentState_rename hρ h n hs).bind ?_
  intro s' t' hs'
  exact ⟨hs', .nil, .inl ⟨rfl, rfl⟩, rfl⟩

end

/-! ## Searches -/

/-- Related nodes have the same verdict and related children. -/
structure SameSpace {N M : Type} (R : N → M → Prop) (sp : Space N) (sq : Space M) : Prop where
  goal : ∀ {n m}, R n m → sq.goal m = sp.goal n
  expand : ∀ {n m}, R n m → SameOutcome (List.Forall₂ R) (sp.expand n) (sq.expand m)

section
variable {N M : Type} {R : N → M → Prop}

/-- A node with the nodes before it. -/
def SameEntry (R : N → M → Prop) (x : N × List N) (y : M × List M) : Prop := R x.1 y.1 ∧ List.Forall₂ R x.2 y.2

theorem SameEntry.path {x : N × List N} {y : M × List M} (h : SameEntry R x y) :
    List.Forall₂ R (x.2 ++ [x.1]) (y.2 ++ [y.1]) := List.rel_append h.2 (.cons h.1 .nil)

theorem entries_map {cs : List N} {ds : List M} (h : List.Forall₂ R cs ds) {p : List N} {q : List M}
    (hp : List.Forall₂ R p q) :
    List.Forall₂ (SameEntry R) (cs.map fun c => (c, p)) (ds.map fun c => (c, q)) := by
  induction h with
  | nil => exact .nil
  | cons h1 _ ih => exact .cons ⟨h1, hp⟩ ih

variable {sp : Space N} {sq : Space M} (hsp : SameSpace R sp sq)
include hsp

/-- Iterators of a breadth-first search. -/
def SameBfs (R : N → M → Prop) (it : Bfs.It N) (it' : Bfs.It M) : Prop :=
  List.Forall₂ (SameEntry R) it.queue it'.queue ∧ OptRel (List.Forall₂ R) it.cur it'.cur

theorem Bfs.next_rel (d : Nat) (late : Nat → Bool) : ∀ (fuel k : Nat) {it : Bfs.It N} {it' : Bfs.It M}, SameBfs R it it' →
    SameOutcome (SameBfs R) (Bfs.next sp d late fuel k it) (Bfs.next sq d late fuel k it')
  | 0, k, it, it', _ => trivial
  | fuel + 1, k, ⟨q, c⟩, ⟨q', c'⟩, h => by
    unfold Bfs.next
    obtain ⟨h1, h2⟩ := h
    simp only at h1 h2 ⊢
    cases h1 with
    | nil => exact ⟨.nil, trivial⟩
    | @cons x y q q' hx hq =>
      obtain ⟨node, anc⟩ := x
      obtain ⟨node', anc'⟩ := y
      simp only
      split
      · exact ⟨.nil, trivial⟩
      have hp := hx.path
      simp only at hp
      rw [hsp.goal hx.1]
      refine SameOutcome.bind (R := Eq) (SameOutcome.refl (fun _ => rfl) _) ?_
      rintro g _ rfl
      rw [← hp.length_eq]
      split
      · exact ⟨hq, hp⟩
      split
      · exact Bfs.next_rel d late fuel (k + 1) ⟨hq, hp⟩
      · refine (hsp.expand hx.1).bind ?_
        intro cs ds hcs
        exact Bfs.next_rel d late fuel (k + 1) ⟨List.rel_append hq (entries_map hcs hp), hp⟩

omit hsp in
theorem SameBfs.finished {it : Bfs.It N} {it' : Bfs.It M} (h : SameBfs R it it') : it'.finished = it.finished := by
  obtain ⟨q, c⟩ := it
  obtain ⟨q', c'⟩ := it'
  obtain ⟨h1, h2⟩ := h
  unfold Bfs.It.finished
  simp only at h1 h2 ⊢
  have : q'.isEmpty = q.isEmpty := by cases h1 <;> rfl
  rw [this]
  cases c <;> cases c' <;> first | rfl | exact absurd h2 id

theorem Bfs.collect_rel (d : Nat) (clock : Nat → Nat → Bool) (fuel : Nat) : ∀ (steps i : Nat) {it : Bfs.It N} {it' : Bfs.It M},
    SameBfs R it it' →
    SameOutcome (List.Forall₂ (List.Forall₂ R)) (Bfs.collect sp d clock fuel steps i it) (Bfs.collect sq d clock fuel steps i it')
  | 0, i, it, it', _ => trivial
  | steps + 1, i, it, it', h => by
    unfold Bfs.collect
    rw [h.finished]
    split
    · exact .nil
    have h2 := h.2
    revert h2
    cases it.cur <;> cases it'.cur
    · intro _; trivial
    · intro h2; exact absurd h2 id
    · intro h2; exact absurd h2 id
    · intro h2
      simp only
      refine (Bfs.next_rel hsp d (clock i) fuel 0 h).bind ?_
      intro jt jt' hj
      refine (Bfs.collect_rel d clock fuel steps (i + 1) hj).bind ?_
      intro r r' hr
      exact .cons h2 hr

theorem Bfs.run_rel (d : Nat) (clock : Nat → Nat → Bool) (fuel : Nat) {root : N} {root' : M} (h : R root root') :
    SameOutcome (List.Forall₂ (List.Forall₂ R)) (Bfs.run sp d clock fuel root) (Bfs.run sq d clock fuel root') := by
  unfold Bfs.run Bfs.begin Bfs.start
  refine (Bfs.next_rel hsp d (clock 0) fuel 0 (it := ⟨[(root, [])], none⟩) (it' := ⟨[(root', [])], none⟩)
    ⟨.cons ⟨h, .nil⟩ .nil, trivial⟩).bind ?_
  intro it it' hi
  exact Bfs.collect_rel hsp d clock fuel fuel 1 hi

/-- Iterators of a depth-first search. -/
def SameDfs (R : N → M → Prop) (it : Dfs.It N) (it' : Dfs.It M) : Prop :=
  List.Forall₂ (SameEntry R) it.stack it'.stack ∧ List.Forall₂ R it.cur it'.cur

theorem Dfs.next_rel (d : Nat) : ∀ (fuel : Nat) {it : Dfs.It N} {it' : Dfs.It M}, SameDfs R it it' →
    SameOutcome (SameDfs R) (Dfs.next sp d fuel it) (Dfs.next sq d fuel it')
  | 0, it, it', _ => trivial
  | fuel + 1, ⟨q, c⟩, ⟨q', c'⟩, h => by
    unfold Dfs.next
    obtain ⟨h1, h2⟩ := h
    simp only at h1 h2 ⊢
    cases h1 with
    | nil => exact ⟨.nil, h2⟩
    | @cons x y q q' hx hq =>
      obtain ⟨node, anc⟩ := x
      obtain ⟨node', anc'⟩ := y
      have hp := hx.path
      simp only at hp ⊢
      rw [hsp.goal hx.1]
      refine SameOutcome.bind (R := Eq) (SameOutcome.refl (fun _ => rfl) _) ?_
      rintro g _ rfl
      rw [← hp.length_eq]
      split
      · exact ⟨hq, hp⟩
      split
      · exact Dfs.next_rel d fuel ⟨hq, hp⟩
      · refine (hsp.expand hx.1).bind ?_
        intro cs ds hcs
        exact Dfs.next_rel d fuel ⟨List.rel_append (List.rel_reverse (entries_map hcs hp)) hq, hp⟩

theorem Dfs.collect_rel (d fuel : Nat) : ∀ (steps : Nat) {it : Dfs.It N} {it' : Dfs.It M},
    SameDfs R it it' →
    SameOutcome (List.Forall₂ (List.Forall₂ R)) (Dfs.collect sp d fuel steps it) (Dfs.collect sq d fuel steps it')
  | 0, it, it', _ => trivial
  | steps + 1, it, it', h => by
    unfold Dfs.collect
    have hf : it'.finished = it.finished := by
      unfold Dfs.It.finished
      have := h.1
      revert this
      cases it.stack <;> cases it'.stack <;> intro hh <;> first | rfl | cases hh
    rw [hf]
    split
    · exact .nil
    refine (Dfs.next_rel hsp d fuel h).bind ?_
    intro jt jt' hj
    refine (Dfs.collect_rel d fuel steps hj).bind ?_
    intro r r' hr
    exact .cons h.2 hr

theorem Dfs.run_rel (d fuel : Nat) {root : N} {root' : M} (h : R root root') :
    SameOutcome (List.Forall₂ (List.Forall₂ R)) (Dfs.run sp d fuel root) (Dfs.run sq d fuel root') := by
  unfold Dfs.run Dfs.begin Dfs.start
  refine (Dfs.next_rel hsp d fuel (it := ⟨[(root, [])], []⟩) (it' := ⟨[(root', [])], []⟩)
    ⟨.cons ⟨h, .nil⟩ .nil, .nil⟩).bind ?_
  intro it it' hi
  exact Dfs.collect_rel hsp d fuel fuel hi

/-- Iterators of A*. -/
def SameAstar (R : N → M → Prop) (it : Astar.It N) (it' : Astar.It M) : Prop :=
  List.Forall₂ (SameEntry R) it.queue it'.queue ∧ List.Forall₂ R it.cur it'.cur ∧ it'.pops = it.pops

omit hsp in
theorem forall₂_eraseIdx {α β : Type} {S : α → β → Prop} : ∀ {l : List α} {l' : List β} (_ : List.Forall₂ S l l') (i : Nat),
    List.Forall₂ S (l.eraseIdx i) (l'.eraseIdx i)
  | _, _, .nil, _ => .nil
  | _, _, .cons _ h, 0 => h
  | _, _, .cons h1 h, i + 1 => .cons h1 (forall₂_eraseIdx h i)

omit hsp in
theorem forall₂_getElem? {α β : Type} {S : α → β → Prop} : ∀ {l : List α} {l' : List β} (_ : List.Forall₂ S l l') (i : Nat),
    OptRel S l[i]? l'[i]?
  | _, _, .nil, _ => trivial
  | _, _, .cons h1 _, 0 => h1
  | _, _, .cons _ h, i + 1 => by simpa using forall₂_getElem? h i

theorem Astar.next_rel (d : Nat) {pick : Nat → List (N × List N) → Nat} {pick' : Nat → List (M × List M) → Nat}
    (hpk : ∀ t q q', List.Forall₂ (SameEntry R) q q' → pick' t q' = pick t q) :
    ∀ (fuel : Nat) {it : Astar.It N} {it' : Astar.It M}, SameAstar R it it' →
    SameOutcome (SameAstar R) (Astar.next sp d pick fuel it) (Astar.next sq d pick' fuel it')
  | 0, it, it', _ => trivial
  | fuel + 1, ⟨q, c, t⟩, ⟨q', c', t'⟩, h => by
    unfold Astar.next
    obtain ⟨h1, h2, h3⟩ := h
    simp only at h1 h2 h3 ⊢
    subst h3
    have he : q'.isEmpty = q.isEmpty := by cases h1 <;> rfl
    rw [he]
    split
    · exact ⟨h1, h2, rfl⟩
    have hk := forall₂_getElem? h1 (pick t' q)
    have hr := forall₂_eraseIdx h1 (pick t' q)
    unfold Astar.pop
    rw [hpk t' q q' h1]
    revert hk
    cases q[pick t' q]? <;> cases q'[pick t' q]?
    · intro _; trivial
    · intro hk; exact absurd hk id
    · intro hk; exact absurd hk id
    · rename_i x y
      intro hx
      obtain ⟨node, anc⟩ := x
      obtain ⟨node', anc'⟩ := y
      have hp := SameEntry.path hx
      simp only at hp ⊢
      rw [hsp.goal hx.1]
      refine SameOutcome.bind (R := Eq) (SameOutcome.refl (fun _ => rfl) _) ?_
      rintro g _ rfl
      rw [← hp.length_eq]
      split
      · exact ⟨hr, hp, rfl⟩
      split
      · exact Astar.next_rel d hpk fuel ⟨hr, hp, rfl⟩
      · refine (hsp.expand hx.1).bind ?_
        intro cs ds hcs
        exact Astar.next_rel d hpk fuel ⟨List.rel_append hr (entries_map hcs hp), hp, rfl⟩

theorem Astar.collect_rel (d fuel : Nat) {pick : Nat → List (N × List N) → Nat} {pick' : Nat → List (M × List M) → Nat}
    (hpk : ∀ t q q', List.Forall₂ (SameEntry R) q q' → pick' t q' = pick t q) :
    ∀ (steps : Nat) {it : Astar.It N} {it' : Astar.It M}, SameAstar R it it' →
    SameOutcome (List.Forall₂ (List.Forall₂ R)) (Astar.collect sp d pick fuel steps it) (Astar.collect sq d pick' fuel steps it')
  | 0, it, it', _ => trivial
  | steps + 1, it, it', h => by
    unfold Astar.collect
    have hf : it'.finished = it.finished := by
      unfold Astar.It.finished
      have := h.1
      revert this
      cases it.queue <;> cases it'.queue <;> intro hh <;> first | rfl | cases hh
    rw [hf]
    split
    · exact .nil
    refine (Astar.next_rel hsp d hpk fuel h).bind ?_
    intro jt jt' hj
    refine (Astar.collect_rel d fuel hpk steps hj).bind ?_
    intro r r' hr
    exact .cons h.2.1 hr

theorem Astar.run_rel (d fuel : Nat) {pick : Nat → List (N × List N) → Nat} {pick' : Nat → List (M × List M) → Nat}
    (hpk : ∀ t q q', List.Forall₂ (SameEntry R) q q' → pick' t q' = pick t q) {root : N} {root' : M} (h : R root root') :
    SameOutcome (List.Forall₂ (List.Forall₂ R)) (Astar.run sp d pick fuel root) (Astar.run sq d pick' fuel root') := by
  unfold Astar.run Astar.begin Astar.start
  refine (Astar.next_rel hsp d hpk fuel (it := ⟨[(root, [])], [], 0⟩) (it' := ⟨[(root', [])], [], 0⟩)
    ⟨.cons ⟨h, .nil⟩ .nil, .nil, rfl⟩).bind ?_
  intro it it' hi
  exact Astar.collect_rel hsp d fuel hpk fuel hi

end

theorem sameSpace {ρ : Renaming} (hρ : ρ.Proper) {h₁ h₂ : StrHash} {P : @Pddl h₁} {Q : @Pddl h₂} (h : SamePddl ρ P Q) (n : Nat) :
    SameSpace (SameNode ρ) (@Pddl.space h₁ P n) (@Pddl.space h₂ Q n) :=
  ⟨fun hp => isGoalSatisfied_rename hρ h hp.state, fun hp => children_rename hρ h n hp⟩

end Symbolic
