import Verif.Lemmas.Rename
import Verif.Lemmas.Construct

/-!
Axioms, derivation rules and the functions of a Pddl under a renaming, with two hash functions.
-/

namespace Symbolic

theorem Op.create_rename {ρ : Renaming} (hρ : ρ.Proper) (m : ObjMap) (axs : List Ax) (op : Op) :
    (op.rename ρ).create (m.rename ρ) (axs.map (Ax.rename ρ)) = op.create m axs := by
  simp only [Op.create, Op.rename, Goal.create_rename hρ, Eff.create_rename hρ]
  exact ((paramGen_rename hρ m op.params).bind_eq (fun _ _ _ => rfl)).symm

/-! ## States -/

section
variable {ρ : Renaming} (hρ : ρ.Proper) {h₁ h₂ : StrHash}
include hρ

theorem SameState.contains {s : @State h₁} {t : @State h₂} (h : SameState ρ s t) (a : Atom) :
    @State.contains h₂ t (a.rename ρ) = @State.contains h₁ s a := by
  have := h (a.rename ρ)
  unfold State.Has at this
  cases h1 : @State.contains h₁ s a
  · cases h2 : @State.contains h₂ t (a.rename ρ)
    · rfl
    · obtain ⟨b, hb, he⟩ := this.1 h2
      rw [Atom.rename_inj hρ he, hb] at h1
      cases h1
  · exact this.2 ⟨a, h1, rfl⟩

theorem SameState.insert {s : @State h₁} {t : @State h₂} (h : SameState ρ s t) (a : Atom) :
    (@State.insert h₂ t (a.rename ρ)).1 = (@State.insert h₁ s a).1 ∧
      SameState ρ (@State.insert h₁ s a).2 (@State.insert h₂ t (a.rename ρ)).2 := by
  constructor
  · rw [@State.insert_flag h₂, @State.insert_flag h₁]
    have := h.contains hρ a
    simp only [State.mem_def, this]
  · intro b
    have h1 : ∀ x, State.Has (@State.insert h₁ s a).2 x ↔ x = a ∨ s.Has x := fun x => @State.mem_insert h₁ s a x
    have h2 : ∀ x, State.Has (@State.insert h₂ t (a.rename ρ)).2 x ↔ x = a.rename ρ ∨ t.Has x :=
      fun x => @State.mem_insert h₂ t (a.rename ρ) x
    rw [h2, h b]
    constructor
    · rintro (rfl | ⟨x, hx, rfl⟩)
      · exact ⟨a, (h1 a).2 (.inl rfl), rfl⟩
      · exact ⟨x, (h1 x).2 (.inr hx), rfl⟩
    · rintro ⟨x, hx, rfl⟩
      rcases (h1 x).1 hx with rfl | hx
      · exact .inl rfl
      · exact .inr ⟨x, hx, rfl⟩

theorem SameState.erase {s : @State h₁} {t : @State h₂} (h : SameState ρ s t) (a : Atom) :
    (@State.erase h₂ t (a.rename ρ)).1 = (@State.erase h₁ s a).1 ∧
      SameState ρ (@State.erase h₁ s a).2 (@State.erase h₂ t (a.rename ρ)).2 := by
  constructor
  · rw [@State.erase_flag h₂, @State.erase_flag h₁]
    have := h.contains hρ a
    simp only [State.mem_def, this]
  · intro b
    have h1 : ∀ x, State.Has (@State.erase h₁ s a).2 x ↔ x ≠ a ∧ s.Has x := fun x => @State.mem_erase h₁ s a x
    have h2 : ∀ x, State.Has (@State.erase h₂ t (a.rename ρ)).2 x ↔ x ≠ a.rename ρ ∧ t.Has x :=
      fun x => @State.mem_erase h₂ t (a.rename ρ) x
    rw [h2, h b]
    constructor
    · rintro ⟨hn, x, hx, rfl⟩
      exact ⟨x, (h1 x).2 ⟨fun e => hn (by rw [e]), hx⟩, rfl⟩
    · rintro ⟨x, hx, rfl⟩
      obtain ⟨hn, hx⟩ := (h1 x).1 hx
      exact ⟨fun e => hn (Atom.rename_inj hρ e), x, hx, rfl⟩

omit hρ in
theorem SameState.empty (ρ : Renaming) : SameState ρ (@State.empty h₁) (@State.empty h₂) := by
  intro b
  have h1 : ∀ x, ¬ State.Has (@State.empty h₁) x := fun x => @State.not_mem_empty h₁ x
  have h2 : ∀ x, ¬ State.Has (@State.empty h₂) x := fun x => @State.not_mem_empty h₂ x
  exact ⟨fun h => absurd h (h2 _), fun ⟨a, h, _⟩ => absurd h (h1 _)⟩

omit hρ in
theorem SameState.ofList (ρ : Renaming) (l : List Atom) :
    SameState ρ (@State.ofList h₁ l) (@State.ofList h₂ (l.map (Atom.rename ρ))) := by
  intro b
  have h1 : ∀ x, State.Has (@State.ofList h₁ l) x ↔ x ∈ l := fun x => @State.mem_ofList h₁ l x
  have h2 : State.Has (@State.ofList h₂ (l.map (Atom.rename ρ))) b ↔ b ∈ l.map (Atom.rename ρ) := @State.mem_ofList h₂ _ b
  rw [h2, List.mem_map]
  constructor
  · rintro ⟨a, ha, rfl⟩; exact ⟨a, (h1 a).2 ha, rfl⟩
  · rintro ⟨a, ha, rfl⟩; exact ⟨a, (h1 a).1 ha, rfl⟩

theorem SameState.beq {s u : @State h₁} {t v : @State h₂} (h : SameState ρ s t) (h' : SameState ρ u v) :
    @State.beq h₂ t v = @State.beq h₁ s u := by
  have h1 := @State.beq_iff h₁ s u
  have h2 := @State.beq_iff h₂ t v
  have h3 : t = v ↔ s = u := by
    constructor
    · rintro rfl
      apply @State.ext h₁
      intro a
      have e1 := h.contains hρ a
      have e2 := h'.contains hρ a
      simp only [State.mem_def]
      rw [← e1, ← e2]
    · rintro rfl
      apply @State.ext h₂
      intro a
      exact (h a).trans (h' a).symm
  cases hb : @State.beq h₁ s u
  · cases hc : @State.beq h₂ t v
    · rfl
    · exact absurd (h1.2 (h3.1 (h2.1 hc))) (by simp [hb])
  · exact h2.2 (h3.2 (h1.1 hb))

theorem followsState : Tracks ρ (SameState ρ (h₁ := h₁) (h₂ := h₂)) where
  contains s t h a := by simp only [StateLike.contains]; rw [h.contains hρ]
  lacks s t h a := by simp only [StateLike.lacks]; rw [h.contains hρ]
  insert s t h a := by
    simp only [StateLike.insert]
    exact ⟨by rw [(h.insert hρ a).1], (h.insert hρ a).2⟩
  erase s t h a := by
    simp only [StateLike.erase]
    exact ⟨by rw [(h.erase hρ a).1], (h.erase hρ a).2⟩
  cond r := rfl

theorem followsPartial : Tracks ρ (SamePartial ρ (h₁ := h₁) (h₂ := h₂)) where
  contains s t h a := by
    simp only [StateLike.contains, PartialState.contains]
    rw [h.1.contains hρ, h.2.contains hρ]
  lacks s t h a := by
    simp only [StateLike.lacks, PartialState.doesNotContain]
    rw [h.1.contains hρ, h.2.contains hρ]
  insert s t h a := by
    simp only [StateLike.insert, PartialState.insert]
    exact ⟨by rw [(h.1.insert hρ a).1, (h.2.erase hρ a).1], (h.1.insert hρ a).2, (h.2.erase hρ a).2⟩
  erase s t h a := by
    simp only [StateLike.erase, PartialState.erase]
    exact ⟨by rw [(h.1.erase hρ a).1, (h.2.insert hρ a).1], (h.1.erase hρ a).2, (h.2.insert hρ a).2⟩
  cond r := rfl

end

/-! ## Derivation rules -/

/-- Same flag and related states. -/
def SameFlag {σ τ : Type} (R : σ → τ → Prop) (x : Bool × σ) (y : Bool × τ) : Prop := y.1 = x.1 ∧ R x.2 y.2

theorem sameFlag_or {σ τ : Type} {R : σ → τ → Prop} {r r2 : Bool × σ} {r' r2' : Bool × τ} (h : SameFlag R r r')
    (h2 : SameFlag R r2 r2') : SameFlag R (r.1 || r2.1, r2.2) (r'.1 || r2'.1, r2'.2) := ⟨by simp only [h.1, h2.1], h2.2⟩

section
variable {ρ : Renaming} (hρ : ρ.Proper) {h₁ h₂ : StrHash}
include hρ

theorem drvPass_rename {m : ObjMap} (hm : m.NonEmpty) (d : Drv) : ∀ (l : List (List Obj)) {s : @State h₁} {t : @State h₂},
    SameState ρ s t → SameOutcome (SameFlag (SameState ρ)) (@drvPass h₁ m d l s)
      (@drvPass h₂ (m.rename ρ) (d.rename ρ) (l.map (List.map (Obj.rename ρ))) t)
  | [], s, t, h => ⟨rfl, h⟩
  | as :: rest, s, t, h => by
    simp only [List.map_cons, drvPass]
    have he := Goal.eval_rename hρ (followsState hρ) h hm d.body d.params as
    simp only [Drv.rename] at he ⊢
    rw [he]
    refine SameOutcome.bind (R := Eq) (SameOutcome.refl (fun _ => rfl) _) ?_
    rintro b _ rfl
    have hr : SameFlag (SameState ρ) (if b then @State.insert h₁ s (Atom.ofObjs d.head as) else @State.erase h₁ s (Atom.ofObjs d.head as))
        (if b then @State.insert h₂ t (Atom.ofObjs (ρ.pred d.head) (as.map (Obj.rename ρ))) else
          @State.erase h₂ t (Atom.ofObjs (ρ.pred d.head) (as.map (Obj.rename ρ)))) := by
      rw [ofObjs_rename]
      cases b
      · exact h.erase hρ _
      · exact h.insert hρ _
    refine (drvPass_rename hm d rest hr.2).bind ?_
    intro r2 r2' h2
    exact sameFlag_or hr h2

theorem drvFix_rename {m : ObjMap} (hm : m.NonEmpty) (d : Drv) (l : List (List Obj)) :
    ∀ (k : Nat) {s : @State h₁} {t : @State h₂},
    SameState ρ s t → SameOutcome (SameFlag (SameState ρ)) (@drvFix h₁ m d l k s)
      (@drvFix h₂ (m.rename ρ) (d.rename ρ) (l.map (List.map (Obj.rename ρ))) k t)
  | 0, s, t, h => trivial
  | k + 1, s, t, h => by
    simp only [drvFix]
    refine (drvPass_rename hρ hm d l h).bind ?_
    intro r r' h1
    rw [h1.1]
    split
    · refine (drvFix_rename hm d l k h1.2).bind ?_
      intro r2 r2' h2
      exact ⟨rfl, h2.2⟩
    · exact h1

theorem Drv.apply_rename {m : ObjMap} (hm : m.NonEmpty) (k : Nat) (d : Drv) {s : @State h₁} {t : @State h₂}
    (h : SameState ρ s t) : SameOutcome (SameFlag (SameState ρ)) (@Drv.apply h₁ m k d s)
      (@Drv.apply h₂ (m.rename ρ) k (d.rename ρ) t) := by
  unfold Drv.apply
  have := genLoop_rename ρ (paramTypes_ne hm d.params)
  rw [← paramTypes_rename hρ] at this
  refine this.bind ?_
  rintro l _ rfl
  exact drvFix_rename hρ hm d l k h

theorem drvsPass_rename {m : ObjMap} (hm : m.NonEmpty) (k : Nat) : ∀ (ds : List Drv) {s : @State h₁} {t : @State h₂},
    SameState ρ s t → SameOutcome (SameFlag (SameState ρ)) (@drvsPass h₁ m k ds s)
      (@drvsPass h₂ (m.rename ρ) k (ds.map (Drv.rename ρ)) t)
  | [], s, t, h => ⟨rfl, h⟩
  | d :: ds, s, t, h => by
    simp only [List.map_cons, drvsPass]
    refine (Drv.apply_rename hρ hm k d h).bind ?_
    intro r r' h1
    refine (drvsPass_rename hm k ds h1.2).bind ?_
    intro r2 r2' h2
    exact sameFlag_or h1 h2

theorem drvsFix_rename {m : ObjMap} (hm : m.NonEmpty) (n : Nat) (ds : List Drv) :
    ∀ (k : Nat) {s : @State h₁} {t : @State h₂},
    SameState ρ s t → SameOutcome (SameFlag (SameState ρ)) (@drvsFix h₁ m n ds k s)
      (@drvsFix h₂ (m.rename ρ) n (ds.map (Drv.rename ρ)) k t)
  | 0, s, t, h => trivial
  | k + 1, s, t, h => by
    simp only [drvsFix]
    refine (drvsPass_rename hρ hm n ds h).bind ?_
    intro r r' h1
    rw [h1.1]
    split
    · refine (drvsFix_rename hm n ds k h1.2).bind ?_
      intro r2 r2' h2
      exact ⟨rfl, h2.2⟩
    · exact h1

/-! ## Axioms -/

theorem axApplyLoop_rename {m : ObjMap} (hm : m.NonEmpty) (axs : List Ax) (n : Nat) (ax : Ax) :
    ∀ (l : List (List Obj)) {s : @State h₁} {t : @State h₂}, SameState ρ s t →
    SameOutcome (SameFlag (SameState ρ)) (@axApplyLoop h₁ m axs n ax l s)
      (@axApplyLoop h₂ (m.rename ρ) (axs.map (Ax.rename ρ)) n (ax.rename ρ) (l.map (List.map (Obj.rename ρ))) t)
  | [], s, t, h => ⟨rfl, h⟩
  | as :: rest, s, t, h => by
    simp only [List.map_cons, axApplyLoop]
    have hv := Op.isValid_rename hρ (followsState hρ) hm ax.op as h
    have e : (ax.rename ρ).op = ax.op.rename ρ := rfl
    rw [e, hv]
    refine SameOutcome.bind (R := Eq) (SameOutcome.refl (fun _ => rfl) _) ?_
    rintro b _ rfl
    refine SameOutcome.bind (R := SameChange (SameState ρ)) ?_ ?_
    · cases b
      · exact ⟨rfl, h⟩
      · exact Op.apply_rename hρ (followsState hρ) hm axs n ax.op as h
    · intro r r' h1
      refine (axApplyLoop_rename hm axs n ax rest h1.2).bind ?_
      intro r2 r2' h2
      exact ⟨by simp only [h1.1, h2.1], h2.2⟩

theorem consistentPass_rename {m : ObjMap} (hm : m.NonEmpty) (axs : List Ax) (n : Nat) :
    ∀ (l : List Ax) {s : @State h₁} {t : @State h₂}, SameState ρ s t →
    SameOutcome (SameFlag (SameState ρ)) (@Pddl.consistentPass h₁ m axs n l s)
      (@Pddl.consistentPass h₂ (m.rename ρ) (axs.map (Ax.rename ρ)) n (l.map (Ax.rename ρ)) t)
  | [], s, t, h => ⟨rfl, h⟩
  | ax :: rest, s, t, h => by
    simp only [List.map_cons, Pddl.consistentPass, Ax.apply]
    refine (axApplyLoop_rename hρ hm axs n ax ax.arguments h).bind ?_
    intro r r' h1
    refine (consistentPass_rename hm axs n rest h1.2).bind ?_
    intro r2 r2' h2
    exact sameFlag_or h1 h2

theorem consistentFix_rename {m : ObjMap} (hm : m.NonEmpty) (axs : List Ax) (n : Nat) :
    ∀ (k : Nat) {s : @State h₁} {t : @State h₂}, SameState ρ s t →
    SameOutcome (SameState ρ) (@Pddl.consistentFix h₁ m axs n k s)
      (@Pddl.consistentFix h₂ (m.rename ρ) (axs.map (Ax.rename ρ)) n k t)
  | 0, s, t, h => trivial
  | k + 1, s, t, h => by
    simp only [Pddl.consistentFix]
    refine (consistentPass_rename hρ hm axs n axs h).bind ?_
    intro r r' h1
    rw [h1.1]
    split
    · exact consistentFix_rename hm axs n k h1.2
    · exact h1.2

omit hρ in
theorem catchExc_rename {α β : Type} {R : α → β → Prop} {x : Res α} {y : Res β} (h : SameOutcome R x y) :
    SameOutcome (fun x y => match x, y with | none, none => True | some a, some b => R a b | _, _ => False)
      (catchExc x) (catchExc y) := by
  cases x <;> cases y <;> simp_all [SameOutcome, catchExc]

theorem consistentLoop_rename {m : ObjMap} (hm : m.NonEmpty) (axs : List Ax) (n : Nat) (ax : Ax) {s : @State h₁}
    {t : @State h₂} (h : SameState ρ s t) : ∀ (l : List (List Obj)) {u : @State h₁} {v : @State h₂}, SameState ρ u v →
    @consistentLoop h₂ (m.rename ρ) (axs.map (Ax.rename ρ)) n (ax.rename ρ) t (l.map (List.map (Obj.rename ρ))) v =
      @consistentLoop h₁ m axs n ax s l u
  | [], u, v, _ => rfl
  | as :: rest, u, v, h' => by
    simp only [List.map_cons, consistentLoop]
    have hv := Op.isValid_rename hρ (followsState hρ) hm ax.op as h
    have e : (ax.rename ρ).op = ax.op.rename ρ := rfl
    rw [e, hv]
    congr 1
    funext b
    cases b
    · exact consistentLoop_rename hm axs n ax h rest h'
    · simp only [if_true]
      symm
      refine (catchExc_rename (Op.apply_rename hρ (followsState hρ) hm axs n ax.op as h')).bind_eq ?_
      intro x y hxy
      match x, y, hxy with
      | none, none, _ => rfl
      | some (k, u'), some (k', v'), hxy =>
        obtain ⟨h1, h2⟩ := hxy
        simp only at h1 h2
        subst h1
        simp only
        split
        · rfl
        · exact (consistentLoop_rename hm axs n ax h rest h2).symm

theorem validLoop_rename {m : ObjMap} (hm : m.NonEmpty) (axs : List Ax) (n : Nat) {s : @State h₁}
    {t : @State h₂} (h : SameState ρ s t) : ∀ l : List Ax,
    @Pddl.validLoop h₂ (m.rename ρ) (axs.map (Ax.rename ρ)) n t (l.map (Ax.rename ρ)) = @Pddl.validLoop h₁ m axs n s l
  | [] => rfl
  | ax :: rest => by
    simp only [List.map_cons, Pddl.validLoop, Ax.isConsistent, validLoop_rename hm axs n h rest]
    have := consistentLoop_rename hρ hm axs n ax h ax.arguments h
    simp only [Ax.rename] at this ⊢
    rw [this]

theorem axApplyPLoop_rename {m : ObjMap} (hm : m.NonEmpty) (axs : List Ax) (n : Nat) (ax : Ax) :
    ∀ (l : List (List Obj)) {s : @PartialState h₁} {t : @PartialState h₂}, SamePartial ρ s t →
    SameOutcome (SameChange (SamePartial ρ)) (@axApplyPLoop h₁ m axs n ax l s)
      (@axApplyPLoop h₂ (m.rename ρ) (axs.map (Ax.rename ρ)) n (ax.rename ρ) (l.map (List.map (Obj.rename ρ))) t)
  | [], s, t, h => ⟨rfl, h⟩
  | as :: rest, s, t, h => by
    simp only [List.map_cons, axApplyPLoop]
    have hv := Op.isValid_rename hρ (followsPartial hρ) hm ax.op as h
    have e : (ax.rename ρ).op = ax.op.rename ρ := rfl
    rw [e, hv]
    refine SameOutcome.bind (R := Eq) (SameOutcome.refl (fun _ => rfl) _) ?_
    rintro v _ rfl
    refine SameOutcome.bind (R := SameChange (SamePartial ρ)) ?_ ?_
    · split
      · exact Op.apply_rename hρ (followsPartial hρ) hm axs n ax.op as h
      · exact ⟨rfl, h⟩
    · intro r r' h1
      refine (axApplyPLoop_rename hm axs n ax rest h1.2).bind ?_
      intro r2 r2' h2
      exact sameChange_max h1 h2

theorem consistentPassP_rename {m : ObjMap} (hm : m.NonEmpty) (axs : List Ax) (n : Nat) :
    ∀ (l : List Ax) {s : @PartialState h₁} {t : @PartialState h₂}, SamePartial ρ s t →
    SameOutcome (SameFlag (SamePartial ρ)) (@Pddl.consistentPassP h₁ m axs n l s)
      (@Pddl.consistentPassP h₂ (m.rename ρ) (axs.map (Ax.rename ρ)) n (l.map (Ax.rename ρ)) t)
  | [], s, t, h => ⟨rfl, h⟩
  | ax :: rest, s, t, h => by
    simp only [List.map_cons, Pddl.consistentPassP, Ax.applyP]
    refine (axApplyPLoop_rename hρ hm axs n ax ax.arguments h).bind ?_
    intro r r' h1
    rw [h1.1]
    split
    · rfl
    · refine (consistentPassP_rename hm axs n rest h1.2).bind ?_
      intro r2 r2' h2
      exact ⟨by simp only [h2.1], h2.2⟩

theorem consistentFixP_rename {m : ObjMap} (hm : m.NonEmpty) (axs : List Ax) (n : Nat) (i : Nat)
    {s : @PartialState h₁} {t : @PartialState h₂} (h : SamePartial ρ s t) :
    SameOutcome (SamePartial ρ) (@Pddl.consistentFixP h₁ m axs n i s)
      (@Pddl.consistentFixP h₂ (m.rename ρ) (axs.map (Ax.rename ρ)) n i t) := by
  rw [@Pddl.consistentFixP.eq_1 h₁, @Pddl.consistentFixP.eq_1 h₂]
  refine (consistentPassP_rename hρ hm axs n axs h).bind ?_
  intro r r' h1
  by_cases hi : i > Pddl.kMaxIterations
  · rw [dif_pos hi, dif_pos hi]; rfl
  · rw [dif_neg hi, dif_neg hi, h1.1]
    split
    · exact consistentFixP_rename hm axs n (i + 1) h1.2
    · exact h1.2
termination_by Pddl.kMaxIterations + 1 - i
decreasing_by simp [Pddl.kMaxIterations] at hi ⊢; omega

omit hρ in
/-- Verdict, flag and state. -/
def SameVerdict (ρ : Renaming) {h₁ h₂ : StrHash} (x : Bool × Bool × @PartialState h₁) (y : Bool × Bool × @PartialState h₂) :
    Prop := y.1 = x.1 ∧ y.2.1 = x.2.1 ∧ SamePartial ρ x.2.2 y.2.2

theorem consistentPLoop_rename {m : ObjMap} (hm : m.NonEmpty) (axs : List Ax) (n : Nat) (ax : Ax) :
    ∀ (l : List (List Obj)) {s : @PartialState h₁} {t : @PartialState h₂} (c : Bool), SamePartial ρ s t →
    SameOutcome (SameVerdict ρ) (@consistentPLoop h₁ m axs n ax l s c)
      (@consistentPLoop h₂ (m.rename ρ) (axs.map (Ax.rename ρ)) n (ax.rename ρ) (l.map (List.map (Obj.rename ρ))) t c)
  | [], s, t, c, h => ⟨rfl, rfl, h⟩
  | as :: rest, s, t, c, h => by
    simp only [List.map_cons, consistentPLoop]
    have hv := Op.isValid_rename hρ (followsPartial hρ) hm ax.op as h
    have e : (ax.rename ρ).op = ax.op.rename ρ := rfl
    rw [e, hv]
    refine SameOutcome.bind (R := Eq) (SameOutcome.refl (fun _ => rfl) _) ?_
    rintro v _ rfl
    match v with
    | none => exact consistentPLoop_rename hm axs n ax rest c h
    | some false => exact consistentPLoop_rename hm axs n ax rest c h
    | some true =>
      refine (catchExc_rename (Op.apply_rename hρ (followsPartial hρ) hm axs n ax.op as h)).bind ?_
      intro x y hxy
      match x, y, hxy with
      | none, none, _ => exact ⟨rfl, rfl, h⟩
      | some (k, u'), some (k', v'), hxy =>
        obtain ⟨h1, h2⟩ := hxy
        simp only at h1 h2
        subst h1
        simp only
        split
        · exact ⟨rfl, rfl, h2⟩
        · exact consistentPLoop_rename hm axs n ax rest _ h2

theorem consistentPPass_rename {m : ObjMap} (hm : m.NonEmpty) (axs : List Ax) (n : Nat) :
    ∀ (l : List Ax) {s : @PartialState h₁} {t : @PartialState h₂} (c : Bool), SamePartial ρ s t →
    SameOutcome (SameVerdict ρ) (@consistentPPass h₁ m axs n l s c)
      (@consistentPPass h₂ (m.rename ρ) (axs.map (Ax.rename ρ)) n (l.map (Ax.rename ρ)) t c)
  | [], s, t, c, h => ⟨rfl, rfl, h⟩
  | ax :: rest, s, t, c, h => by
    simp only [List.map_cons, consistentPPass]
    refine (consistentPLoop_rename hρ hm axs n ax ax.arguments c h).bind ?_
    intro r r' h1
    rw [h1.1]
    split
    · rw [h1.2.1]; exact consistentPPass_rename hm axs n rest _ h1.2.2
    · exact h1

theorem consistentPFix_rename {m : ObjMap} (hm : m.NonEmpty) (axs : List Ax) (n : Nat) :
    ∀ (k : Nat) {s : @PartialState h₁} {t : @PartialState h₂}, SamePartial ρ s t →
    @consistentPFix h₂ (m.rename ρ) (axs.map (Ax.rename ρ)) n k t = @consistentPFix h₁ m axs n k s
  | 0, s, t, h => rfl
  | k + 1, s, t, h => by
    simp only [consistentPFix]
    symm
    refine (consistentPPass_rename hρ hm axs n axs false h).bind_eq ?_
    intro r r' h1
    rw [h1.1, h1.2.1, consistentPFix_rename hm axs n k h1.2.2]

end

end Symbolic
