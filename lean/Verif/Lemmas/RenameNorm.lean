import Verif.Lemmas.RenameApi
import Verif.Lemmas.ParseAction
import Verif.Model.Normalize

/-!
The normal forms of goals, preconditions and effects (normal_form.h) under a renaming, with two hash functions.
-/

namespace Symbolic

section
variable {ρ : Renaming} {h₁ h₂ : StrHash}

theorem DnfRel.sameDnf {d : @Dnf h₁} {d' : @Dnf h₂} (h : DnfRel ρ d d') : SameDnf ρ d d' := by
  refine ⟨?_, PermRel.left h, PermRel.right h⟩
  obtain ⟨e, h1, h2⟩ := h
  rw [h1.length_eq, h2.length_eq]

theorem SameOutcome.imp {α β : Type} {R S : α → β → Prop} (hrs : ∀ a b, R a b → S a b) {x : Res α} {y : Res β}
    (h : SameOutcome R x y) : SameOutcome S x y := by
  cases x <;> cases y <;> first | exact h | exact hrs _ _ h

theorem BothReturn.imp {α β : Type} {R S : α → β → Prop} (hrs : ∀ a b, R a b → S a b) {x : Res α} {y : Res β}
    (h : BothReturn R x y) : BothReturn S x y :=
  ⟨fun a ha => (h.1 a ha).imp fun _ k => ⟨k.1, hrs _ _ k.2⟩, fun b hb => (h.2 b hb).imp fun _ k => ⟨k.1, hrs _ _ k.2⟩⟩

theorem OptRel.imp {α β : Type} {R S : α → β → Prop} (hrs : ∀ a b, R a b → S a b) {x : Option α} {y : Option β}
    (h : OptRel R x y) : OptRel S x y := by
  cases x <;> cases y <;> first | exact h | exact hrs _ _ h

theorem DnfRel.symmOutcome {x : Res (Option (@Dnf h₁))} {y : Res (Option (@Dnf h₂))} {m : ObjMap}
    (h : SameOutcome (OptRel (DnfFit ρ m)) x y) : SameOutcome (OptRel (DnfRel ρ)) x y := by
  match x, y, h with
  | .ok none, .ok none, _ => trivial
  | .ok (some d), .ok (some d'), h => exact h.1
  | .exc _, .exc _, h => exact h
  | .ub, .ub, _ => trivial
  | .fuel, .fuel, _ => trivial

/-- The map from types to objects knows only types of objects of the Pddl. -/
theorem Renamed.mapOk (hρ : ρ.Proper) {P : @Pddl h₁} {Q : @Pddl h₂} (h : Renamed ρ P Q) :
    MapOk (@Pddl.omap h₁ P) (@Pddl.objects h₁ P) := by
  refine ⟨(h.same hρ).nonEmpty, ?_⟩
  induction h with
  | make h _ =>
    obtain ⟨-, -, b3, b4, -⟩ := @Pddl.built h₁ _ _ _ _ h
    rw [b4, b3]
    exact (MapOk.create _).2
  | addObject hr h _ ih =>
    intro p hp
    unfold Pddl.addObject at h
    split at h
    · cases h
    · cases h
      obtain ⟨o, ho, ht⟩ := ih p hp
      exact ⟨o, List.mem_append_left _ ho, ht⟩
  | setInitial _ _ ih => exact ih

/-- Completing conjunctions: if every one of the first list can be completed, so can those of the second. -/
theorem consistentConjs_rename (hρ : ρ.Proper) {P : @Pddl h₁} {Q : @Pddl h₂} (h : SamePddl ρ P Q) (n : Nat) {d : @Dnf h₁}
    {d' : @Dnf h₂} (hd : List.Forall₂ (SamePartial ρ) d d') :
    SameOutcome (List.Forall₂ (SamePartial ρ)) (@Pddl.consistentConjs h₁ P n d) (@Pddl.consistentConjs h₂ Q n d') := by
  induction hd with
  | nil => exact .nil
  | cons hc _ ih =>
    simp only [Pddl.consistentConjs]
    refine (consistentStateP_rename hρ h n hc).bind ?_
    intro c c' hc'
    refine ih.bind ?_
    intro r r' hr
    exact .cons hc' hr

theorem consistentConjs_ok [StrHash] {P : Pddl} {n : Nat} : ∀ {d e : Dnf},
    P.consistentConjs n d = .ok e ↔ List.Forall₂ (fun c c' => P.consistentStateP n c = .ok c') d e
  | [], e => by
    simp only [Pddl.consistentConjs, Res.ok.injEq, List.forall₂_nil_left_iff]
    exact eq_comm
  | c :: d, e => by
    simp only [Pddl.consistentConjs, Res.bind_eq_ok, Res.pure_eq, Res.ok.injEq]
    constructor
    · rintro ⟨c', h1, r, h2, rfl⟩
      exact .cons h1 (consistentConjs_ok.1 h2)
    · intro h
      cases h with
      | cons h1 h2 => exact ⟨_, h1, _, consistentConjs_ok.2 h2, rfl⟩

theorem consistentConjs_perm [StrHash] {P : Pddl} {n : Nat} {d d' e : Dnf} (h : P.consistentConjs n d = .ok e) (hp : d.Perm d') :
    ∃ e', P.consistentConjs n d' = .ok e' ∧ e.Perm e' := by
  obtain ⟨e', h1, h2⟩ := List.perm_comp_forall₂ hp.symm (consistentConjs_ok.1 h)
  exact ⟨e', consistentConjs_ok.2 h1, h2.symm⟩

theorem consistentConjs_permRel (hρ : ρ.Proper) {P : @Pddl h₁} {Q : @Pddl h₂} (h : SamePddl ρ P Q) {n : Nat} {d : @Dnf h₁}
    {d' : @Dnf h₂} (hd : DnfRel ρ d d') : (∀ e, @Pddl.consistentConjs h₁ P n d = .ok e →
      ∃ e', @Pddl.consistentConjs h₂ Q n d' = .ok e' ∧ DnfRel ρ e e') ∧
    ∀ e', @Pddl.consistentConjs h₂ Q n d' = .ok e' → ∃ e, @Pddl.consistentConjs h₁ P n d = .ok e ∧ DnfRel ρ e e' := by
  obtain ⟨k, h1, h2⟩ := hd
  have hk := consistentConjs_rename hρ h n h1
  constructor
  · intro e he
    rw [he] at hk
    cases hq : @Pddl.consistentConjs h₂ Q n k with
    | ok f =>
      rw [hq] at hk
      obtain ⟨e', g1, g2⟩ := @consistentConjs_perm h₂ _ _ _ _ _ hq h2
      exact ⟨e', g1, f, hk, g2⟩
    | exc _ => rw [hq] at hk; exact hk.elim
    | ub => rw [hq] at hk; exact hk.elim
    | fuel => rw [hq] at hk; exact hk.elim
  · intro e' he'
    obtain ⟨f, g1, g2⟩ := @consistentConjs_perm h₂ _ _ _ _ _ he' h2.symm
    rw [g1] at hk
    cases hq : @Pddl.consistentConjs h₁ P n d with
    | ok e =>
      rw [hq] at hk
      exact ⟨e, rfl, f, hk, g2.symm⟩
    | exc _ => rw [hq] at hk; exact hk.elim
    | ub => rw [hq] at hk; exact hk.elim
    | fuel => rw [hq] at hk; exact hk.elim

variable (hρ : ρ.Proper) {P : @Pddl h₁} {Q : @Pddl h₂} (h : SamePddl ρ P Q) (hm : MapOk (@Pddl.omap h₁ P) (@Pddl.objects h₁ P))
include hρ h hm

omit hρ hm in
theorem ctx_rename : @Pddl.ctx h₂ Q = (@Pddl.ctx h₁ P).rename ρ := by
  unfold Pddl.ctx NfCtx.rename
  rw [h.objects, h.omap]
  rfl

theorem goalDnf_rename (g : Goal) (hg : g.EnoughArgs (@Pddl.objects h₁ P)) (params args : List Obj) :
    SameOutcome (OptRel (DnfRel ρ)) (@Goal.dnf h₁ (@Pddl.ctx h₁ P) g params args)
      (@Goal.dnf h₂ (@Pddl.ctx h₂ Q) (g.rename ρ) (params.map (Obj.rename ρ)) (args.map (Obj.rename ρ))) := by
  rw [ctx_rename h]
  exact DnfRel.symmOutcome (Goal.dnf_permRel hρ (c := @Pddl.ctx h₁ P) hm g params args hg)

theorem effDnf_rename (e : Eff) (he : e.EnoughArgs (@Pddl.objects h₁ P)) (params args : List Obj) :
    SameOutcome (OptRel (DnfRel ρ)) (@Eff.dnf h₁ (@Pddl.ctx h₁ P) e params args)
      (@Eff.dnf h₂ (@Pddl.ctx h₂ Q) (e.rename ρ) (params.map (Obj.rename ρ)) (args.map (Obj.rename ρ))) := by
  rw [ctx_rename h]
  exact DnfRel.symmOutcome (Eff.dnf_permRel hρ (c := @Pddl.ctx h₁ P) hm e params args he)

theorem normalizeGoal_rename (n : Nat) (hg : (@Pddl.tree h₁ P).goal.EnoughArgs (@Pddl.objects h₁ P)) :
    SameOutcome (OptRel (DnfRel ρ)) (@Pddl.normalizeGoal h₁ P n false) (@Pddl.normalizeGoal h₂ Q n false) := by
  unfold Pddl.normalizeGoal
  rw [h.tree]
  refine (goalDnf_rename hρ h hm (@Pddl.tree h₁ P).goal hg [] []).bind ?_
  intro d d' hd
  match d, d', hd with
  | none, none, _ => trivial
  | some d, some d', hd => exact hd

theorem normalizePre_rename (n : Nat) {c d : Name} (hc : SameCall ρ c d)
    (hg : ∀ op ∈ (@Pddl.tree h₁ P).ops, op.pre.EnoughArgs (@Pddl.objects h₁ P)) :
    SameOutcome (OptRel (DnfRel ρ)) (@Pddl.normalizePre h₁ P n c false) (@Pddl.normalizePre h₂ Q n d false) := by
  unfold Pddl.normalizePre
  refine ((parseAction_rename hρ h hc).with_left (p := fun x => x.1 ∈ (@Pddl.tree h₁ P).ops) fun x hx =>
    (@parseAction_ok h₁ P c x.1 x.2 hx).1).bind ?_
  rintro ⟨op, args⟩ _ ⟨rfl, hop⟩
  refine (goalDnf_rename hρ h hm op.pre (hg op hop) op.params args).bind ?_
  intro d d' hd
  match d, d', hd with
  | none, none, _ => trivial
  | some d, some d', hd => exact hd

theorem normalizePost_rename (n : Nat) {c d : Name} (hc : SameCall ρ c d)
    (hg : ∀ op ∈ (@Pddl.tree h₁ P).ops, op.eff.EnoughArgs (@Pddl.objects h₁ P)) :
    SameOutcome (OptRel (DnfRel ρ)) (@Pddl.normalizePost h₁ P n c false) (@Pddl.normalizePost h₂ Q n d false) := by
  unfold Pddl.normalizePost
  refine ((parseAction_rename hρ h hc).with_left (p := fun x => x.1 ∈ (@Pddl.tree h₁ P).ops) fun x hx =>
    (@parseAction_ok h₁ P c x.1 x.2 hx).1).bind ?_
  rintro ⟨op, args⟩ _ ⟨rfl, hop⟩
  refine (effDnf_rename hρ h hm op.eff (hg op hop) op.params args).bind ?_
  intro d d' hd
  match d, d', hd with
  | none, none, _ => trivial
  | some d, some d', hd => exact hd

theorem normalizeConditions_rename (n : Nat) {c d : Name} (hc : SameCall ρ c d)
    (hg : ∀ op ∈ (@Pddl.tree h₁ P).ops, op.pre.EnoughArgs (@Pddl.objects h₁ P) ∧ op.eff.EnoughArgs (@Pddl.objects h₁ P)) :
    SameOutcome (OptRel fun (x : @Dnf h₁ × @Dnf h₁) (y : @Dnf h₂ × @Dnf h₂) => DnfRel ρ x.1 y.1 ∧ DnfRel ρ x.2 y.2) (@Pddl.normalizeConditions h₁ P n c false)
      (@Pddl.normalizeConditions h₂ Q n d false) := by
  unfold Pddl.normalizeConditions
  refine ((parseAction_rename hρ h hc).with_left (p := fun x => x.1 ∈ (@Pddl.tree h₁ P).ops) fun x hx =>
    (@parseAction_ok h₁ P c x.1 x.2 hx).1).bind ?_
  rintro ⟨op, args⟩ _ ⟨rfl, hop⟩
  refine (goalDnf_rename hρ h hm op.pre (hg op hop).1 op.params args).bind ?_
  intro d d' hd
  match d, d', hd with
  | none, none, _ => trivial
  | some d, some d', hd =>
    refine (effDnf_rename hρ h hm op.eff (hg op hop).2 op.params args).bind ?_
    intro e e' he
    match e, e', he with
    | none, none, _ => trivial
    | some e, some e', he => exact ⟨hd, he⟩

/-! With axioms -/

omit hρ h hm in
theorem BothReturn.of_same {α β : Type} {R : α → β → Prop} {x : Res α} {y : Res β} (h : SameOutcome R x y) : BothReturn R x y := by
  constructor
  · rintro a rfl
    cases y with
    | ok b => exact ⟨b, rfl, h⟩
    | _ => exact h.elim
  · rintro b rfl
    cases x with
    | ok a => exact ⟨a, rfl, h⟩
    | _ => exact h.elim

omit hρ h hm in
theorem BothReturn.bind {α β γ δ : Type} {R : α → β → Prop} {S : γ → δ → Prop} {x : Res α} {y : Res β} {f : α → Res γ}
    {g : β → Res δ} (h : BothReturn R x y) (hf : ∀ a b, R a b → BothReturn S (f a) (g b)) :
    BothReturn S (x >>= f) (y >>= g) := by
  constructor
  · intro c hc
    obtain ⟨a, ha, hc⟩ := Res.bind_eq_ok.1 hc
    obtain ⟨b, hb, hab⟩ := h.1 a ha
    obtain ⟨d, hd, hcd⟩ := (hf a b hab).1 c hc
    exact ⟨d, Res.bind_eq_ok.2 ⟨b, hb, hd⟩, hcd⟩
  · intro d hd
    obtain ⟨b, hb, hd⟩ := Res.bind_eq_ok.1 hd
    obtain ⟨a, ha, hab⟩ := h.2 b hb
    obtain ⟨c, hc, hcd⟩ := (hf a b hab).2 d hd
    exact ⟨c, Res.bind_eq_ok.2 ⟨a, ha, hc⟩, hcd⟩

omit hm in
theorem completeDnf_rename (n : Nat) (b : Bool) {d : Option (@Dnf h₁)} {d' : Option (@Dnf h₂)} (hd : OptRel (DnfRel ρ) d d') :
    BothReturn (OptRel (DnfRel ρ)) (@Pddl.completeDnf h₁ P n b d) (@Pddl.completeDnf h₂ Q n b d') := by
  match d, d', hd with
  | none, none, _ => exact .of_same (x := .ok none) (y := .ok none) trivial
  | some d, some d', hd =>
    simp only [Pddl.completeDnf]
    split
    · refine BothReturn.bind (consistentConjs_permRel hρ h hd) ?_
      intro e e' he
      exact .of_same (x := .ok (some e)) (y := .ok (some e')) he
    · exact .of_same (x := .ok (some d)) (y := .ok (some d')) hd

omit hρ h hm in
theorem complete_false [StrHash] (P : Pddl) (n : Nat) (r : Option Dnf) : P.completeDnf n false r = .ok r := by
  cases r <;> rfl

omit hρ h hm in
theorem normalizeGoal_complete [StrHash] (P : Pddl) (n : Nat) (b : Bool) :
    P.normalizeGoal n b = P.normalizeGoal n false >>= P.completeDnf n b := by
  unfold Pddl.normalizeGoal
  cases P.tree.goal.dnf P.ctx [] [] <;> simp [complete_false]

omit hρ h hm in
theorem normalizePre_complete [StrHash] (P : Pddl) (n : Nat) (b : Bool) (call : Name) :
    P.normalizePre n call b = P.normalizePre n call false >>= P.completeDnf n b := by
  unfold Pddl.normalizePre
  cases P.parseAction call with
  | ok oa =>
    simp only [Res.bind_ok]
    cases oa.1.pre.dnf P.ctx oa.1.params oa.2 <;> simp [complete_false]
  | _ => rfl

omit hρ h hm in
theorem normalizePost_complete [StrHash] (P : Pddl) (n : Nat) (b : Bool) (call : Name) :
    P.normalizePost n call b = P.normalizePost n call false >>= P.completeDnf n b := by
  unfold Pddl.normalizePost
  cases P.parseAction call with
  | ok oa =>
    simp only [Res.bind_ok]
    cases oa.1.eff.dnf P.ctx oa.1.params oa.2 <;> simp [complete_false]
  | _ => rfl

/-- Completing both lists of a pair. -/
def completePair [StrHash] (P : Pddl) (n : Nat) (b : Bool) : Option (Dnf × Dnf) → Res (Option (Dnf × Dnf))
  | none => .ok none
  | some (pre, post) => if b then do
        let pre' ← P.consistentConjs n pre
        let post' ← P.consistentConjs n post
        pure (some (pre', post'))
      else pure (some (pre, post))

omit hρ h hm in
theorem normalizeConditions_complete [StrHash] (P : Pddl) (n : Nat) (b : Bool) (call : Name) :
    P.normalizeConditions n call b = P.normalizeConditions n call false >>= completePair P n b := by
  unfold Pddl.normalizeConditions
  cases P.parseAction call with
  | ok oa =>
    simp only [Res.bind_ok]
    cases oa.1.pre.dnf P.ctx oa.1.params oa.2 with
    | ok pre =>
      cases pre with
      | none => rfl
      | some pre =>
        simp only [Res.bind_ok]
        cases oa.1.eff.dnf P.ctx oa.1.params oa.2 with
        | ok post =>
          cases post with
          | none => rfl
          | some post => rfl
        | _ => rfl
    | _ => rfl
  | _ => rfl

omit hm in
theorem completePair_rename (n : Nat) (b : Bool) {x : Option (@Dnf h₁ × @Dnf h₁)} {y : Option (@Dnf h₂ × @Dnf h₂)}
    (hxy : OptRel (fun (x : @Dnf h₁ × @Dnf h₁) (y : @Dnf h₂ × @Dnf h₂) => DnfRel ρ x.1 y.1 ∧ DnfRel ρ x.2 y.2) x y) :
    BothReturn (OptRel fun (x : @Dnf h₁ × @Dnf h₁) (y : @Dnf h₂ × @Dnf h₂) => DnfRel ρ x.1 y.1 ∧ DnfRel ρ x.2 y.2)
      (@completePair h₁ P n b x) (@completePair h₂ Q n b y) := by
  match x, y, hxy with
  | none, none, _ => exact .of_same (x := .ok none) (y := .ok none) trivial
  | some (d, e), some (d', e'), hd =>
    simp only [completePair]
    split
    · refine BothReturn.bind (consistentConjs_permRel hρ h hd.1) ?_
      intro k k' hk
      refine BothReturn.bind (consistentConjs_permRel hρ h hd.2) ?_
      intro l l' hl
      exact .of_same (x := .ok (some (k, l))) (y := .ok (some (k', l'))) ⟨hk, hl⟩
    · exact .of_same (x := .ok (some (d, e))) (y := .ok (some (d', e'))) hd

end

end Symbolic
