import Verif.Lemmas.RenamePddl
import Verif.Lemmas.Accept

/-!
Normal forms of literals and of unconditional effects, and the constructor of Pddl, under a renaming.
-/

namespace Symbolic

/-- The context of normal forms with other names. -/
def NfCtx.rename (ρ : Renaming) (c : NfCtx) : NfCtx :=
  ⟨c.objects.map (Obj.rename ρ), c.omap.rename ρ, c.vars.map (Obj.rename ρ)⟩

theorem find_rename {ρ : Renaming} (hρ : ρ.Proper) (n : Name) : ∀ l : List Obj,
    (l.map (Obj.rename ρ)).find? (fun o => decide (o.name = ρ.obj n)) =
      (l.find? (fun o => decide (o.name = n))).map (Obj.rename ρ)
  | [] => rfl
  | o :: l => by
    simp only [List.map_cons, List.find?_cons]
    by_cases h : o.name = n
    · simp [h, Obj.rename]
    · have h' : ¬ (o.rename ρ).name = ρ.obj n := fun e => h (hρ.obj _ _ e)
      simp only [h, h', decide_false]
      exact find_rename hρ n l

section
variable {ρ : Renaming} (hρ : ρ.Proper)
include hρ

theorem NfCtx.objOf_rename (c : NfCtx) (n : Name) : (c.rename ρ).objOf (ρ.obj n) = (c.objOf n).rename ρ := by
  simp only [NfCtx.objOf, NfCtx.rename, ← List.map_append, find_rename hρ]
  cases h : (c.vars ++ c.objects).find? (fun o => decide (o.name = n)) <;> simp [Obj.rename]

theorem NfCtx.isVar_rename (c : NfCtx) (n : Name) : (c.rename ρ).isVar (ρ.obj n) = c.isVar n := by
  simp only [NfCtx.isVar, NfCtx.rename, List.any_map]
  congr 1
  funext o
  simp only [Function.comp, Obj.rename]
  by_cases h : o.name = n
  · simp [h]
  · have h' : ¬ ρ.obj o.name = ρ.obj n := fun e => h (hρ.obj _ _ e)
    simp only [h, h']

theorem evaluateEquals_rename (c : NfCtx) (a : Atom) : evaluateEquals (c.rename ρ) (a.rename ρ) = evaluateEquals c a := by
  unfold evaluateEquals
  have h : (a.rename ρ).pred ≠ n!"=" ↔ a.pred ≠ n!"=" := not_congr ⟨fun e => hρ.pred _ _ (e.trans hρ.eq.symm),
    fun e => by simp only [Atom.rename, e, hρ.eq]⟩
  by_cases he : a.pred ≠ n!"="
  · rw [if_pos he, if_pos (h.2 he)]
  · rw [if_neg he, if_neg (fun x => he (h.1 x))]
    symm
    refine (SameOutcome.index ρ.obj a.args 0).bind_eq ?_
    rintro x _ rfl
    refine (SameOutcome.index ρ.obj a.args 1).bind_eq ?_
    rintro y _ rfl
    have : (ρ.obj x = ρ.obj y) ↔ x = y := ⟨hρ.obj _ _, fun e => by rw [e]⟩
    simp only [NfCtx.isVar_rename hρ, ne_eq, this]

theorem evaluateType_rename (c : NfCtx) (a : Atom) : evaluateType (c.rename ρ) (a.rename ρ) = evaluateType c a := by
  unfold evaluateType
  have : (c.rename ρ).omap.has (a.rename ρ).pred = c.omap.has a.pred := ObjMap.has_rename hρ c.omap a.pred
  rw [this]
  split
  · rfl
  · symm
    refine (SameOutcome.index ρ.obj a.args 0).bind_eq ?_
    rintro x _ rfl
    rw [NfCtx.objOf_rename hρ]
    have := Obj.isSubtype_rename hρ (c.objOf x) a.pred
    simp only [Atom.rename, this]

variable {h₁ h₂ : StrHash}

theorem SameState.elems_perm {s : @State h₁} {t : @State h₂} (h : SameState ρ s t) :
    (@State.elems h₂ t).Perm ((@State.elems h₁ s).map (Atom.rename ρ)) := by
  refine (List.perm_ext_iff_of_nodup (@State.elems_nodup h₂ t) ?_).2 ?_
  · exact (@State.elems_nodup h₁ s).map (fun _ _ e => Atom.rename_inj hρ e)
  · intro b
    have h2 : b ∈ @State.elems h₂ t ↔ t.Has b := @State.mem_elems h₂ t b
    have h1 : ∀ a, a ∈ @State.elems h₁ s ↔ s.Has a := fun a => @State.mem_elems h₁ s a
    rw [h2, h b, List.mem_map]
    constructor
    · rintro ⟨a, ha, rfl⟩; exact ⟨a, (h1 a).2 ha, rfl⟩
    · rintro ⟨a, ha, rfl⟩; exact ⟨a, (h1 a).1 ha, rfl⟩

theorem SameState.size {s : @State h₁} {t : @State h₂} (h : SameState ρ s t) : @State.size h₂ t = @State.size h₁ s := by
  rw [@State.size_eq h₂, @State.size_eq h₁, (h.elems_perm hρ).length_eq, List.length_map]

theorem SameState.isEmpty {s : @State h₁} {t : @State h₂} (h : SameState ρ s t) :
    @State.isEmpty h₂ t = @State.isEmpty h₁ s := by
  simp only [State.isEmpty, h.size hρ]

theorem SameState.single {s : @State h₁} {t : @State h₂} (h : SameState ρ s t) (h1 : @State.size h₁ s = 1) :
    ∃ a, @State.elems h₁ s = [a] ∧ @State.elems h₂ t = [a.rename ρ] := by
  rw [@State.size_eq h₁] at h1
  obtain ⟨a, ha⟩ := List.length_eq_one_iff.1 h1
  refine ⟨a, ha, ?_⟩
  have := h.elems_perm hρ
  rw [ha] at this
  exact List.perm_singleton.1 this

theorem SamePartial.size {p : @PartialState h₁} {q : @PartialState h₂} (h : SamePartial ρ p q) :
    @PartialState.size h₂ q = @PartialState.size h₁ p := by
  simp only [PartialState.size, h.1.size hρ, h.2.size hρ]

theorem evaluateSingle_rename {f g : Atom → Res (Option Bool)} (hf : ∀ a, g (a.rename ρ) = f a) {p : @PartialState h₁}
    {q : @PartialState h₂} (h : SamePartial ρ p q) (h1 : @PartialState.size h₁ p = 1) :
    @evaluateSingle h₂ g q = @evaluateSingle h₁ f p := by
  unfold evaluateSingle
  rw [h.2.isEmpty hρ]
  have hn : @State.isEmpty h₁ (@PartialState.neg h₁ p) = (@State.size h₁ (@PartialState.neg h₁ p) == 0) := rfl
  simp only [PartialState.size] at h1
  by_cases hz : @State.size h₁ (@PartialState.neg h₁ p) = 0
  · rw [hn, hz]
    simp only [BEq.rfl, if_true]
    obtain ⟨a, ha, hb⟩ := h.1.single hρ (by omega)
    rw [ha, hb]
    simp [Res.index, hf]
  · have : (@State.size h₁ (@PartialState.neg h₁ p) == 0) = false := by simpa using hz
    rw [hn, this]
    simp only [Bool.false_eq_true, if_false]
    obtain ⟨a, ha, hb⟩ := h.2.single hρ (by omega)
    rw [ha, hb]
    simp [Res.index, hf]

theorem SamePartial.isConsistent {p : @PartialState h₁} {q : @PartialState h₂} (h : SamePartial ρ p q) :
    @PartialState.isConsistent h₂ q = @PartialState.isConsistent h₁ p := by
  unfold PartialState.isConsistent
  rw [Bool.eq_iff_iff, List.all_eq_true, List.all_eq_true]
  have hp := h.1.elems_perm hρ
  constructor
  · intro hh a ha
    have := hh (a.rename ρ) (hp.mem_iff.2 (List.mem_map.2 ⟨a, ha, rfl⟩))
    rwa [h.2.contains hρ] at this
  · intro hh b hb
    obtain ⟨a, ha, rfl⟩ := List.mem_map.1 (hp.mem_iff.1 hb)
    rw [h.2.contains hρ]
    exact hh a ha

theorem evaluateConj_rename (c : NfCtx) {p : @PartialState h₁} {q : @PartialState h₂} (h : SamePartial ρ p q) :
    @evaluateConj h₂ (c.rename ρ) q = @evaluateConj h₁ c p := by
  unfold evaluateConj
  rw [h.size hρ, h.isConsistent hρ]
  by_cases h1 : @PartialState.size h₁ p = 1
  · simp only [if_pos h1, evaluateSingle_rename hρ (evaluateEquals_rename hρ c) h h1,
      evaluateSingle_rename hρ (evaluateType_rename hρ c) h h1]
  · simp only [if_neg h1]

/-- At most one conjunction, and the same one. -/
def SameShort (ρ : Renaming) {h₁ h₂ : StrHash} (d : @Dnf h₁) (d' : @Dnf h₂) : Prop :=
  (d = [] ∧ d' = []) ∨ ∃ p q, d = [p] ∧ d' = [q] ∧ SamePartial ρ p q

theorem simplify_single_rename (c : NfCtx) {p : @PartialState h₁} {q : @PartialState h₂} (h : SamePartial ρ p q) :
    SameOutcome (OptRel (SameShort ρ)) (@simplify h₁ c [p]) (@simplify h₂ (c.rename ρ) [q]) := by
  unfold simplify
  simp only [List.cons_ne_nil, if_false, simplifyLoop, evaluateConj_rename hρ c h]
  cases he : @evaluateConj h₁ c p with
  | ok v =>
    simp only [Res.bind_ok]
    match v with
    | none =>
      simp [tryInsertSubset, sortUnique, sortList, sortInsert, uniqueList, SameOutcome, OptRel]
      exact .inr ⟨p, q, rfl, rfl, h⟩
    | some true => simp [SameOutcome, OptRel, SameShort]
    | some false => simp [SameOutcome, OptRel]
  | exc e => rfl
  | ub => trivial
  | fuel => trivial

omit hρ in
theorem SamePartial.union : ∀ {ps : List (@PartialState h₁)} {qs : List (@PartialState h₂)},
    List.Forall₂ (SamePartial ρ) ps qs → SamePartial ρ (@unionConj h₁ ps) (@unionConj h₂ qs) := by
  intro ps qs h
  have l2r : ∀ p ∈ ps, ∃ q ∈ qs, SamePartial ρ p q := by
    intro p hp
    induction h with
    | nil => simp at hp
    | cons h1 _ ih =>
      rcases List.mem_cons.1 hp with rfl | hp
      · exact ⟨_, by simp, h1⟩
      · obtain ⟨q, hq, hh⟩ := ih hp
        exact ⟨q, by simp [hq], hh⟩
  have r2l : ∀ q ∈ qs, ∃ p ∈ ps, SamePartial ρ p q := by
    clear l2r
    intro q hq
    induction h with
    | nil => simp at hq
    | cons h1 _ ih =>
      rcases List.mem_cons.1 hq with rfl | hq
      · exact ⟨_, by simp, h1⟩
      · obtain ⟨p, hp, hh⟩ := ih hq
        exact ⟨p, by simp [hp], hh⟩
  have u1 := fun a => @mem_unionConj h₁ ps a
  have u2 := fun a => @mem_unionConj h₂ qs a
  constructor
  · intro b
    have e2 : State.Has (@PartialState.pos h₂ (@unionConj h₂ qs)) b ↔ ∃ q ∈ qs, State.Has (@PartialState.pos h₂ q) b := (u2 b).1
    have e1 : ∀ a, State.Has (@PartialState.pos h₁ (@unionConj h₁ ps)) a ↔ ∃ p ∈ ps, State.Has (@PartialState.pos h₁ p) a :=
      fun a => (u1 a).1
    rw [e2]
    constructor
    · rintro ⟨q, hq, hb⟩
      obtain ⟨p, hp, hh⟩ := r2l q hq
      obtain ⟨a, ha, rfl⟩ := (hh.1 b).1 hb
      exact ⟨a, (e1 a).2 ⟨p, hp, ha⟩, rfl⟩
    · rintro ⟨a, ha, rfl⟩
      obtain ⟨p, hp, ha⟩ := (e1 a).1 ha
      obtain ⟨q, hq, hh⟩ := l2r p hp
      exact ⟨q, hq, (hh.1 _).2 ⟨a, ha, rfl⟩⟩
  · intro b
    have e2 : State.Has (@PartialState.neg h₂ (@unionConj h₂ qs)) b ↔ ∃ q ∈ qs, State.Has (@PartialState.neg h₂ q) b := (u2 b).2
    have e1 : ∀ a, State.Has (@PartialState.neg h₁ (@unionConj h₁ ps)) a ↔ ∃ p ∈ ps, State.Has (@PartialState.neg h₁ p) a :=
      fun a => (u1 a).2
    rw [e2]
    constructor
    · rintro ⟨q, hq, hb⟩
      obtain ⟨p, hp, hh⟩ := r2l q hq
      obtain ⟨a, ha, rfl⟩ := (hh.2 b).1 hb
      exact ⟨a, (e1 a).2 ⟨p, hp, ha⟩, rfl⟩
    · rintro ⟨a, ha, rfl⟩
      obtain ⟨p, hp, ha⟩ := (e1 a).1 ha
      obtain ⟨q, hq, hh⟩ := l2r p hp
      exact ⟨q, hq, (hh.2 _).2 ⟨a, ha, rfl⟩⟩

omit hρ in
/-- Conjoining at most one conjunction each. -/
theorem conjoin_single [StrHash] (c : NfCtx) (qs : List PartialState) :
    conjoin c (qs.map fun q => [q]) = if qs = [] then .ok (some []) else simplify c [unionConj qs] := by
  unfold conjoin
  have hf : (qs.map fun q => [q]).filter (fun d => decide (d ≠ [])) = qs.map fun q => [q] := by
    rw [List.filter_eq_self]; simp
  have hctor : Comb.ctor (qs.map fun q => [q]) = .ok (qs.map fun q => [q]) := by
    unfold Comb.ctor
    rw [if_neg]
    simp
  rw [hf, hctor]
  simp only [Res.bind_ok, comb_forward_ok PartialState.empty (options := qs.map fun q => [q]) (by simp)]
  by_cases h : qs = []
  · subst h; rfl
  · have hc : cartesian (qs.map fun q => [q]) = [qs] := by
      clear h hf hctor
      induction qs with
      | nil => rfl
      | cons q qs ih => simp [cartesian, ih]
    rw [if_neg (by simpa using h), if_neg h, hc]
    rfl

omit hρ in
theorem conjoin_drop [StrHash] (c : NfCtx) (ds : List Dnf) :
    conjoin c ds = conjoin c (ds.filter (fun d => decide (d ≠ []))) := by
  unfold conjoin
  simp [List.filter_filter]

theorem conjoin_rename (c : NfCtx) {ds : List (@Dnf h₁)} {ds' : List (@Dnf h₂)} (h : List.Forall₂ (SameShort ρ) ds ds') :
    SameOutcome (OptRel (SameShort ρ)) (@conjoin h₁ c ds) (@conjoin h₂ (c.rename ρ) ds') := by
  obtain ⟨ps, qs, h1, h2, h3⟩ : ∃ (ps : List (@PartialState h₁)) (qs : List (@PartialState h₂)),
      ds.filter (fun d => decide (d ≠ [])) = ps.map (fun q => [q]) ∧
        ds'.filter (fun d => decide (d ≠ [])) = qs.map (fun q => [q]) ∧ List.Forall₂ (SamePartial ρ) ps qs := by
    induction h with
    | nil => exact ⟨[], [], rfl, rfl, .nil⟩
    | @cons d d' ds ds' hd _ ih =>
      obtain ⟨ps, qs, h1, h2, h3⟩ := ih
      rcases hd with ⟨rfl, rfl⟩ | ⟨p, q, rfl, rfl, hh⟩
      · exact ⟨ps, qs, by simpa using h1, by simpa using h2, h3⟩
      · exact ⟨p :: ps, q :: qs, by simpa using h1, by simpa using h2, .cons hh h3⟩
  rw [@conjoin_drop h₁ c ds, @conjoin_drop h₂ _ ds', h1, h2, @conjoin_single h₁, @conjoin_single h₂]
  cases h3 with
  | nil => simp [SameOutcome, OptRel, SameShort]
  | cons ha hb =>
    simp only [List.cons_ne_nil, if_false]
    exact simplify_single_rename hρ c (SamePartial.union (.cons ha hb))

theorem dnfAtom_rename (params : List Obj) (p : Name) (ts : List Term) (args : List Obj) :
    SameOutcome (fun a b => b = a.rename ρ) (dnfAtom params p ts args)
      (dnfAtom (params.map (Obj.rename ρ)) (ρ.pred p) (ts.map (Term.rename ρ)) (args.map (Obj.rename ρ))) := by
  unfold dnfAtom
  refine (applyFn_rename hρ params ts args).bind ?_
  rintro os _ rfl
  exact ofObjs_rename ρ p os

/-- Negating a single atom. -/
theorem negate_atom_rename (c : NfCtx) (a : Atom) : SameOutcome (OptRel (SameShort ρ))
    (@negateDnf h₁ c [@PartialState.mk h₁ (@State.ofList h₁ [a]) (@State.empty h₁)])
    (@negateDnf h₂ (c.rename ρ) [@PartialState.mk h₂ (@State.ofList h₂ [a.rename ρ]) (@State.empty h₂)]) := by
  obtain ⟨p, p1, p2, p3⟩ := @negateDnf_single h₁ c a
  obtain ⟨q, q1, q2, q3⟩ := @negateDnf_single h₂ (c.rename ρ) (a.rename ρ)
  rw [p3, q3]
  refine simplify_single_rename hρ c ⟨?_, ?_⟩
  · intro b
    exact ⟨fun hh => absurd hh (q1 b), fun ⟨x, hx, _⟩ => absurd hx (p1 x)⟩
  · intro b
    refine (q2 b).trans ⟨?_, ?_⟩
    · rintro rfl; exact ⟨a, (p2 a).2 rfl, rfl⟩
    · rintro ⟨x, hx, rfl⟩
      rw [(p2 x).1 hx]

/-- The normal form of a literal. -/
theorem literal_dnf_rename (c : NfCtx) {g : Goal} {x : Bool × Name × List Obj} (hg : contextOf g = .ok x)
    (params args : List Obj) : SameOutcome (OptRel (SameShort ρ)) (@Goal.dnf h₁ c g params args)
      (@Goal.dnf h₂ (c.rename ρ) (g.rename ρ) (params.map (Obj.rename ρ)) (args.map (Obj.rename ρ))) := by
  unfold contextOf at hg
  split at hg
  · rename_i p ts
    simp only [Goal.rename, Goal.dnf]
    refine (dnfAtom_rename hρ params p ts args).bind ?_
    rintro a _ rfl
    have := SameState.ofList (h₁ := h₁) (h₂ := h₂) ρ [a]
    exact .inr ⟨_, _, rfl, rfl, this, SameState.empty ρ⟩
  · rename_i p ts
    simp only [Goal.rename, Goal.dnf]
    refine SameOutcome.bind (R := fun d d' => ∃ a : Atom,
      d = some [@PartialState.mk h₁ (@State.ofList h₁ [a]) (@State.empty h₁)] ∧
        d' = some [@PartialState.mk h₂ (@State.ofList h₂ [a.rename ρ]) (@State.empty h₂)]) ?_ ?_
    · refine (dnfAtom_rename hρ params p ts args).bind ?_
      rintro a _ rfl
      exact ⟨a, rfl, rfl⟩
    · rintro _ _ ⟨a, rfl, rfl⟩
      exact negate_atom_rename hρ c a
  · cases hg

omit hρ in
theorem prepareLoop_rename {R : @Dnf h₁ → @Dnf h₂ → Prop} (c : NfCtx) {g : Goal} (params : List Obj)
    (hd : ∀ as, SameOutcome (OptRel R) (@Goal.dnf h₁ c g params as)
      (@Goal.dnf h₂ (c.rename ρ) (g.rename ρ) (params.map (Obj.rename ρ)) (as.map (Obj.rename ρ)))) :
    ∀ l : List (List Obj), SameOutcome (fun k k' => k' = k.map (List.map (Obj.rename ρ))) (@prepareLoop h₁ c g params l)
      (@prepareLoop h₂ (c.rename ρ) (g.rename ρ) (params.map (Obj.rename ρ)) (l.map (List.map (Obj.rename ρ))))
  | [] => rfl
  | as :: rest => by
    simp only [List.map_cons, prepareLoop]
    refine (hd as).bind ?_
    intro d d' hd'
    refine (prepareLoop_rename c params hd rest).bind ?_
    rintro r _ rfl
    match d, d', hd' with
    | none, none, _ => rfl
    | some _, some _, _ => rfl

omit hρ in
theorem dnfLoop_rename {R : @Dnf h₁ → @Dnf h₂ → Prop} {f : List Obj → Res (Option (@Dnf h₁))}
    {g : List Obj → Res (Option (@Dnf h₂))} {k : List Obj → List Obj} (b : Bool)
    (hf : ∀ os, SameOutcome (OptRel R) (f os) (g (k os))) : ∀ l : List (List Obj),
    SameOutcome (OptRel (List.Forall₂ R)) (@dnfLoop h₁ b f l) (@dnfLoop h₂ b g (l.map k))
  | [] => .nil
  | os :: rest => by
    simp only [List.map_cons, dnfLoop]
    refine (hf os).bind ?_
    intro d d' hd
    match d, d', hd with
    | none, none, _ =>
      simp only
      split
      · trivial
      · exact dnfLoop_rename b hf rest
    | some d, some d', hd =>
      simp only
      refine (dnfLoop_rename b hf rest).bind ?_
      intro r r' hr
      match r, r', hr with
      | none, none, _ => trivial
      | some r, some r', hr => exact .cons hd hr

theorem dnfSimple_rename (params args : List Obj) : ∀ (l : List (Name × List Term)) {s : @State h₁} {t : @State h₂},
    SameState ρ s t → SameOutcome (SameState ρ) (@dnfSimple h₁ params args l s)
      (@dnfSimple h₂ (params.map (Obj.rename ρ)) (args.map (Obj.rename ρ)) (l.map (renameEffect ρ)) t)
  | [], s, t, h => h
  | (p, ts) :: rest, s, t, h => by
    simp only [List.map_cons, renameEffect, dnfSimple]
    refine (dnfAtom_rename hρ params p ts args).bind ?_
    rintro a _ rfl
    exact dnfSimple_rename params args rest (h.insert hρ a).2

set_option linter.unusedSectionVars false in
mutual
/-- The normal form of an effect without conditions. -/
theorem Eff.dnf_rename {c : NfCtx} (hm : c.omap.NonEmpty) : ∀ (e : Eff) (params args : List Obj), e.NoCond →
    SameOutcome (OptRel (SameShort ρ)) (@Eff.dnf h₁ c e params args)
      (@Eff.dnf h₂ (c.rename ρ) (e.rename ρ) (params.map (Obj.rename ρ)) (args.map (Obj.rename ρ)))
  | .mk fs adds dels cs, params, args, hnc => by
    obtain ⟨hfs, rfl⟩ := hnc
    simp only [Eff.rename, CList.rename, Eff.dnf, CList.dnf]
    refine (FList.dnf_rename hm fs params args hfs).bind ?_
    intro ds ds' hds
    match ds, ds', hds with
    | none, none, _ => trivial
    | some ds, some ds', hds =>
      simp only
      refine (dnfSimple_rename hρ params args adds (SameState.empty ρ)).bind ?_
      intro pos pos' hpos
      refine (dnfSimple_rename hρ params args dels (SameState.empty ρ)).bind ?_
      intro neg neg' hneg
      simp only [Res.bind_ok, List.append_nil, hpos.isEmpty hρ, hneg.isEmpty hρ]
      split
      · exact conjoin_rename hρ c (List.rel_append hds (.cons (.inr ⟨_, _, rfl, rfl, hpos, hneg⟩) .nil))
      · exact conjoin_rename hρ c hds
theorem FList.dnf_rename {c : NfCtx} (hm : c.omap.NonEmpty) : ∀ (fs : FList) (params args : List Obj), fs.NoCond →
    SameOutcome (OptRel (List.Forall₂ (SameShort ρ))) (@FList.dnf h₁ c fs params args)
      (@FList.dnf h₂ (c.rename ρ) (fs.rename ρ) (params.map (Obj.rename ρ)) (args.map (Obj.rename ρ)))
  | .nil, params, args, _ => .nil
  | .cons vars e rest, params, args, hnc => by
    simp only [FList.rename, FList.dnf]
    have hg := genLoop_rename ρ (paramTypes_ne hm vars)
    rw [← paramTypes_rename hρ] at hg
    refine hg.bind ?_
    rintro l _ rfl
    have hl := dnfLoop_rename (h₁ := h₁) (h₂ := h₂) (R := SameShort ρ) (k := List.map (Obj.rename ρ)) true
      (f := fun os => @Eff.dnf h₁ c e (params ++ vars) (args ++ os))
      (g := fun os => @Eff.dnf h₂ (c.rename ρ) (e.rename ρ) (params.map (Obj.rename ρ) ++ vars.map (Obj.rename ρ))
        (args.map (Obj.rename ρ) ++ os))
      (fun os => by
        have := Eff.dnf_rename hm e (params ++ vars) (args ++ os) hnc.1
        simpa only [List.map_append] using this) l
    refine hl.bind ?_
    intro ds ds' hds
    match ds, ds', hds with
    | none, none, _ => trivial
    | some ds, some ds', hds =>
      simp only
      refine (FList.dnf_rename hm rest params args hnc.2).bind ?_
      intro r r' hr
      match r, r', hr with
      | none, none, _ => trivial
      | some r, some r', hr => exact List.rel_append hds hr
end

omit hρ in
theorem printed_rename {x : Res (Option (@Dnf h₁))} {y : Res (Option (@Dnf h₂))} {R : @Dnf h₁ → @Dnf h₂ → Prop}
    (h : SameOutcome (OptRel R) x y) : @printed h₂ y = @printed h₁ x := by
  match x, y, h with
  | .ok none, .ok none, _ => rfl
  | .ok (some _), .ok (some _), _ => rfl
  | .exc _, .exc _, _ => rfl
  | .ub, .ub, _ => rfl
  | .fuel, .fuel, _ => rfl

/-! ## Axioms -/

omit hρ in
theorem contextOf_rename (g : Goal) : SameOutcome
    (fun x y => y = (x.1, ρ.pred x.2.1, x.2.2.map (Obj.rename ρ))) (contextOf g) (contextOf (g.rename ρ)) := by
  match g with
  | .atom p ts => simp only [Goal.rename, contextOf, SameOutcome, map_term_rename]
  | .neg (.atom p ts) => simp only [Goal.rename, contextOf, SameOutcome, map_term_rename]
  | .conj _ => rfl
  | .disj _ => rfl
  | .all _ _ => rfl
  | .ex _ _ => rfl
  | .other => rfl
  | .neg (.neg _) => rfl
  | .neg (.conj _) => rfl
  | .neg (.disj _) => rfl
  | .neg (.all _ _) => rfl
  | .neg (.ex _ _) => rfl
  | .neg .other => rfl

/-- Without the condition on effects: if both axioms are constructed. -/
theorem Ax.make_rename_ok {c : NfCtx} (hm : c.omap.NonEmpty) {axs axs' : List Ax} {op : Op} {ax ax' : Ax}
    (h : @Ax.make h₁ c axs op = .ok ax) (h' : @Ax.make h₂ (c.rename ρ) axs' (op.rename ρ) = .ok ax') : ax' = ax.rename ρ := by
  obtain ⟨-, e1, e2, tuples, e3, e4⟩ := @Ax.make_ok h₁ _ _ _ _ h
  obtain ⟨-, g1, g2, tuples', g3, g4⟩ := @Ax.make_ok h₂ _ _ _ _ h'
  have k1 := contextOf_rename (ρ := ρ) op.pre
  rw [e2] at k1
  have e : (op.rename ρ).pre = op.pre.rename ρ := rfl
  rw [← e, g2] at k1
  have hg := genLoop_rename ρ (paramTypes_ne hm op.params)
  rw [← paramTypes_rename hρ, e3] at hg
  have e : (op.rename ρ).params = op.params.map (Obj.rename ρ) := rfl
  have e' : (c.rename ρ).omap = c.omap.rename ρ := rfl
  rw [← e, ← e', g3] at hg
  have k2 := prepareLoop_rename (h₁ := h₁) (h₂ := h₂) c op.params (literal_dnf_rename hρ c e2 op.params) tuples
  rw [e4] at k2
  have hg : tuples' = tuples.map (List.map (Obj.rename ρ)) := hg
  rw [hg] at g4
  have e : (op.rename ρ).pre = op.pre.rename ρ := rfl
  have e'' : (op.rename ρ).params = op.params.map (Obj.rename ρ) := rfl
  rw [e, e''] at g4
  rw [g4] at k2
  simp only [SameOutcome, Prod.mk.injEq] at k1 k2
  obtain ⟨k3, k4, k5⟩ := k1
  cases ax; cases ax'
  simp only [Ax.rename] at *
  simp only [Ax.mk.injEq]
  exact ⟨by rw [g1, e1], k3, k4, k5, k2⟩

end

end Symbolic
