import Verif.Spec.TypeChecked
import Verif.Lemmas.PartialAxiom
import Verif.Lemmas.Derived
import Verif.Lemmas.Construct

/-!
# States keep to the declared atoms
-/

namespace Symbolic

section
variable {σ : Type} [StateLike σ]

/-- An invariant of states kept by operations on atoms that respect the signature. -/
structure KeepsTyped (objects : List Obj) (sig : Name → List Name) (G : σ → Prop) : Prop where
  insert : ∀ s pred os, Respects objects (sig pred) os → G s → G (StateLike.insert s (Atom.ofObjs pred os)).2
  erase : ∀ s pred os, Respects objects (sig pred) os → G s → G (StateLike.erase s (Atom.ofObjs pred os)).2

def FireTyped (objects : List Obj) (sig : Name → List Name) (G : σ → Prop) (fire : Fire σ) : Prop :=
  ∀ sign pred (ts : List Term) params args s s', params.length = args.length → (params.map Obj.name).Nodup →
    (∀ t ∈ ts, t.Scoped (params.map Obj.name)) → pred ≠ n!"=" → ¬ IsType objects pred →
    Respects objects (sig pred) (ts.map (Term.value params args)) → G s →
    fire sign pred params (ts.map Term.obj) args s = .ok s' → G s'

variable {objects : List Obj} {sig : Name → List Name} {G : σ → Prop} {fire : Fire σ}

theorem applySimple_typed (hG : KeepsTyped objects sig G) (hf : FireTyped objects sig G fire) {sign : Bool} {pred : Name}
    {ts : List Term} {params args : List Obj} {s : σ} {r : Nat × σ} (hlen : params.length = args.length)
    (hnd : (params.map Obj.name).Nodup) (hwf : Goal.WF objects (params.map Obj.name) (.atom pred ts))
    (hty : pred ≠ n!"=" → ¬ IsType objects pred → ∀ os, List.Forall₂ (Denotes (Env.none.bind params args)) ts os →
      Respects objects (sig pred) os)
    (hs : G s) (h : applySimple (ObjMap.create objects) fire sign pred ts params args s = .ok r) : G r.2 := by
  simp only [applySimple, applyFn_terms params args ts (Nat.le_of_eq hlen), Res.bind_ok] at h
  cases hk : atomKind (ObjMap.create objects) pred <;> simp only [hk, Res.bind_eq_ok] at h
  · obtain ⟨a, -, b, -, h⟩ := h
    split at h
    · simp only [Res.pure_eq, Res.ok.injEq] at h; subst h; exact hs
    · simp at h
  · obtain ⟨a, -, h⟩ := h
    split at h
    · simp only [Res.pure_eq, Res.ok.injEq] at h; subst h; exact hs
    · simp at h
  · obtain ⟨ne, nt⟩ := (atomKind_create objects pred).2.2.1 hk
    have hr := hty ne nt _ ((forall₂_denotes hlen hwf.1 _).2 rfl)
    cases sign
    · simp only [Bool.false_eq_true, if_false] at h
      split at h
      · simp only [Res.pure_eq, Res.ok.injEq] at h
        rw [← h]; exact hG.erase s _ _ hr hs
      · simp only [Res.bind_eq_ok, Res.pure_eq, Res.ok.injEq] at h
        obtain ⟨s', h1, h2⟩ := h
        rw [← h2]; exact hf _ _ _ _ _ _ _ hlen hnd hwf.1 ne nt hr (hG.erase s _ _ hr hs) h1
    · simp only [if_true] at h
      split at h
      · simp only [Res.pure_eq, Res.ok.injEq] at h
        rw [← h]; exact hG.insert s _ _ hr hs
      · simp only [Res.bind_eq_ok, Res.pure_eq, Res.ok.injEq] at h
        obtain ⟨s', h1, h2⟩ := h
        rw [← h2]; exact hf _ _ _ _ _ _ _ hlen hnd hwf.1 ne nt hr (hG.insert s _ _ hr hs) h1

theorem applySimples_typed (hG : KeepsTyped objects sig G) (hf : FireTyped objects sig G fire) {sign : Bool}
    {params args : List Obj} (hlen : params.length = args.length) (hnd : (params.map Obj.name).Nodup) :
    ∀ {l : List (Name × List Term)} {s : σ} {r : Nat × σ}, AtomLits objects (params.map Obj.name) l →
    LitsTyped objects sig (Env.none.bind params args) l → G s →
    applySimples (ObjMap.create objects) fire sign params args l s = .ok r → G r.2
  | [], s, r, _, _, hs, h => by simp only [applySimples, Res.ok.injEq] at h; subst h; exact hs
  | (pred, ts) :: l, s, r, hl, ht, hs, h => by
    simp only [applySimples, Res.bind_eq_ok, Res.pure_eq, Res.ok.injEq] at h
    obtain ⟨r1, h1, r2, h2, rfl⟩ := h
    show G r2.2
    exact applySimples_typed (l := l) hG hf hlen hnd (fun p t hm => hl p t (by simp [hm])) (fun p t hm => ht p t (by simp [hm]))
      (applySimple_typed hG hf hlen hnd (hl pred ts (by simp)) (ht pred ts (by simp)) hs h1) h2

mutual
theorem Eff.apply_typed (hG : KeepsTyped objects sig G) (hf : FireTyped objects sig G fire) :
    ∀ (e : Eff) (params args : List Obj) (s : σ) (r : Nat × σ), params.length = args.length →
    (params.map Obj.name).Nodup → e.Formed objects (params.map Obj.name) → e.Fresh (params.map Obj.name) →
    e.Typed objects sig (Env.none.bind params args) → G s →
    e.apply (ObjMap.create objects) fire params args s = .ok r → G r.2
  | .mk fs adds dels cs, params, args, s, r, hlen, hnd, hw, hfr, ht, hs, h => by
    simp only [Eff.Formed] at hw
    simp only [Eff.Fresh] at hfr
    simp only [Eff.Typed] at ht
    simp only [Eff.apply, Res.bind_eq_ok, Res.pure_eq, Res.ok.injEq] at h
    obtain ⟨r1, h1, r2, h2, r3, h3, r4, h4, rfl⟩ := h
    show G r4.2
    exact CList.apply_typed hG hf cs _ _ _ _ hlen hnd hw.2.2.2 hfr.2 ht.2.2.2
      (applySimples_typed hG hf hlen hnd hw.2.2.1 ht.2.2.1
        (applySimples_typed hG hf hlen hnd hw.2.1 ht.2.1
          (FList.apply_typed hG hf fs _ _ _ _ hlen hnd hw.1 hfr.1 ht.1 hs h1) h2) h3) h4
theorem FList.apply_typed (hG : KeepsTyped objects sig G) (hf : FireTyped objects sig G fire) :
    ∀ (e : FList) (params args : List Obj) (s : σ) (r : Nat × σ), params.length = args.length →
    (params.map Obj.name).Nodup → e.Formed objects (params.map Obj.name) → e.Fresh (params.map Obj.name) →
    e.Typed objects sig (Env.none.bind params args) → G s →
    e.apply (ObjMap.create objects) fire params args s = .ok r → G r.2
  | .nil, params, args, s, r, _, _, _, _, _, hs, h => by
    simp only [FList.apply, Res.ok.injEq] at h; subst h; exact hs
  | .cons vars e rest, params, args, s, r, hlen, hnd, hw, hfr, ht, hs, h => by
    simp only [FList.Formed] at hw
    simp only [FList.Fresh] at hfr
    simp only [FList.Typed] at ht
    simp only [FList.apply, Res.bind_eq_ok, Res.pure_eq, Res.ok.injEq] at h
    obtain ⟨l, hl, r1, h1, r2, h2, rfl⟩ := h
    show G r2.2
    refine FList.apply_typed hG hf rest _ _ _ _ hlen hnd hw.2.2 hfr.2.2 ht.2
      (loopEff_inv (fun os ho s r hs h => ?_) hs h1) h2
    have hwt := gen_mem hl ho
    refine Eff.apply_typed hG hf e _ _ s r (by simp [hlen, hwt.length]) (by simpa using hfr.1) (by simpa using hw.2.1)
      (by simpa using hfr.2.1) ?_ hs h
    rw [Env.bind_append _ _ _ _ _ hlen]; exact ht.1 os hwt
theorem CList.apply_typed (hG : KeepsTyped objects sig G) (hf : FireTyped objects sig G fire) :
    ∀ (e : CList) (params args : List Obj) (s : σ) (r : Nat × σ), params.length = args.length →
    (params.map Obj.name).Nodup → e.Formed objects (params.map Obj.name) → e.Fresh (params.map Obj.name) →
    e.Typed objects sig (Env.none.bind params args) → G s →
    e.apply (ObjMap.create objects) fire params args s = .ok r → G r.2
  | .nil, params, args, s, r, _, _, _, _, _, hs, h => by
    simp only [CList.apply, Res.ok.injEq] at h; subst h; exact hs
  | .cons g e rest, params, args, s, r, hlen, hnd, hw, hfr, ht, hs, h => by
    simp only [CList.Formed] at hw
    simp only [CList.Fresh] at hfr
    simp only [CList.Typed] at ht
    simp only [CList.apply, Res.bind_eq_ok, Res.pure_eq, Res.ok.injEq] at h
    obtain ⟨b, -, r1, h1, r2, h2, rfl⟩ := h
    show G r2.2
    refine CList.apply_typed hG hf rest _ _ _ _ hlen hnd hw.2.2 hfr.2 ht.2 ?_ h2
    cases b
    · simp only [Bool.false_eq_true, if_false, Res.ok.injEq] at h1; subst h1; exact hs
    · exact Eff.apply_typed hG hf e _ _ s _ hlen hnd hw.2.1 hfr.1 ht.1 hs h1
end

omit [StateLike σ] in
theorem runInsts_inv {run : Ax → List Obj → σ → Res (Nat × σ)} :
    ∀ {l : List (Ax × List Obj)} {s s' : σ},
    (∀ ax as, (ax, as) ∈ l → ∀ s r, G s → run ax as s = .ok r → G r.2) → G s → runInsts run l s = .ok s' → G s'
  | [], s, s', _, hs, h => by simp only [runInsts, Res.ok.injEq] at h; subst h; exact hs
  | (ax, as) :: l, s, s', hrun, hs, h => by
    simp only [runInsts, Res.bind_eq_ok] at h
    obtain ⟨r, h1, h2⟩ := h
    exact runInsts_inv (l := l) (fun a b hm => hrun a b (by simp [hm])) (hrun ax as (by simp) _ _ hs h1) h2

/-- An axiom that agrees with the signatures. -/
structure SortedAx (objects : List Obj) (sig : Name → List Name) (ax : Ax) : Prop where
  sorted : ax.op.Sorted objects sig
  ctx : contextOf ax.op.pre = .ok (ax.pos, ax.pred, ax.ctxArgs)

theorem fireLoop_typed {axs : List Ax} (hax : ∀ ax ∈ axs, SortedAx objects sig ax)
    {run : Ax → List Obj → σ → Res (Nat × σ)}
    (hrun : ∀ ax ∈ axs, ∀ as, WellTyped objects ax.op.params as → ∀ s r, G s → run ax as s = .ok r → G r.2) :
    FireTyped objects sig G (fun sign pred ps es as p => fireLoop run sign pred ps es as axs p) := by
  intro sign pred ts params args s s' hlen hnd hs _ _ hr hG h
  have hl : ts.length = (sig pred).length := by simpa using (List.Forall₂.length_eq hr).symm
  obtain ⟨insts, -, h2, h3⟩ := fireLoop_spec (run := run) (sign := sign) (pred := pred) hlen hnd hs axs (by
    rintro ax hm - rfl
    have hg := hax ax hm
    obtain ⟨e1, e2, -⟩ := contextOf_ok hg.ctx
    exact ⟨hg.sorted.linear, e2, by rw [hg.sorted.arity, e1, hl]⟩)
  dsimp only at h
  rw [h2] at h
  refine runInsts_inv (fun ax as hm => ?_) hG h
  obtain ⟨h4, -, h6, h7⟩ := (h3 ax as).1 hm
  have hg := hax ax h4
  obtain ⟨e1, -, -⟩ := contextOf_ok hg.ctx
  exact hrun ax h4 as (hg.sorted.wide as _ (by rw [e1, h6]; exact hr) h7)

theorem SortedAx.run (hG : KeepsTyped objects sig G) {ax : Ax} (h : SortedAx objects sig ax)
    (hf : FireTyped objects sig G fire) {as : List Obj} (hw : WellTyped objects ax.op.params as) {s : σ} {r : Nat × σ}
    (hs : G s) (hr : ax.op.eff.apply (ObjMap.create objects) fire ax.op.params as s = .ok r) : G r.2 :=
  Eff.apply_typed hG hf _ _ _ s r hw.length h.sorted.linear.nodup h.sorted.formed.eff h.sorted.fresh (h.sorted.eff as hw) hs hr

theorem fireN_typed (hG : KeepsTyped objects sig G) {axs : List Ax} (hax : ∀ ax ∈ axs, SortedAx objects sig ax) :
    ∀ n, FireTyped objects sig G (fireN (σ := σ) (ObjMap.create objects) axs n)
  | 0 => fireLoop_typed hax (by intro _ _ _ _ _ _ _ h; simp at h)
  | n + 1 => fireLoop_typed hax (fun ax hm _ hw _ _ hs hr => (hax ax hm).run hG (fireN_typed hG hax n) hw hs hr)

end

/-! ## From declarations to signatures -/

theorem HasType.trans {up : Name → List Name} (H : Hierarchy up) {o w : Obj} (ho : o.Fits up) (hw : w.Fits up) {T : Name}
    (h : HasType o w.typeName) (h' : HasType w T) : HasType o T := by
  rcases h' with h' | h'
  · exact Or.inl h'
  · rcases hw with hw | hw
    · simp [hw] at h'
    · rw [hw] at h'
      rcases h with h | h
      · rw [h] at h'; exact Or.inl (H.root T h')
      · rcases ho with ho | ho
        · simp [ho] at h
        · rw [ho] at h
          exact Or.inr (by rw [ho]; exact H.trans _ _ _ h h')

/-- A type that no object has. -/
def noType (objects : List Obj) : Name := 'a' :: n!"object" ++ (objects.flatMap Obj.types).flatten

theorem noType_free (objects : List Obj) : ¬ IsType objects (noType objects) := by
  rintro ⟨o, ho, h⟩
  rcases h with h | h
  · have := congrArg List.length h
    simp [noType] at this
  · have hm : noType objects ∈ objects.flatMap Obj.types := List.mem_flatMap.2 ⟨o, ho, h⟩
    have := (List.sublist_flatten_of_mem hm).length_le
    simp [noType] at this
    omega

/-- The signature of a declared predicate; an undeclared one gets a signature without instances. -/
def sigOf (objects : List Obj) (preds : List PredDecl) (p : Name) : List Name :=
  match preds.find? (fun d => decide (d.name = p)) with
  | some d => d.params.map Obj.typeName
  | none => [noType objects]

theorem respects_map {objects : List Obj} {ps os : List Obj} :
    Respects objects (ps.map Obj.typeName) os ↔ WellTyped objects ps os := by
  unfold Respects WellTyped
  rw [List.forall₂_map_left_iff]

theorem sigOf_declared {objects : List Obj} {preds : List PredDecl} {p : Name} {os : List Obj}
    (h : Respects objects (sigOf objects preds p) os) : Declared objects preds (Atom.ofObjs p os) := by
  unfold sigOf at h
  split at h
  · rename_i d hd
    have hn : d.name = p := by simpa using List.find?_some hd
    subst hn
    exact ⟨d, List.mem_of_find?_eq_some hd, os, respects_map.1 h, rfl⟩
  · cases h with
    | cons h _ => exact absurd ⟨_, h.1, h.2⟩ (noType_free objects)

theorem sigOf_eq {objects : List Obj} {preds : List PredDecl} (hnd : (preds.map PredDecl.name).Nodup) {d : PredDecl}
    (hd : d ∈ preds) : sigOf objects preds d.name = d.params.map Obj.typeName := by
  unfold sigOf
  split
  · rename_i d' hd'
    have hn : d'.name = d.name := by simpa using List.find?_some hd'
    have := List.inj_on_of_nodup_map hnd (List.mem_of_find?_eq_some hd') hd hn
    rw [this]
  · rename_i h
    simpa using List.find?_eq_none.1 h d hd

section
variable {objects : List Obj} {preds : List PredDecl} {up : Name → List Name}

/-- What is bound to a variable fits its type. -/
def EnvFits (objects scope : List Obj) (env : Env) : Prop :=
  ∀ w ∈ scope, ∀ o, env w.name = some o → o ∈ objects ∧ HasType o w.typeName

theorem Env.bind_other (n : Name) : ∀ (vs os : List Obj) (env : Env), n ∉ vs.map Obj.name →
    (env.bind vs os) n = env n
  | [], _, env, _ => by simp [Env.bind]
  | _ :: _, [], env, _ => by simp [Env.bind]
  | v :: vs, o :: os, env, h => by
    simp only [List.map_cons, List.mem_cons, not_or] at h
    simp only [Env.bind]
    rw [Env.bind_other n vs os _ h.2, Env.set, if_neg h.1]

theorem envFits_vars : ∀ {vs os : List Obj} {env : Env}, (vs.map Obj.name).Nodup → WellTyped objects vs os →
    EnvFits objects vs (env.bind vs os)
  | [], _, _, _, _ => by intro w hw; simp at hw
  | v :: vs, _, env, hnd, .cons (b := o) (l₂ := os) h hs => by
    simp only [List.map_cons, List.nodup_cons] at hnd
    intro w hw o' ho
    simp only [Env.bind] at ho
    rcases List.mem_cons.1 hw with rfl | hw
    · rw [Env.bind_other _ _ _ _ hnd.1, Env.set, if_pos rfl] at ho
      cases ho; exact h
    · exact envFits_vars hnd.2 hs w hw o' ho

theorem EnvFits.bind {scope vs os : List Obj} {env : Env} (h : EnvFits objects scope env)
    (hnd : ((scope ++ vs).map Obj.name).Nodup) (hw : WellTyped objects vs os) :
    EnvFits objects (scope ++ vs) (env.bind vs os) := by
  rw [List.map_append, List.nodup_append] at hnd
  intro w hm o ho
  rcases List.mem_append.1 hm with hm | hm
  · rw [Env.bind_other _ _ _ _ (fun h => hnd.2.2 _ (List.mem_map_of_mem hm) _ h rfl)] at ho
    exact h w hm o ho
  · exact envFits_vars hnd.2.1 hw w hm o ho

theorem Term.IsA.denotes (H : Hierarchy up) (hobj : ∀ o ∈ objects, o.Fits up) {scope : List Obj}
    (hsc : ∀ w ∈ scope, w.Fits up) {env : Env} (he : EnvFits objects scope env) {T : Name} {t : Term} {o : Obj}
    (h : t.IsA objects scope T) (hd : Denotes env t o) : o ∈ objects ∧ HasType o T := by
  cases t with
  | var v =>
    obtain ⟨w, hw, hn, hT⟩ := h
    obtain ⟨h1, h2⟩ := he w hw o (by rw [hn]; exact hd)
    exact ⟨h1, h2.trans H (hobj o h1) (hsc w hw) hT⟩
  | const c => cases hd; exact h

theorem forall₂_denoted {R : Obj → Term → Prop} {Q : Obj → Obj → Prop} {env : Env}
    (hRQ : ∀ p t o, R p t → Denotes env t o → Q p o) : ∀ {ps : List Obj} {ts : List Term} {os : List Obj},
    List.Forall₂ R ps ts → List.Forall₂ (Denotes env) ts os → List.Forall₂ Q ps os
  | _, _, _, .nil, .nil => .nil
  | _, _, _, .cons h hs, .cons d ds => .cons (hRQ _ _ _ h d) (forall₂_denoted hRQ hs ds)

theorem LitsChecked.typed (H : Hierarchy up) (hobj : ∀ o ∈ objects, o.Fits up)
    (hnd : (preds.map PredDecl.name).Nodup) {scope : List Obj} (hsc : ∀ w ∈ scope, w.Fits up) {env : Env}
    (he : EnvFits objects scope env) {l : List (Name × List Term)} (h : LitsChecked objects preds scope l) :
    LitsTyped objects (sigOf objects preds) env l := by
  intro pred ts hm ne nt os ho
  obtain ⟨d, hd, rfl, hf⟩ := h pred ts hm ne nt
  rw [sigOf_eq hnd hd, respects_map]
  exact forall₂_denoted (fun p t o hp hd => hp.denotes H hobj hsc he hd) hf ho

mutual
theorem Eff.Checked.typed (H : Hierarchy up) (hobj : ∀ o ∈ objects, o.Fits up)
    (hnd : (preds.map PredDecl.name).Nodup) : ∀ (e : Eff) (scope : List Obj) (env : Env),
    (∀ w ∈ scope, w.Fits up) → EnvFits objects scope env → e.Fresh (scope.map Obj.name) →
    e.Checked up objects preds scope → e.Typed objects (sigOf objects preds) env
  | .mk fs adds dels cs, scope, env, hsc, he, hf, h => by
    simp only [Eff.Fresh] at hf
    simp only [Eff.Checked] at h
    simp only [Eff.Typed]
    exact ⟨FList.Checked.typed H hobj hnd fs scope env hsc he hf.1 h.1, h.2.1.typed H hobj hnd hsc he,
      h.2.2.1.typed H hobj hnd hsc he, CList.Checked.typed H hobj hnd cs scope env hsc he hf.2 h.2.2.2⟩
theorem FList.Checked.typed (H : Hierarchy up) (hobj : ∀ o ∈ objects, o.Fits up)
    (hnd : (preds.map PredDecl.name).Nodup) : ∀ (e : FList) (scope : List Obj) (env : Env),
    (∀ w ∈ scope, w.Fits up) → EnvFits objects scope env → e.Fresh (scope.map Obj.name) →
    e.Checked up objects preds scope → e.Typed objects (sigOf objects preds) env
  | .nil, _, _, _, _, _, _ => by simp only [FList.Typed]
  | .cons vars e rest, scope, env, hsc, he, hf, h => by
    simp only [FList.Fresh] at hf
    simp only [FList.Checked] at h
    simp only [FList.Typed]
    refine ⟨fun os ho => Eff.Checked.typed H hobj hnd e (scope ++ vars) _ (fun w hw => ?_)
      (he.bind (by simpa using hf.1) ho) (by simpa using hf.2.1) h.2.1,
      FList.Checked.typed H hobj hnd rest scope env hsc he hf.2.2 h.2.2⟩
    rcases List.mem_append.1 hw with hw | hw
    · exact hsc w hw
    · exact h.1 w hw
theorem CList.Checked.typed (H : Hierarchy up) (hobj : ∀ o ∈ objects, o.Fits up)
    (hnd : (preds.map PredDecl.name).Nodup) : ∀ (e : CList) (scope : List Obj) (env : Env),
    (∀ w ∈ scope, w.Fits up) → EnvFits objects scope env → e.Fresh (scope.map Obj.name) →
    e.Checked up objects preds scope → e.Typed objects (sigOf objects preds) env
  | .nil, _, _, _, _, _, _ => by simp only [CList.Typed]
  | .cons g e rest, scope, env, hsc, he, hf, h => by
    simp only [CList.Fresh] at hf
    simp only [CList.Checked] at h
    simp only [CList.Typed]
    exact ⟨Eff.Checked.typed H hobj hnd e scope env hsc he hf.1 h.1,
      CList.Checked.typed H hobj hnd rest scope env hsc he hf.2 h.2⟩
end

/-! ## Axiom instances found by matching -/

theorem wellTyped_of_env : ∀ {ps as : List Obj} {env : Env}, ps.length = as.length → (ps.map Obj.name).Nodup →
    (∀ w ∈ ps, ∃ o, (env.bind ps as) w.name = some o ∧ o ∈ objects ∧ HasType o w.typeName) → WellTyped objects ps as
  | [], [], _, _, _, _ => .nil
  | p :: ps, a :: as, env, hl, hnd, h => by
    simp only [List.map_cons, List.nodup_cons] at hnd
    refine .cons ?_ (wellTyped_of_env (by simpa using hl) hnd.2 (fun w hw => ?_) (env := env.set p.name a))
    · obtain ⟨o, h1, h2⟩ := h p (by simp)
      simp only [Env.bind] at h1
      rw [Env.bind_other _ _ _ _ hnd.1, Env.set, if_pos rfl] at h1
      cases h1; exact h2
    · exact h w (by simp [hw])

theorem match_var {env : Env} : ∀ {ps : List Obj} {ts : List Term} {os : List Obj} {R : Obj → Term → Prop} {n : Name},
    List.Forall₂ R ps ts → List.Forall₂ (MatchTerm env) ts os → WellTyped objects ps os → n ∈ varNames ts →
    ∃ p v o, R p (.var v) ∧ v.name = n ∧ env n = some o ∧ o ∈ objects ∧ HasType o p.typeName ∧ p ∈ ps
  | _, _, _, _, _, .nil, .nil, .nil, h => by simp [varNames] at h
  | p :: ps, .var v :: ts, o :: os, R, n, .cons hR hRs, .cons hm hms, .cons hw hws, h => by
    simp only [varNames, List.mem_cons] at h
    rcases h with rfl | h
    · exact ⟨p, v, o, hR, rfl, hm, hw.1, hw.2, by simp⟩
    · obtain ⟨p', v', o', h1, h2, h3, h4, h5, h6⟩ := match_var hRs hms hws h
      exact ⟨p', v', o', h1, h2, h3, h4, h5, by simp [h6]⟩
  | p :: ps, .const c :: ts, o :: os, R, n, .cons hR hRs, .cons hm hms, .cons hw hws, h => by
    simp only [varNames] at h
    obtain ⟨p', v', o', h1, h2, h3, h4, h5, h6⟩ := match_var hRs hms hws h
    exact ⟨p', v', o', h1, h2, h3, h4, h5, by simp [h6]⟩

theorem Op.Checked.sorted (H : Hierarchy up) (hobj : ∀ o ∈ objects, o.Fits up)
    (hnd : (preds.map PredDecl.name).Nodup) (hpr : ∀ d ∈ preds, ∀ p ∈ d.params, p.Fits up) {op : Op}
    (h : op.Checked up objects preds) (ha : op.isAxiom = true) : op.Sorted objects (sigOf objects preds) := by
  obtain ⟨h1, h2, h3, d, hd, hdn, hwide⟩ := h.axiom_ ha
  have hsig : sigOf objects preds op.ctxPred = d.params.map Obj.typeName := by rw [← hdn, sigOf_eq hnd hd]
  refine ⟨⟨h1, h2, h.formed⟩, h3, h.fresh, fun as hw => ?_, ?_, fun as os hr ht => ?_⟩
  · exact Eff.Checked.typed H hobj hnd op.eff op.params _ h.fits (envFits_vars h.names hw) h.fresh h.eff
  · rw [hsig]; simpa using hwide.length_eq.symm
  · rw [hsig, respects_map] at hr
    refine wellTyped_of_env (env := Env.none) ht.1.symm h.names (fun w hw => ?_)
    obtain ⟨p, v, o, h4, h5, h6, h7, h8, h9⟩ := match_var hwide ht.2 hr (h3.covers w hw)
    exact ⟨o, h6, h7, h8.trans H (hobj o h7) (hpr d hd p h9) (h4 v rfl w hw h5.symm)⟩

end

/-! ## Derived predicates and consistency -/

section
variable [StrHash] {objects : List Obj} {preds : List PredDecl}

/-- All atoms are declared. -/
def AllDeclared (objects : List Obj) (preds : List PredDecl) (s : State) : Prop := ∀ x ∈ s, Declared objects preds x

theorem keeps_declared : KeepsTyped objects (sigOf objects preds) (AllDeclared objects preds) where
  insert s pred os hr hs x hx := by
    have : x ∈ (s.insert (Atom.ofObjs pred os)).2 := hx
    rw [State.mem_insert] at this
    rcases this with rfl | h
    · exact sigOf_declared hr
    · exact hs x h
  erase s pred os _ hs x hx := by
    have : x ∈ (s.erase (Atom.ofObjs pred os)).2 := hx
    rw [State.mem_erase] at this
    exact hs x this.2

theorem drvPass_declared {m : ObjMap} {d : Drv} : ∀ {l : List (List Obj)} {s : State} {r : Bool × State},
    (∀ as ∈ l, Declared objects preds (d.atom as)) → AllDeclared objects preds s → drvPass m d l s = .ok r →
    AllDeclared objects preds r.2
  | [], s, r, _, hs, h => by simp only [drvPass, Res.ok.injEq] at h; subst h; exact hs
  | as :: l, s, r, hl, hs, h => by
    cases hb : d.body.eval m d.params s as with
    | ok b =>
      rw [drvPass_cons hb, Res.bind_eq_ok] at h
      obtain ⟨r', h1, h2⟩ := h
      simp only [Res.pure_eq, Res.ok.injEq] at h2
      subst h2
      refine drvPass_declared (l := l) (r := r') (fun a ha => hl a (by simp [ha])) (fun x hx => ?_) h1
      rw [drvStep_mem] at hx
      split at hx
      · rename_i e; subst e; exact hl as (by simp)
      · exact hs x hx
    | _ => simp [drvPass, hb] at h

theorem drvFix_declared {m : ObjMap} {d : Drv} {l : List (List Obj)} (hl : ∀ as ∈ l, Declared objects preds (d.atom as)) :
    ∀ {k : Nat} {s : State} {r : Bool × State}, AllDeclared objects preds s → drvFix m d l k s = .ok r →
    AllDeclared objects preds r.2
  | 0, s, r, _, h => by simp [drvFix] at h
  | k + 1, s, r, hs, h => by
    simp only [drvFix, Res.bind_eq_ok] at h
    obtain ⟨r1, h1, h2⟩ := h
    have := drvPass_declared hl hs h1
    split at h2
    · simp only [Res.bind_eq_ok, Res.pure_eq, Res.ok.injEq] at h2
      obtain ⟨r2, h2, rfl⟩ := h2
      exact drvFix_declared hl (r := r2) this h2
    · simp only [Res.pure_eq, Res.ok.injEq] at h2; subst h2; exact this

theorem drvsPass_declared {fuel : Nat} : ∀ {ds : List Drv} {s : State} {r : Bool × State},
    (∀ d ∈ ds, ∀ as, WellTyped objects d.params as → Declared objects preds (d.atom as)) → AllDeclared objects preds s →
    drvsPass (ObjMap.create objects) fuel ds s = .ok r → AllDeclared objects preds r.2
  | [], s, r, _, hs, h => by simp only [drvsPass, Res.ok.injEq] at h; subst h; exact hs
  | d :: ds, s, r, hd, hs, h => by
    simp only [drvsPass, Drv.apply, Res.bind_eq_ok, Res.pure_eq, Res.ok.injEq] at h
    obtain ⟨r1, ⟨l, h0, h1⟩, r2, h2, rfl⟩ := h
    exact drvsPass_declared (ds := ds) (r := r2) (fun d' h => hd d' (by simp [h]))
      (drvFix_declared (fun as ha => hd d (by simp) as (gen_mem h0 ha)) hs h1) h2

theorem drvsFix_declared {fuel : Nat} {ds : List Drv}
    (hd : ∀ d ∈ ds, ∀ as, WellTyped objects d.params as → Declared objects preds (d.atom as)) :
    ∀ {k : Nat} {s : State} {r : Bool × State}, AllDeclared objects preds s →
    drvsFix (ObjMap.create objects) fuel ds k s = .ok r → AllDeclared objects preds r.2
  | 0, s, r, _, h => by simp [drvsFix] at h
  | k + 1, s, r, hs, h => by
    simp only [drvsFix, Res.bind_eq_ok] at h
    obtain ⟨r1, h1, h2⟩ := h
    have := drvsPass_declared hd hs h1
    split at h2
    · simp only [Res.bind_eq_ok, Res.pure_eq, Res.ok.injEq] at h2
      obtain ⟨r2, h2, rfl⟩ := h2
      exact drvsFix_declared hd (r := r2) this h2
    · simp only [Res.pure_eq, Res.ok.injEq] at h2; subst h2; exact this

theorem prepareLoop_sub {c : NfCtx} {pre : Goal} {params : List Obj} : ∀ {l l' : List (List Obj)},
    prepareLoop c pre params l = .ok l' → ∀ as ∈ l', as ∈ l
  | [], l', h => by simp only [prepareLoop, Res.ok.injEq] at h; subst h; simp
  | a :: l, l', h => by
    simp only [prepareLoop, Res.bind_eq_ok, Res.pure_eq, Res.ok.injEq] at h
    obtain ⟨d, -, r, h1, rfl⟩ := h
    have ih := prepareLoop_sub h1
    intro as ha
    cases d with
    | none => exact List.mem_cons_of_mem _ (ih as ha)
    | some d =>
      rcases List.mem_cons.1 ha with rfl | ha
      · exact List.mem_cons_self
      · exact List.mem_cons_of_mem _ (ih as ha)

variable {sig : Name → List Name} {G : State → Prop}

theorem axApplyLoop_typed (hG : KeepsTyped objects sig G) {axs : List Ax} (hax : ∀ ax ∈ axs, SortedAx objects sig ax)
    {fuel : Nat} {ax : Ax} (hm : ax ∈ axs) : ∀ {l : List (List Obj)} {s : State} {r : Bool × State},
    (∀ as ∈ l, WellTyped objects ax.op.params as) → G s →
    axApplyLoop (ObjMap.create objects) axs fuel ax l s = .ok r → G r.2
  | [], s, r, _, hs, h => by simp only [axApplyLoop, Res.ok.injEq] at h; subst h; exact hs
  | as :: l, s, r, hw, hs, h => by
    simp only [axApplyLoop, Res.bind_eq_ok, Res.pure_eq, Res.ok.injEq] at h
    obtain ⟨b, -, r1, h1, r2, h2, rfl⟩ := h
    refine axApplyLoop_typed hG hax hm (l := l) (r := r2) (fun a ha => hw a (by simp [ha])) ?_ h2
    cases b
    · simp only [Bool.false_eq_true, if_false, Res.ok.injEq] at h1; subst h1; exact hs
    · exact (hax ax hm).run hG (fireN_typed hG hax fuel) (hw as (by simp)) hs h1

theorem consistentPass_typed (hG : KeepsTyped objects sig G) {axs : List Ax} (hax : ∀ ax ∈ axs, SortedAx objects sig ax)
    {fuel : Nat} : ∀ {l : List Ax} {s : State} {r : Bool × State},
    (∀ ax ∈ l, ax ∈ axs ∧ ∀ as ∈ ax.arguments, WellTyped objects ax.op.params as) → G s →
    Pddl.consistentPass (ObjMap.create objects) axs fuel l s = .ok r → G r.2
  | [], s, r, _, hs, h => by simp only [Pddl.consistentPass, Res.ok.injEq] at h; subst h; exact hs
  | ax :: l, s, r, hl, hs, h => by
    simp only [Pddl.consistentPass, Res.bind_eq_ok, Res.pure_eq, Res.ok.injEq] at h
    obtain ⟨r1, h1, r2, h2, rfl⟩ := h
    exact consistentPass_typed hG hax (l := l) (r := r2) (fun a ha => hl a (by simp [ha]))
      (axApplyLoop_typed hG hax (hl ax (by simp)).1 (hl ax (by simp)).2 hs h1) h2

theorem consistentFix_typed (hG : KeepsTyped objects sig G) {axs : List Ax} (hax : ∀ ax ∈ axs, SortedAx objects sig ax)
    (hargs : ∀ ax ∈ axs, ∀ as ∈ ax.arguments, WellTyped objects ax.op.params as) {fuel : Nat} :
    ∀ {k : Nat} {s s' : State}, G s → Pddl.consistentFix (ObjMap.create objects) axs fuel k s = .ok s' → G s'
  | 0, s, r, _, h => by simp [Pddl.consistentFix] at h
  | k + 1, s, s', hs, h => by
    simp only [Pddl.consistentFix, Res.bind_eq_ok] at h
    obtain ⟨r1, h1, h2⟩ := h
    have := consistentPass_typed hG hax (fun ax hm => ⟨hm, hargs ax hm⟩) hs h1
    split at h2
    · exact consistentFix_typed hG hax hargs this h2
    · simp only [Res.pure_eq, Res.ok.injEq] at h2; subst h2; exact this

end

end Symbolic
