import Verif.Spec.Least
import Verif.Lemmas.TypeSound
import Verif.Lemmas.Frame

/-!
# Applying persistent axioms stays below every model
-/

namespace Symbolic

/-! ## Formulas are monotone in what they mention -/

/-- Atoms of the predicate that are true (`true`) or false in `S` are so in `T`. -/
def Follows (S T : Atom → Prop) (b : Bool) (p : Name) : Prop :=
  ∀ x : Atom, x.pred = p → (b = true → S x → T x) ∧ (b = false → T x → S x)

theorem Follows.swap {S T : Atom → Prop} {b : Bool} {p : Name} (h : Follows S T (!b) p) : Follows T S b p := by
  intro x hx
  have := h x hx
  cases b <;> simp_all

mutual
theorem Sat.follow (objects : List Obj) : ∀ (g : Goal) (S T : Atom → Prop) (env : Env),
    (∀ b p, g.Occurs b p → Follows S T b p) → Sat objects S env g → Sat objects T env g
  | .atom pred ts, S, T, env, h, hs => by
    simp only [Sat] at hs ⊢
    rcases hs with hs | hs | ⟨h1, h2, os, h3, h4⟩
    · exact .inl hs
    · exact .inr (.inl hs)
    · exact .inr (.inr ⟨h1, h2, os, h3, (h true pred (by simp [Goal.Occurs]) ⟨pred, os.map Obj.name⟩ rfl).1 rfl h4⟩)
  | .conj gs, S, T, env, h, hs => by
    simp only [Sat] at hs ⊢
    exact SatAll.follow objects gs S T env (fun b p hb => h b p (by simpa [Goal.Occurs] using hb)) hs
  | .disj gs, S, T, env, h, hs => by
    simp only [Sat] at hs ⊢
    exact SatAny.follow objects gs S T env (fun b p hb => h b p (by simpa [Goal.Occurs] using hb)) hs
  | .neg g, S, T, env, h, hs => by
    simp only [Sat] at hs ⊢
    intro ht
    exact hs (Sat.follow objects g T S env (fun b p hb => (h (!b) p (by simpa [Goal.Occurs] using hb)).swap) ht)
  | .all vars g, S, T, env, h, hs => by
    simp only [Sat] at hs ⊢
    exact fun os ho => Sat.follow objects g S T _ (fun b p hb => h b p (by simpa [Goal.Occurs] using hb)) (hs os ho)
  | .ex vars g, S, T, env, h, hs => by
    simp only [Sat] at hs ⊢
    obtain ⟨os, ho, hs⟩ := hs
    exact ⟨os, ho, Sat.follow objects g S T _ (fun b p hb => h b p (by simpa [Goal.Occurs] using hb)) hs⟩
  | .other, _, _, _, _, hs => by simp [Sat] at hs
theorem SatAll.follow (objects : List Obj) : ∀ (gs : List Goal) (S T : Atom → Prop) (env : Env),
    (∀ b p, Goal.OccursL gs b p → Follows S T b p) → SatAll objects S env gs → SatAll objects T env gs
  | [], _, _, _, _, _ => by simp [SatAll]
  | g :: gs, S, T, env, h, hs => by
    simp only [SatAll] at hs ⊢
    exact ⟨Sat.follow objects g S T env (fun b p hb => h b p (by simp [Goal.OccursL, hb])) hs.1,
      SatAll.follow objects gs S T env (fun b p hb => h b p (by simp [Goal.OccursL, hb])) hs.2⟩
theorem SatAny.follow (objects : List Obj) : ∀ (gs : List Goal) (S T : Atom → Prop) (env : Env),
    (∀ b p, Goal.OccursL gs b p → Follows S T b p) → SatAny objects S env gs → SatAny objects T env gs
  | [], _, _, _, _, hs => by simp [SatAny] at hs
  | g :: gs, S, T, env, h, hs => by
    simp only [SatAny] at hs ⊢
    rcases hs with hs | hs
    · exact .inl (Sat.follow objects g S T env (fun b p hb => h b p (by simp [Goal.OccursL, hb])) hs)
    · exact .inr (SatAny.follow objects gs S T env (fun b p hb => h b p (by simp [Goal.OccursL, hb])) hs)
end

/-! ## States on the way -/

section
variable [StrHash] {objects : List Obj} {sig : Name → List Name} {S T : Atom → Prop} {fire : Fire State}

/-- `s` lies on the way from `S` to `T`. -/
def OnTheWay (S T : Atom → Prop) (s : State) : Prop := ∀ x, (S x → T x → x ∈ s) ∧ (¬ S x → ¬ T x → x ∉ s)

theorem OnTheWay.follows {s : State} (h : OnTheWay S T s) {b : Bool} {p : Name} (hf : Follows S T b p) :
    Follows (· ∈ s) T b p := by
  intro x hx
  obtain ⟨h1, h2⟩ := hf x hx
  obtain ⟨h3, h4⟩ := h x
  refine ⟨fun hb hs => ?_, fun hb ht => h3 (h2 hb ht) ht⟩
  by_cases hS : S x
  · exact h1 hb hS
  · exact Classical.byContradiction fun hT => h4 hS hT hs

/-- After a literal that holds in `T`, the way goes on to `T`. -/
def FireOn (objects : List Obj) (sig : Name → List Name) (S T : Atom → Prop) (fire : Fire State) : Prop :=
  ∀ sign pred (ts : List Term) params args s s', params.length = args.length → (params.map Obj.name).Nodup →
    (∀ t ∈ ts, t.Scoped (params.map Obj.name)) → pred ≠ n!"=" → ¬ IsType objects pred →
    Respects objects (sig pred) (ts.map (Term.value params args)) →
    (T (Atom.ofObjs pred (ts.map (Term.value params args))) ↔ sign = true) → OnTheWay S T s →
    fire sign pred params (ts.map Term.obj) args s = .ok s' → OnTheWay S T s'

theorem OnTheWay.insert {s : State} (h : OnTheWay S T s) {a : Atom} (ha : T a) : OnTheWay S T (s.insert a).2 := by
  intro x
  rw [State.mem_insert]
  refine ⟨fun h1 h2 => .inr ((h x).1 h1 h2), fun h1 h2 => ?_⟩
  rintro (rfl | h3)
  · exact h2 ha
  · exact (h x).2 h1 h2 h3

theorem OnTheWay.erase {s : State} (h : OnTheWay S T s) {a : Atom} (ha : ¬ T a) : OnTheWay S T (s.erase a).2 := by
  intro x
  rw [State.mem_erase]
  refine ⟨fun h1 h2 => ⟨fun e => ha (e ▸ h2), (h x).1 h1 h2⟩, fun h1 h2 h3 => (h x).2 h1 h2 h3.2⟩

theorem applySimple_on (hf : FireOn objects sig S T fire) {sign : Bool} {pred : Name}
    {ts : List Term} {params args : List Obj} {s : State} {r : Nat × State} (hlen : params.length = args.length)
    (hnd : (params.map Obj.name).Nodup) (hwf : Goal.WF objects (params.map Obj.name) (.atom pred ts))
    (hty : pred ≠ n!"=" → ¬ IsType objects pred → ∀ os, List.Forall₂ (Denotes (Env.none.bind params args)) ts os →
      Respects objects (sig pred) os)
    (hT : SatAtom objects T (Env.none.bind params args) pred ts ↔ sign = true)
    (hs : OnTheWay S T s) (h : applySimple (ObjMap.create objects) fire sign pred ts params args s = .ok r) :
    OnTheWay S T r.2 := by
  simp only [applySimple, applyFn_terms params args ts (Nat.le_of_eq hlen), Res.bind_ok] at h
  cases hk : atomKind (ObjMap.create objects) pred <;> simp only [hk, Res.bind_eq_ok] at h
  · obtain ⟨a, -, b, -, h⟩ := h
    split at h
    · simp only [Res.pure_eq, Res.ok.injEq] at h; subst h; exact hs
    · simp at h
  · obtain ⟨a, -, h⟩ := h
    split at h
    · simp only [Res.pure_eq, Res.ok.injEq] at h; subst h; exact hs
    · simp at h
  · obtain ⟨ne, nt⟩ := (atomKind_create objects pred).2.2.1 hk
    have hd := (forall₂_denotes hlen hwf.1 _).2 rfl
    have hr := hty ne nt _ hd
    have hx : T (Atom.ofObjs pred (ts.map (Term.value params args))) ↔ sign = true := by
      rw [← hT]
      constructor
      · intro h; exact .inr (.inr ⟨ne, nt, _, hd, h⟩)
      · rintro (⟨h, -⟩ | ⟨-, h, -⟩ | ⟨-, -, vs, hv, h⟩)
        · exact absurd h ne
        · exact absurd h nt
        · rw [denotes_unique hv hd] at h; exact h
    cases sign
    · have hs' := hs.erase (a := Atom.ofObjs pred (ts.map (Term.value params args))) (by simpa using hx)
      simp only [Bool.false_eq_true, if_false] at h
      split at h
      · simp only [Res.pure_eq, Res.ok.injEq] at h
        rw [← h]; exact hs'
      · simp only [Res.bind_eq_ok, Res.pure_eq, Res.ok.injEq] at h
        obtain ⟨s', h1, h2⟩ := h
        rw [← h2]; exact hf _ _ _ _ _ _ _ hlen hnd hwf.1 ne nt hr hx hs' h1
    · have hs' := hs.insert (a := Atom.ofObjs pred (ts.map (Term.value params args))) (by simpa using hx)
      simp only [if_true] at h
      split at h
      · simp only [Res.pure_eq, Res.ok.injEq] at h
        rw [← h]; exact hs'
      · simp only [Res.bind_eq_ok, Res.pure_eq, Res.ok.injEq] at h
        obtain ⟨s', h1, h2⟩ := h
        rw [← h2]; exact hf _ _ _ _ _ _ _ hlen hnd hwf.1 ne nt hr hx hs' h1

theorem applySimples_on (hf : FireOn objects sig S T fire) {sign : Bool}
    {params args : List Obj} (hlen : params.length = args.length) (hnd : (params.map Obj.name).Nodup) :
    ∀ {l : List (Name × List Term)} {s : State} {r : Nat × State}, AtomLits objects (params.map Obj.name) l →
    LitsTyped objects sig (Env.none.bind params args) l →
    (∀ pred ts, (pred, ts) ∈ l → (SatAtom objects T (Env.none.bind params args) pred ts ↔ sign = true)) → OnTheWay S T s →
    applySimples (ObjMap.create objects) fire sign params args l s = .ok r → OnTheWay S T r.2
  | [], s, r, _, _, _, hs, h => by simp only [applySimples, Res.ok.injEq] at h; subst h; exact hs
  | (pred, ts) :: l, s, r, hl, ht, hT, hs, h => by
    simp only [applySimples, Res.bind_eq_ok, Res.pure_eq, Res.ok.injEq] at h
    obtain ⟨r1, h1, r2, h2, rfl⟩ := h
    show OnTheWay S T r2.2
    exact applySimples_on (l := l) hf hlen hnd (fun p t hm => hl p t (by simp [hm])) (fun p t hm => ht p t (by simp [hm]))
      (fun p t hm => hT p t (by simp [hm]))
      (applySimple_on hf hlen hnd (hl pred ts (by simp)) (ht pred ts (by simp)) (hT pred ts (by simp)) hs h1) h2

mutual
theorem Eff.apply_on (hf : FireOn objects sig S T fire) :
    ∀ (e : Eff) (params args : List Obj) (s : State) (r : Nat × State), params.length = args.length →
    (params.map Obj.name).Nodup → e.Formed objects (params.map Obj.name) → e.Fresh (params.map Obj.name) →
    e.Typed objects sig (Env.none.bind params args) → e.Says objects T (Env.none.bind params args) →
    (∀ b p, e.Tests b p → Follows S T b p) → OnTheWay S T s →
    e.apply (ObjMap.create objects) fire params args s = .ok r → OnTheWay S T r.2
  | .mk fs adds dels cs, params, args, s, r, hlen, hnd, hw, hfr, ht, hT, hb, hs, h => by
    simp only [Eff.Formed] at hw
    simp only [Eff.Fresh] at hfr
    simp only [Eff.Typed] at ht
    simp only [Eff.Says] at hT
    simp only [Eff.apply, Res.bind_eq_ok, Res.pure_eq, Res.ok.injEq] at h
    obtain ⟨r1, h1, r2, h2, r3, h3, r4, h4, rfl⟩ := h
    show OnTheWay S T r4.2
    exact CList.apply_on hf cs _ _ _ _ hlen hnd hw.2.2.2 hfr.2 ht.2.2.2 hT.2.2.2
      (fun b p h => hb b p (by simp [Eff.Tests, h]))
      (applySimples_on hf hlen hnd hw.2.2.1 ht.2.2.1 (fun p ts h => by simpa using hT.2.2.1 p ts h)
        (applySimples_on hf hlen hnd hw.2.1 ht.2.1 (fun p ts h => by simpa using hT.2.1 p ts h)
          (FList.apply_on hf fs _ _ _ _ hlen hnd hw.1 hfr.1 ht.1 hT.1
            (fun b p h => hb b p (by simp [Eff.Tests, h])) hs h1) h2) h3) h4
theorem FList.apply_on (hf : FireOn objects sig S T fire) :
    ∀ (e : FList) (params args : List Obj) (s : State) (r : Nat × State), params.length = args.length →
    (params.map Obj.name).Nodup → e.Formed objects (params.map Obj.name) → e.Fresh (params.map Obj.name) →
    e.Typed objects sig (Env.none.bind params args) → e.Says objects T (Env.none.bind params args) →
    (∀ b p, e.Tests b p → Follows S T b p) → OnTheWay S T s →
    e.apply (ObjMap.create objects) fire params args s = .ok r → OnTheWay S T r.2
  | .nil, params, args, s, r, _, _, _, _, _, _, _, hs, h => by
    simp only [FList.apply, Res.ok.injEq] at h; subst h; exact hs
  | .cons vars e rest, params, args, s, r, hlen, hnd, hw, hfr, ht, hT, hb, hs, h => by
    simp only [FList.Formed] at hw
    simp only [FList.Fresh] at hfr
    simp only [FList.Typed] at ht
    simp only [FList.Says] at hT
    simp only [FList.apply, Res.bind_eq_ok, Res.pure_eq, Res.ok.injEq] at h
    obtain ⟨l, hl, r1, h1, r2, h2, rfl⟩ := h
    show OnTheWay S T r2.2
    refine FList.apply_on hf rest _ _ _ _ hlen hnd hw.2.2 hfr.2.2 ht.2 hT.2
      (fun b p h => hb b p (by simp [FList.Tests, h])) (loopEff_inv (fun os ho s r hs h => ?_) hs h1) h2
    have hwt := gen_mem hl ho
    refine Eff.apply_on hf e _ _ s r (by simp [hlen, hwt.length]) (by simpa using hfr.1) (by simpa using hw.2.1)
      (by simpa using hfr.2.1) ?_ ?_ (fun b p h => hb b p (by simp [FList.Tests, h])) hs h
    · rw [Env.bind_append _ _ _ _ _ hlen]; exact ht.1 os hwt
    · rw [Env.bind_append _ _ _ _ _ hlen]; exact hT.1 os hwt
theorem CList.apply_on (hf : FireOn objects sig S T fire) :
    ∀ (e : CList) (params args : List Obj) (s : State) (r : Nat × State), params.length = args.length →
    (params.map Obj.name).Nodup → e.Formed objects (params.map Obj.name) → e.Fresh (params.map Obj.name) →
    e.Typed objects sig (Env.none.bind params args) → e.Says objects T (Env.none.bind params args) →
    (∀ b p, e.Tests b p → Follows S T b p) → OnTheWay S T s →
    e.apply (ObjMap.create objects) fire params args s = .ok r → OnTheWay S T r.2
  | .nil, params, args, s, r, _, _, _, _, _, _, _, hs, h => by
    simp only [CList.apply, Res.ok.injEq] at h; subst h; exact hs
  | .cons g e rest, params, args, s, r, hlen, hnd, hw, hfr, ht, hT, hb, hs, h => by
    simp only [CList.Formed] at hw
    simp only [CList.Fresh] at hfr
    simp only [CList.Typed] at ht
    simp only [CList.Says] at hT
    simp only [CList.apply, Res.bind_eq_ok, Res.pure_eq, Res.ok.injEq] at h
    obtain ⟨b, h0, r1, h1, r2, h2, rfl⟩ := h
    show OnTheWay S T r2.2
    refine CList.apply_on hf rest _ _ _ _ hlen hnd hw.2.2 hfr.2 ht.2 hT.2
      (fun b p h => hb b p (by simp [CList.Tests, h])) ?_ h2
    obtain ⟨b', e1, e2⟩ := eval_sat objects s g params args hlen hw.1
    have hbb : b = b' := by
      have : (Res.ok b' : Res Bool) = .ok b := by rw [← h0, e1]; rfl
      cases this; rfl
    subst hbb
    cases b
    · simp only [Bool.false_eq_true, if_false, Res.ok.injEq] at h1; subst h1; exact hs
    · refine Eff.apply_on hf e _ _ s _ hlen hnd hw.2.1 hfr.1 ht.1 (hT.1 ?_)
        (fun b p h => hb b p (by simp [CList.Tests, h])) hs h1
      exact Sat.follow objects g _ T _ (fun b p h => hs.follows (hb b p (by simp [CList.Tests, h]))) (e2.1 rfl)
end

/-- An axiom that agrees with the signatures and holds in `T`, and whose tests persist on the way to `T`. -/
structure Leads (objects : List Obj) (sig : Name → List Name) (S T : Atom → Prop) (ax : Ax) : Prop where
  sorted : SortedAx objects sig ax
  holds : ∀ os, WellTyped objects ax.op.params os → ax.op.HoldsFor objects T os
  pre : ∀ b p, ax.op.pre.Occurs b p → Follows S T b p
  eff : ∀ b p, ax.op.eff.Tests b p → Follows S T b p

theorem Leads.run {ax : Ax} (h : Leads objects sig S T ax) (hf : FireOn objects sig S T fire) {as : List Obj}
    (hw : WellTyped objects ax.op.params as) (hs : Sat objects T (Env.none.bind ax.op.params as) ax.op.pre)
    {s : State} (hp : OnTheWay S T s) {r : Nat × State}
    (hr : ax.op.eff.apply (ObjMap.create objects) fire ax.op.params as s = .ok r) : OnTheWay S T r.2 :=
  Eff.apply_on hf _ _ _ s r hw.length h.sorted.sorted.linear.nodup h.sorted.sorted.formed.eff h.sorted.sorted.fresh
    (h.sorted.sorted.eff as hw) (h.holds as hw hs) h.eff hp hr

theorem fireLoop_on {axs : List Ax} (hax : ∀ ax ∈ axs, Leads objects sig S T ax)
    {run : Ax → List Obj → State → Res (Nat × State)}
    (hrun : ∀ ax ∈ axs, ∀ as, WellTyped objects ax.op.params as →
      Sat objects T (Env.none.bind ax.op.params as) ax.op.pre → ∀ s r, OnTheWay S T s → run ax as s = .ok r →
      OnTheWay S T r.2) :
    FireOn objects sig S T (fun sign pred ps es as p => fireLoop run sign pred ps es as axs p) := by
  intro sign pred ts params args s s' hlen hnd hs hne hnt hr hx hG h
  have hl : ts.length = (sig pred).length := by simpa using (List.Forall₂.length_eq hr).symm
  obtain ⟨insts, -, h2, h3⟩ := fireLoop_spec (run := run) (sign := sign) (pred := pred) hlen hnd hs axs (by
    rintro ax hm - rfl
    have hg := (hax ax hm).sorted
    obtain ⟨e1, e2, -⟩ := contextOf_ok hg.ctx
    exact ⟨hg.sorted.linear, e2, by rw [hg.sorted.arity, e1, hl]⟩)
  dsimp only at h
  rw [h2] at h
  refine runInsts_inv (fun ax as hm => ?_) hG h
  obtain ⟨h4, h5, h6, h7⟩ := (h3 ax as).1 hm
  have hg := (hax ax h4).sorted
  obtain ⟨e1, -, -⟩ := contextOf_ok hg.ctx
  subst h5 h6
  exact hrun ax h4 as (hg.sorted.wide as _ (by rw [e1]; exact hr) h7) (triggered_sat hg.ctx hne hnt h7 hx)

theorem fireN_on {axs : List Ax} (hax : ∀ ax ∈ axs, Leads objects sig S T ax) :
    ∀ n, FireOn objects sig S T (fireN (ObjMap.create objects) axs n)
  | 0 => fireLoop_on hax (by intro _ _ _ _ _ _ _ _ h; simp at h)
  | n + 1 => fireLoop_on hax (fun ax hm _ hw hs _ _ ho hr => (hax ax hm).run (fireN_on hax n) hw hs ho hr)

theorem axApplyLoop_on {axs : List Ax} (hax : ∀ ax ∈ axs, Leads objects sig S T ax)
    {fuel : Nat} {ax : Ax} (hm : ax ∈ axs) : ∀ {l : List (List Obj)} {s : State} {r : Bool × State},
    (∀ as ∈ l, WellTyped objects ax.op.params as) → OnTheWay S T s →
    axApplyLoop (ObjMap.create objects) axs fuel ax l s = .ok r → OnTheWay S T r.2
  | [], s, r, _, hs, h => by simp only [axApplyLoop, Res.ok.injEq] at h; subst h; exact hs
  | as :: l, s, r, hw, hs, h => by
    simp only [axApplyLoop, Res.bind_eq_ok, Res.pure_eq, Res.ok.injEq] at h
    obtain ⟨b, h0, r1, h1, r2, h2, rfl⟩ := h
    refine axApplyLoop_on hax hm (l := l) (r := r2) (fun a ha => hw a (by simp [ha])) ?_ h2
    have hl := hax ax hm
    have ht := hw as (by simp)
    obtain ⟨b', e1, e2⟩ := eval_sat objects s ax.op.pre ax.op.params as ht.length hl.sorted.sorted.formed.pre
    rw [Op.isValid, e1] at h0
    cases h0
    cases b
    · simp only [Bool.false_eq_true, if_false, Res.ok.injEq] at h1; subst h1; exact hs
    · exact hl.run (fireN_on hax fuel) ht
        (Sat.follow objects _ _ T _ (fun b p h => hs.follows (hl.pre b p h)) (e2.1 rfl)) hs h1

theorem consistentPass_on {axs : List Ax} (hax : ∀ ax ∈ axs, Leads objects sig S T ax)
    {fuel : Nat} : ∀ {l : List Ax} {s : State} {r : Bool × State},
    (∀ ax ∈ l, ax ∈ axs ∧ ∀ as ∈ ax.arguments, WellTyped objects ax.op.params as) → OnTheWay S T s →
    Pddl.consistentPass (ObjMap.create objects) axs fuel l s = .ok r → OnTheWay S T r.2
  | [], s, r, _, hs, h => by simp only [Pddl.consistentPass, Res.ok.injEq] at h; subst h; exact hs
  | ax :: l, s, r, hl, hs, h => by
    simp only [Pddl.consistentPass, Res.bind_eq_ok, Res.pure_eq, Res.ok.injEq] at h
    obtain ⟨r1, h1, r2, h2, rfl⟩ := h
    exact consistentPass_on hax (l := l) (r := r2) (fun a ha => hl a (by simp [ha]))
      (axApplyLoop_on hax (hl ax (by simp)).1 (hl ax (by simp)).2 hs h1) h2

theorem consistentFix_on {axs : List Ax} (hax : ∀ ax ∈ axs, Leads objects sig S T ax)
    (hargs : ∀ ax ∈ axs, ∀ as ∈ ax.arguments, WellTyped objects ax.op.params as) {fuel : Nat} :
    ∀ {k : Nat} {s s' : State}, OnTheWay S T s →
    Pddl.consistentFix (ObjMap.create objects) axs fuel k s = .ok s' → OnTheWay S T s'
  | 0, s, r, _, h => by simp [Pddl.consistentFix] at h
  | k + 1, s, s', hs, h => by
    simp only [Pddl.consistentFix, Res.bind_eq_ok] at h
    obtain ⟨r1, h1, h2⟩ := h
    have := consistentPass_on hax (fun ax hm => ⟨hm, hargs ax hm⟩) hs h1
    split at h2
    · exact consistentFix_on hax hargs this h2
    · simp only [Res.pure_eq, Res.ok.injEq] at h2; subst h2; exact this

/-! ## Only axioms change the state -/

theorem axApplyLoop_within {m : ObjMap} {axs : List Ax} {A : Bool → Name → Prop}
    (hA : ∀ ax ∈ axs, ∀ sign p, ax.op.eff.Touches sign p → A sign p) {fuel : Nat} {ax : Ax} (hm : ax ∈ axs) :
    ∀ {l : List (List Obj)} {s : State} {r : Bool × State}, axApplyLoop m axs fuel ax l s = .ok r →
    ChangesWithin (fun sign x => A sign x.pred) (· ∈ s) (· ∈ r.2)
  | [], s, r, h => by simp only [axApplyLoop, Res.ok.injEq] at h; subst h; exact .refl _ _
  | as :: l, s, r, h => by
    simp only [axApplyLoop, Res.bind_eq_ok, Res.pure_eq, Res.ok.injEq] at h
    obtain ⟨b, -, r1, h1, r2, h2, rfl⟩ := h
    refine ChangesWithin.trans ?_ (axApplyLoop_within hA hm (r := r2) h2)
    cases b
    · simp only [Bool.false_eq_true, if_false, Res.ok.injEq] at h1; subst h1; exact .refl _ _
    · exact Op.apply_rel (within_rel A) hA (hA ax hm) h1

theorem consistentPass_within {m : ObjMap} {axs : List Ax} {A : Bool → Name → Prop}
    (hA : ∀ ax ∈ axs, ∀ sign p, ax.op.eff.Touches sign p → A sign p) {fuel : Nat} :
    ∀ {l : List Ax} {s : State} {r : Bool × State}, (∀ ax ∈ l, ax ∈ axs) → Pddl.consistentPass m axs fuel l s = .ok r →
    ChangesWithin (fun sign x => A sign x.pred) (· ∈ s) (· ∈ r.2)
  | [], s, r, _, h => by simp only [Pddl.consistentPass, Res.ok.injEq] at h; subst h; exact .refl _ _
  | ax :: l, s, r, hl, h => by
    simp only [Pddl.consistentPass, Res.bind_eq_ok, Res.pure_eq, Res.ok.injEq] at h
    obtain ⟨r1, h1, r2, h2, rfl⟩ := h
    exact (axApplyLoop_within hA (hl ax (by simp)) h1).trans
      (consistentPass_within hA (r := r2) (fun a ha => hl a (by simp [ha])) h2)

theorem consistentFix_within {m : ObjMap} {axs : List Ax} {A : Bool → Name → Prop}
    (hA : ∀ ax ∈ axs, ∀ sign p, ax.op.eff.Touches sign p → A sign p) {fuel : Nat} :
    ∀ {k : Nat} {s s' : State}, Pddl.consistentFix m axs fuel k s = .ok s' →
    ChangesWithin (fun sign x => A sign x.pred) (· ∈ s) (· ∈ s')
  | 0, s, r, h => by simp [Pddl.consistentFix] at h
  | k + 1, s, s', h => by
    simp only [Pddl.consistentFix, Res.bind_eq_ok] at h
    obtain ⟨r1, h1, h2⟩ := h
    have := consistentPass_within hA (fun _ h => h) h1
    split at h2
    · exact this.trans (consistentFix_within hA h2)
    · simp only [Res.pure_eq, Res.ok.injEq] at h2; subst h2; exact this

end

end Symbolic
