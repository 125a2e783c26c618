import Verif.Lemmas.Cascade

/-!
# Triggered axioms do what they say
-/

namespace Symbolic

/-! ## Which instances are triggered -/

/-- Matching the arguments of a literal is the same as having its atom as context. -/
theorem triggered_context {objects : List Obj} {sig : Name → List Name} {ax : Ax} (h : SortedAx objects sig ax)
    (hnd : (objects.map Obj.name).Nodup) {as os : List Obj} (hr : Respects objects (sig ax.pred) os) :
    ax.op.Triggered as os ↔ ax.op.ContextIs objects as (Atom.ofObjs ax.pred os) := by
  obtain ⟨e1, -, -⟩ := contextOf_ok h.ctx
  constructor
  · intro ht
    obtain ⟨us, h1, h2⟩ := match_denotes ht.2
    exact ⟨h.sorted.wide as os (by rw [e1]; exact hr) ht, us, h1, by simp [Atom.ofObjs, e1, h2]⟩
  · rintro ⟨hw, us, h1, h2⟩
    replace h2 : os.map Obj.name = us.map Obj.name := by
      have := congrArg Atom.args h2
      simpa [Atom.ofObjs] using this
    have hos : ∀ o ∈ os, o ∈ objects := by
      intro o ho
      have := List.forall₂_iff_get.1 hr
      obtain ⟨i, hi, rfl⟩ := List.getElem_of_mem ho
      exact (this.2 i (by rw [this.1]; exact hi) hi).1
    have hfit := envFits_vars (env := Env.none) h.sorted.linear.nodup hw
    refine ⟨hw.length.symm, ?_⟩
    have hin := h.sorted.linear.inScope
    clear hr
    generalize ax.op.ctx = ctx at h1 hin ⊢
    induction h1 generalizing os with
    | nil =>
      cases os with
      | nil => exact .nil
      | cons _ _ => simp at h2
    | @cons t u ts us ht hts ih =>
      cases os with
      | nil => simp at h2
      | cons o os =>
        simp only [List.map_cons, List.cons.injEq] at h2
        refine .cons ?_ (ih h2.2 (fun x hx => hos x (by simp [hx])) (fun x hx => hin x (by simp [hx])))
        cases t with
        | var v =>
          have hv := hin (.var v) (by simp)
          simp only [Term.Scoped, List.mem_map] at hv
          obtain ⟨w, hw', hn⟩ := hv
          have hu := hfit w hw' u (by rw [hn]; exact ht)
          have : o = u := List.inj_on_of_nodup_map hnd (hos o (by simp)) hu.1 h2.1
          subst this
          exact ht
        | const c =>
          have : c = u := ht
          subst this
          exact h2.1.symm

/-- What a literal triggers. -/
def Trig (objects : List Obj) (axs : List Ax) (S : Atom → Prop) (sx sy : Bool × Atom) : Prop :=
  ∃ ax ∈ axs, ax.pos = sx.1 ∧ ∃ as, ax.op.ContextIs objects as sx.2 ∧
    Makes objects S sy.1 (Env.none.bind ax.op.params as) ax.op.eff sy.2

/-- A literal about a plain predicate that respects the signature. -/
def PlainTyped (objects : List Obj) (sig : Name → List Name) (_ : Bool) (pred : Name) (ts : List Term)
    (params args : List Obj) : Prop :=
  params.length = args.length ∧ (params.map Obj.name).Nodup ∧ (∀ t ∈ ts, t.Scoped (params.map Obj.name)) ∧
    pred ≠ n!"=" ∧ ¬ IsType objects pred ∧ Respects objects (sig pred) (ts.map (Term.value params args))

theorem plainTyped_scoped (objects : List Obj) (sig : Name → List Name) : ScopedLits (PlainTyped objects sig) :=
  fun _ _ _ _ _ h => ⟨h.1, h.2.2.1⟩

/-- A condition of an effect. -/
def CondK (K : Prop) (objects : List Obj) (M : Name → Nat → Prop) (g : Goal) (params args : List Obj) : Prop :=
  params.length = args.length ∧ (∀ o ∈ args, o ∈ objects) ∧ g.WF objects (params.map Obj.name) ∧
    (K → ∀ c, g.HasConst c → c ∈ objects) ∧ ∀ pred n, g.Mentions pred n → M pred n

section
variable {objects : List Obj} {sig : Name → List Name} {K : Prop} {M : Name → Nat → Prop}

mutual
theorem Eff.each_plainTyped : ∀ (e : Eff) (params args : List Obj), params.length = args.length →
    (params.map Obj.name).Nodup → (∀ o ∈ args, o ∈ objects) → e.WF objects (params.map Obj.name) →
    e.Fresh (params.map Obj.name) → e.Typed objects sig (Env.none.bind params args) → (K → e.CondsClosed objects) →
    (∀ pred n, e.Asks pred n → M pred n) → e.Each objects (PlainTyped objects sig) (CondK K objects M) params args
  | .mk fs adds dels cs, params, args, hlen, hnd, hargs, hf, hfr, ht, hc, hm => by
    simp only [Eff.WF] at hf
    simp only [Eff.Fresh] at hfr
    simp only [Eff.Typed] at ht
    simp only [Eff.CondsClosed] at hc
    simp only [Eff.Asks] at hm
    simp only [Eff.Each]
    refine ⟨FList.each_plainTyped fs params args hlen hnd hargs hf.1 hfr.1 ht.1 (fun k => (hc k).1)
        (fun a b h => hm a b (.inl h)), fun pred ts h => ?_, fun pred ts h => ?_,
      CList.each_plainTyped cs params args hlen hnd hargs hf.2.2.2 hfr.2 ht.2.2.2 (fun k => (hc k).2)
        (fun a b h => hm a b (.inr h))⟩
    · obtain ⟨h1, h2, h3⟩ := hf.2.1 _ _ h
      exact ⟨hlen, hnd, h1, h2, h3, ht.2.1 _ _ h h2 h3 _ ((forall₂_denotes hlen h1 _).2 rfl)⟩
    · obtain ⟨h1, h2, h3⟩ := hf.2.2.1 _ _ h
      exact ⟨hlen, hnd, h1, h2, h3, ht.2.2.1 _ _ h h2 h3 _ ((forall₂_denotes hlen h1 _).2 rfl)⟩
theorem FList.each_plainTyped : ∀ (e : FList) (params args : List Obj), params.length = args.length →
    (params.map Obj.name).Nodup → (∀ o ∈ args, o ∈ objects) → e.WF objects (params.map Obj.name) →
    e.Fresh (params.map Obj.name) → e.Typed objects sig (Env.none.bind params args) → (K → e.CondsClosed objects) →
    (∀ pred n, e.Asks pred n → M pred n) → e.Each objects (PlainTyped objects sig) (CondK K objects M) params args
  | .nil, _, _, _, _, _, _, _, _, _, _ => trivial
  | .cons vars e rest, params, args, hlen, hnd, hargs, hf, hfr, ht, hc, hm => by
    simp only [FList.WF] at hf
    simp only [FList.Fresh] at hfr
    simp only [FList.Typed] at ht
    simp only [FList.CondsClosed] at hc
    simp only [FList.Asks] at hm
    simp only [FList.Each]
    refine ⟨hf.1, fun os hw => ?_, FList.each_plainTyped rest params args hlen hnd hargs hf.2.2 hfr.2.2 ht.2
      (fun k => (hc k).2) (fun a b h => hm a b (.inr h))⟩
    refine Eff.each_plainTyped e _ _ (by simp [hlen, hw.length]) (by simpa using hfr.1) ?_ (by simpa using hf.2.1)
      (by simpa using hfr.2.1) ?_ (fun k => (hc k).1) (fun a b h => hm a b (.inl h))
    · intro o ho
      rcases List.mem_append.1 ho with ho | ho
      · exact hargs o ho
      · exact (WellTyped.mem hw ho).1
    · rw [Env.bind_append _ _ _ _ _ hlen]; exact ht.1 os hw
theorem CList.each_plainTyped : ∀ (e : CList) (params args : List Obj), params.length = args.length →
    (params.map Obj.name).Nodup → (∀ o ∈ args, o ∈ objects) → e.WF objects (params.map Obj.name) →
    e.Fresh (params.map Obj.name) → e.Typed objects sig (Env.none.bind params args) → (K → e.CondsClosed objects) →
    (∀ pred n, e.Asks pred n → M pred n) → e.Each objects (PlainTyped objects sig) (CondK K objects M) params args
  | .nil, _, _, _, _, _, _, _, _, _, _ => trivial
  | .cons g e rest, params, args, hlen, hnd, hargs, hf, hfr, ht, hc, hm => by
    simp only [CList.WF] at hf
    simp only [CList.Fresh] at hfr
    simp only [CList.Typed] at ht
    simp only [CList.CondsClosed] at hc
    simp only [CList.Asks] at hm
    simp only [CList.Each]
    exact ⟨⟨hlen, hargs, hf.1, fun k => (hc k).1, fun a b h => hm a b (.inl h)⟩,
      Eff.each_plainTyped e params args hlen hnd hargs hf.2.1 hfr.1 ht.1 (fun k => (hc k).2.1)
        (fun a b h => hm a b (.inr (.inl h))),
      CList.each_plainTyped rest params args hlen hnd hargs hf.2.2 hfr.2 ht.2 (fun k => (hc k).2.2)
        (fun a b h => hm a b (.inr (.inr h)))⟩
end

mutual
/-- What an effect makes so respects the signatures. -/
theorem makes_respects {S : Atom → Prop} {sign : Bool} : ∀ (e : Eff) (scope : List Name) (env : Env) (x : Atom),
    e.WF objects scope → e.Typed objects sig env → Makes objects S sign env e x →
    (x.pred ≠ n!"=" ∧ ¬ IsType objects x.pred) ∧
      ∃ os, Respects objects (sig x.pred) os ∧ x = Atom.ofObjs x.pred os
  | .mk fs adds dels cs, scope, env, x, hf, ht, h => by
    simp only [Eff.WF] at hf
    simp only [Eff.Typed] at ht
    simp only [Makes] at h
    rcases h with h | ⟨-, pred, ts, os, hm, hd, rfl⟩ | ⟨-, pred, ts, os, hm, hd, rfl⟩ | h
    · exact makesF_respects fs scope env x hf.1 ht.1 h
    · obtain ⟨-, h2, h3⟩ := hf.2.1 _ _ hm
      exact ⟨⟨h2, h3⟩, os, ht.2.1 _ _ hm h2 h3 _ hd, rfl⟩
    · obtain ⟨-, h2, h3⟩ := hf.2.2.1 _ _ hm
      exact ⟨⟨h2, h3⟩, os, ht.2.2.1 _ _ hm h2 h3 _ hd, rfl⟩
    · exact makesC_respects cs scope env x hf.2.2.2 ht.2.2.2 h
theorem makesF_respects {S : Atom → Prop} {sign : Bool} : ∀ (e : FList) (scope : List Name) (env : Env) (x : Atom),
    e.WF objects scope → e.Typed objects sig env → MakesF objects S sign env e x →
    (x.pred ≠ n!"=" ∧ ¬ IsType objects x.pred) ∧
      ∃ os, Respects objects (sig x.pred) os ∧ x = Atom.ofObjs x.pred os
  | .nil, _, _, _, _, _, h => by simp [MakesF] at h
  | .cons vars e rest, scope, env, x, hf, ht, h => by
    simp only [FList.WF] at hf
    simp only [FList.Typed] at ht
    simp only [MakesF] at h
    rcases h with ⟨os, hw, h⟩ | h
    · exact makes_respects e _ _ x hf.2.1 (ht.1 os hw) h
    · exact makesF_respects rest scope env x hf.2.2 ht.2 h
theorem makesC_respects {S : Atom → Prop} {sign : Bool} : ∀ (e : CList) (scope : List Name) (env : Env) (x : Atom),
    e.WF objects scope → e.Typed objects sig env → MakesC objects S sign env e x →
    (x.pred ≠ n!"=" ∧ ¬ IsType objects x.pred) ∧
      ∃ os, Respects objects (sig x.pred) os ∧ x = Atom.ofObjs x.pred os
  | .nil, _, _, _, _, _, h => by simp [MakesC] at h
  | .cons g e rest, scope, env, x, hf, ht, h => by
    simp only [CList.WF] at hf
    simp only [CList.Typed] at ht
    simp only [MakesC] at h
    rcases h with ⟨-, h⟩ | h
    · exact makes_respects e _ _ x hf.2.1 ht.1 h
    · exact makesC_respects rest scope env x hf.2.2 ht.2 h
end

mutual
theorem Eff.asks_reads : ∀ {e : Eff} {p : Name} {n : Nat}, e.Asks p n → e.Reads p
  | .mk fs adds dels cs, p, n, h => by
    simp only [Eff.Asks] at h
    simp only [Eff.Reads]
    exact h.imp FList.asks_reads CList.asks_reads
theorem FList.asks_reads : ∀ {e : FList} {p : Name} {n : Nat}, e.Asks p n → e.Reads p
  | .nil, _, _, h => by simp [FList.Asks] at h
  | .cons vars e rest, p, n, h => by
    simp only [FList.Asks] at h
    simp only [FList.Reads]
    exact h.imp Eff.asks_reads FList.asks_reads
theorem CList.asks_reads : ∀ {e : CList} {p : Name} {n : Nat}, e.Asks p n → e.Reads p
  | .nil, _, _, h => by simp [CList.Asks] at h
  | .cons g e rest, p, n, h => by
    simp only [CList.Asks] at h
    simp only [CList.Reads]
    exact h.imp (fun h => ⟨n, h⟩) (fun h => h.imp Eff.asks_reads CList.asks_reads)
end

end

/-! ## Firing -/

section
variable {σ : Type} [StateLike σ] [SignedState σ] [SignedLaw σ] {W : Bool × Atom → Prop} {s₀ : σ} {L : List (Bool × Atom)}
  {objects : List Obj} {sig : Name → List Name} {axs : List Ax} {S : Atom → Prop} {K : Prop} {M : Name → Nat → Prop}

/-- What is asked of firing: what the literal triggers is so afterwards. -/
def FireEnds (objects : List Obj) (sig : Name → List Name) (axs : List Ax) (S : Atom → Prop) (W : Bool × Atom → Prop) (s₀ : σ)
    (L : List (Bool × Atom)) (fire : Fire σ) (n : Nat) : Prop :=
  ∀ sign pred ts params args s, PlainTyped objects sig sign pred ts params args → W (litAt sign params args (pred, ts)) →
    ¬ SignedState.Holds s₀ (litAt sign params args (pred, ts)) → FrameW W s₀ s → gap L s < n →
    ∃ s', fire sign pred params (ts.map Term.obj) args s = .ok s' ∧
      Run W (Trig objects axs S) (Trig objects axs S (litAt sign params args (pred, ts))) s s'

/-- One literal with the axioms it triggers. -/
theorem litEnds {fire : Fire σ} {n : Nat} (hC : Closure W (Trig objects axs S) s₀ L)
    (hf : FireEnds objects sig axs S W s₀ L fire n) :
    LitEnds objects (PlainTyped objects sig) W (Trig objects axs S) s₀ L fire n := by
  intro sign pred ts params args s hq hw hr hg
  obtain ⟨hlen, hnd, hs, ne, nt, hres⟩ := hq
  have hk : atomKind (ObjMap.create objects) pred = .plain := (atomKind_create objects pred).2.2.2 ⟨ne, nt⟩
  simp only [applySimple, applyFn_terms params args ts (Nat.le_of_eq hlen), Res.bind_ok, hk]
  have hlit : litAt sign params args (pred, ts) = (sign, Atom.ofObjs pred (ts.map (Term.value params args))) := rfl
  have hf := hf sign pred ts params args
  rw [hlit] at hw hf ⊢
  generalize Atom.ofObjs pred (ts.map (Term.value params args)) = x at *
  rw [show (if sign = true then StateLike.insert s x else StateLike.erase s x) = stepS sign x s from rfl]
  have step : FrameW W s (stepS sign x s).2 := by
    rintro ⟨sg, y⟩
    constructor
    · intro h1 h2
      rcases SignedLaw.step_back sign x s _ h2 with e | e
      · rw [e]; exact hw
      · exact absurd e h1
    · intro h1 h2
      by_cases e : ((sg, y) : Bool × Atom) = (!sign, x)
      · simp only [Prod.mk.injEq] at e
        obtain ⟨rfl, rfl⟩ := e
        simpa using hw
      · exact absurd (SignedState.step_other sign x s _ e h1) h2
  by_cases hc : (stepS sign x s).1 = 0
  · simp only [hc, if_true, Res.pure_eq]
    have e := SignedState.step_zero sign x s hc
    refine ⟨0, s, by rw [← hc, ← show (stepS sign x s) = ((stepS sign x s).1, s) from Prod.ext rfl e], ⟨.refl s, ?_, ?_⟩,
      fun h => absurd rfl h, fun _ => rfl, fun h => absurd h (by omega)⟩
    · rintro _ rfl
      have := SignedState.step_self sign x s
      rwa [e] at this
    · exact fun _ h h' => absurd h' h
  · simp only [hc, if_false]
    have hn := SignedState.step_code sign x s hc
    have hself := SignedState.step_self sign x s
    have hlt : gap L (stepS sign x s).2 < gap L s :=
      gap_lt (fun sx hm h => step.keeps hC.oneWay ((hC.list sx).1 hm) h) ((hC.list _).2 hw) hn hself
    obtain ⟨s', e, hrun⟩ := hf (stepS sign x s).2 ⟨hlen, hnd, hs, ne, nt, hres⟩ hw (hC.fresh hr hw hn) (hr.trans step) (by omega)
    refine ⟨(stepS sign x s).1, s', by simp [e], ⟨step.trans hrun.frame, ?_, ?_⟩, fun _ => ⟨(sign, x), hw, hn, ?_⟩,
      fun h => absurd h hc, fun h => ⟨(sign, x), hw, SignedLaw.step_two sign x s h⟩⟩
    · rintro _ rfl
      exact hrun.frame.keeps hC.oneWay hw hself
    · intro sx h1 h2 sy hy
      by_cases h3 : SignedState.Holds (stepS sign x s).2 sx
      · rcases SignedLaw.step_back sign x s _ h3 with e | e
        · rw [e] at hy
          exact hrun.done sy hy
        · exact absurd e h1
      · exact hrun.trig sx h3 h2 sy hy
    · exact hrun.frame.keeps hC.oneWay hw hself

omit [StateLike σ] [SignedState σ] [SignedLaw σ] in
theorem contextIs_pred {op : Op} {as : List Obj} {x : Atom} (h : op.ContextIs objects as x) : x.pred = op.ctxPred := by
  obtain ⟨-, _, -, rfl⟩ := h
  rfl

omit [SignedLaw σ] in
theorem runInsts_run {n : Nat} {Tr : Bool × Atom → Bool × Atom → Prop} (hC : Closure W Tr s₀ L)
    {run : Ax → List Obj → σ → Res (Nat × σ)} {N : Ax × List Obj → Bool × Atom → Prop} :
    ∀ (l : List (Ax × List Obj)) (s : σ), (∀ i ∈ l, ∀ sx, N i sx → W sx) →
    (∀ i ∈ l, ∀ s, FrameW W s₀ s → gap L s ≤ n → Ends W Tr (N i) s (run i.1 i.2 s)) → FrameW W s₀ s → gap L s ≤ n →
    ∃ s', runInsts run l s = .ok s' ∧ Run W Tr (fun sx => ∃ i ∈ l, N i sx) s s'
  | [], s, _, _, _, _ => ⟨s, rfl, (Run.refl s).congr (by simp)⟩
  | (ax, as) :: l, s, hw, hf, hr, hg => by
    obtain ⟨k, s', e, h1, -⟩ := hf (ax, as) (by simp) s hr hg
    have hg' := hC.gap_le h1.frame
    obtain ⟨s'', e', h2⟩ := runInsts_run hC l s' (fun i h => hw i (by simp [h])) (fun i h => hf i (by simp [h]))
      (hr.trans h1.frame) (by omega)
    refine ⟨s'', by simp [runInsts, e, e'], (h1.trans hC hr (hw _ (by simp)) h2).congr ?_⟩
    rintro sx ⟨i, hm, hx⟩
    rcases List.mem_cons.1 hm with rfl | hm
    · exact .inl hx
    · exact .inr ⟨i, hm, hx⟩

omit [SignedLaw σ] in
theorem fireLoop_ends {n : Nat} (hC : Closure W (Trig objects axs S) s₀ L) (hnd : (objects.map Obj.name).Nodup)
    (hax : ∀ ax ∈ axs, SortedAx objects sig ax) {run : Ax → List Obj → σ → Res (Nat × σ)}
    (hrun : ∀ ax ∈ axs, ∀ as, WellTyped objects ax.op.params as →
      (∀ sx : Bool × Atom, Makes objects S sx.1 (Env.none.bind ax.op.params as) ax.op.eff sx.2 → W sx) →
      ∀ s, FrameW W s₀ s → gap L s ≤ n →
      Ends W (Trig objects axs S) (fun sx => Makes objects S sx.1 (Env.none.bind ax.op.params as) ax.op.eff sx.2) s
        (run ax as s)) :
    FireEnds objects sig axs S W s₀ L (fun sign pred ps es qs s => fireLoop run sign pred ps es qs axs s) (n + 1) := by
  intro sign pred ts params args s hq hw hn hr hg
  obtain ⟨hlen, hpn, hs, ne, nt, hres⟩ := hq
  have hl : ts.length = (sig pred).length := by simpa using (List.Forall₂.length_eq hres).symm
  obtain ⟨insts, -, h2, h3⟩ := fireLoop_spec (run := run) (sign := sign) (pred := pred) hlen hpn hs axs (by
    rintro ax hm - rfl
    have hg := hax ax hm
    obtain ⟨e1, e2, -⟩ := contextOf_ok hg.ctx
    exact ⟨hg.sorted.linear, e2, by rw [hg.sorted.arity, e1, hl]⟩)
  have hctx : ∀ ax as, (ax, as) ∈ insts → ax ∈ axs ∧ ax.pos = sign ∧
      ax.op.ContextIs objects as (Atom.ofObjs pred (ts.map (Term.value params args))) := by
    intro ax as hm
    obtain ⟨h4, h5, h6, h7⟩ := (h3 ax as).1 hm
    subst h6
    exact ⟨h4, h5, (triggered_context (hax ax h4) hnd hres).1 h7⟩
  have hM : ∀ i ∈ insts, ∀ sx : Bool × Atom,
      Makes objects S sx.1 (Env.none.bind i.1.op.params i.2) i.1.op.eff sx.2 → W sx := by
    rintro ⟨ax, as⟩ hm sx hx
    obtain ⟨h4, h5, h6⟩ := hctx ax as hm
    exact hC.closed _ hw hn sx ⟨ax, h4, h5, as, h6, hx⟩
  dsimp only
  rw [h2]
  obtain ⟨s', e, h⟩ := runInsts_run (n := n) hC (run := run)
    (N := fun i sx => Makes objects S sx.1 (Env.none.bind i.1.op.params i.2) i.1.op.eff sx.2) insts s hM
    (fun ⟨ax, as⟩ hm s hr hg => by
      obtain ⟨h4, h5, h6⟩ := hctx ax as hm
      exact hrun ax h4 as h6.1 (hM _ hm) s hr hg) hr (by omega)
  refine ⟨s', e, h.congr ?_⟩
  rintro sy ⟨ax, hm, hpos, as, hc, hy⟩
  have hp : ax.pred = pred := by
    have := contextIs_pred hc
    obtain ⟨e1, -, -⟩ := contextOf_ok (hax ax hm).ctx
    rw [e1] at this
    exact this.symm
  subst hp
  exact ⟨(ax, as), (h3 ax as).2 ⟨hm, hpos, rfl, (triggered_context (hax ax hm) hnd hres).2 hc⟩, hy⟩

/-- What is needed of an axiom. -/
structure CascadeAx (K : Prop) (objects : List Obj) (sig : Name → List Name) (M : Name → Nat → Prop) (ax : Ax) : Prop where
  sorted : SortedAx objects sig ax
  eff : ax.op.eff.WF objects (ax.op.params.map Obj.name)
  closed : K → ax.op.eff.CondsClosed objects
  asks : ∀ pred n, ax.op.eff.Asks pred n → M pred n

theorem CascadeAx.each {ax : Ax} (h : CascadeAx K objects sig M ax) {as : List Obj} (hw : WellTyped objects ax.op.params as) :
    ax.op.eff.Each objects (PlainTyped objects sig) (CondK K objects M) ax.op.params as :=
  Eff.each_plainTyped _ _ _ hw.length h.sorted.sorted.linear.nodup (fun _ ho => (WellTyped.mem hw ho).1) h.eff
    h.sorted.sorted.fresh (h.sorted.sorted.eff as hw) h.closed h.asks

theorem fireN_ends (hC : Closure W (Trig objects axs S) s₀ L) (hnd : (objects.map Obj.name).Nodup)
    (hax : ∀ ax ∈ axs, CascadeAx K objects sig M ax) (hc : CondEnds objects (CondK K objects M) W S s₀) :
    ∀ n, FireEnds objects sig axs S W s₀ L (fireN (ObjMap.create objects) axs n) n
  | 0 => fun _ _ _ _ _ _ _ _ _ _ h => absurd h (Nat.not_lt_zero _)
  | n + 1 => fireLoop_ends hC hnd (fun ax hm => (hax ax hm).sorted) fun ax hm _ hw hW s hr hg =>
      Eff.apply_ends hC (plainTyped_scoped objects sig) (litEnds hC (fireN_ends hC hnd hax hc n)) hc _ _ _ s hw.length
        ((hax ax hm).each hw) hW hr hg

/-- The action with everything it triggers. -/
theorem apply_cascade (hC : Closure W (Trig objects axs S) s₀ L) (hnd : (objects.map Obj.name).Nodup)
    (hax : ∀ ax ∈ axs, CascadeAx K objects sig M ax) (hc : CondEnds objects (CondK K objects M) W S s₀) {op : Op}
    {args : List Obj} (hw : op.params.length = args.length)
    (he : op.eff.Each objects (PlainTyped objects sig) (CondK K objects M) op.params args)
    (hW : ∀ sx : Bool × Atom, Makes objects S sx.1 (Env.none.bind op.params args) op.eff sx.2 → W sx) {n : Nat}
    (hn : gap L s₀ ≤ n) :
    Ends W (Trig objects axs S) (fun sx => Makes objects S sx.1 (Env.none.bind op.params args) op.eff sx.2) s₀
      (op.apply (ObjMap.create objects) axs n args s₀) :=
  Eff.apply_ends hC (plainTyped_scoped objects sig) (litEnds hC (fireN_ends hC hnd hax hc n)) hc _ _ _ s₀ hw he hW (.refl s₀) hn

end

/-! ## Conditions -/

section
variable [StrHash] {objects : List Obj} {W : Bool × Atom → Prop} {M : Name → Nat → Prop}

theorem condEnds_state {s₀ : State} (hM : ∀ pred n, M pred n → ∀ sx, W sx → sx.2.pred ≠ pred) :
    CondEnds objects (CondK False objects M) W (· ∈ s₀) s₀ := by
  rintro g params args s ⟨hlen, -, hwf, -, hm⟩ hr
  obtain ⟨b, h1, h2⟩ := eval_stable (R := fun p => ∀ sx : Bool × Atom, W sx → sx.2.pred ≠ p) (s := s) (s₀ := s₀) (by
    intro x hx
    constructor
    · intro h
      by_contra h0
      exact hx (true, x) ((hr (true, x)).1 (fun h' => h0 (h'.2 rfl)) ⟨fun _ => rfl, fun _ => h⟩) rfl
    · intro h
      by_contra h0
      exact hx (false, x) ((hr (true, x)).2 ⟨fun _ => rfl, fun _ => h⟩ (fun h' => h0 (h'.2 rfl))) rfl)
    hlen hwf (fun p n h => hM p n (hm p n h))
  exact ⟨b, by rw [h1]; rfl, h2⟩

theorem condEnds_partial {p₀ : PartialState} {S : Atom → Prop} (hM : ∀ pred n, M pred n → ∀ sx, W sx → sx.2.pred ≠ pred)
    (hk : Knows objects (· ∈ p₀.pos) (· ∈ p₀.neg) M) (hcons : ∀ x ∈ p₀.pos, x ∉ p₀.neg)
    (hS : Compatible (· ∈ p₀.pos) (· ∈ p₀.neg) S) (s₀ : State) (hs : ∀ x, x ∈ s₀ ↔ S x) :
    CondEnds objects (CondK True objects M) W S p₀ := by
  rintro g params args p ⟨hlen, hargs, hwf, hconst, hm'⟩ hr
  have hS' : (· ∈ s₀) = S := by funext x; exact propext (hs x)
  subst hS'
  obtain ⟨b, hb, hsat⟩ := eval_sat objects s₀ g params args hlen hwf
  refine ⟨b, ?_, hsat⟩
  have e := eval_agree (s := p) (t := s₀) (U := (· ∈ objects)) (M := g.Mentions) (objects := objects) (by
    intro pred os hm hU
    have hnw := hM _ _ (hm' _ _ hm)
    have key : (⟨pred, os.map Obj.name⟩ : Atom) ∈ p.pos ∧ ⟨pred, os.map Obj.name⟩ ∉ p.neg ∧ ⟨pred, os.map Obj.name⟩ ∈ s₀ ∨
        (⟨pred, os.map Obj.name⟩ : Atom) ∈ p.neg ∧ ⟨pred, os.map Obj.name⟩ ∉ p.pos ∧ ⟨pred, os.map Obj.name⟩ ∉ s₀ := by
      have h1 := hS.1 ⟨pred, os.map Obj.name⟩
      have h2 := hS.2 ⟨pred, os.map Obj.name⟩
      rcases hk pred os (hm' _ _ hm) hU with h | h
      · left
        by_contra hc
        refine hnw (false, ⟨pred, os.map Obj.name⟩) ((hr (true, ⟨pred, os.map Obj.name⟩)).2 ?_ ?_) rfl
        · exact ⟨h, hcons _ h⟩
        · exact fun h' => hc ⟨h'.1, h'.2, h1 h⟩
      · right
        by_contra hc
        refine hnw (true, ⟨pred, os.map Obj.name⟩) ((hr (false, ⟨pred, os.map Obj.name⟩)).2 ?_ ?_) rfl
        · exact ⟨h, fun h' => hcons _ h' h⟩
        · exact fun h' => hc ⟨h'.1, h'.2, h2 h⟩
    constructor
    · show (if p.pos.contains _ then Res.ok true else if p.neg.contains _ then Res.ok false
        else Res.exc .unknownEvaluation) = Res.ok (s₀.contains _)
      simp only [State.contains_eq, decide_eq_true_eq, Atom.ofObjs]
      rcases key with ⟨h1, h2, h3⟩ | ⟨h1, h2, h3⟩ <;> simp [h1, h2, h3]
    · show (if p.pos.contains _ then Res.ok false else if p.neg.contains _ then Res.ok true
        else Res.exc .unknownEvaluation) = Res.ok (!s₀.contains _)
      simp only [State.contains_eq, decide_eq_true_eq, Atom.ofObjs]
      rcases key with ⟨h1, h2, h3⟩ | ⟨h1, h2, h3⟩ <;> simp [h1, h2, h3]) (fun _ h => h) g params args hlen hargs hwf
        (hconst trivial) (fun _ _ h => h)
  rw [e, hb]
  rfl

end

end Symbolic
