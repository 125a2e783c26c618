import Verif.Lemmas.Trigger

namespace Symbolic

/-! ## Exactly the triggered instances fire -/

/-- Run the given axiom instances one after the other. -/
def runInsts {σ : Type} (run : Ax → List Obj → σ → Res (Nat × σ)) : List (Ax × List Obj) → σ → Res σ
  | [], s => .ok s
  | (ax, as) :: rest, s => do
    let r ← run ax as s
    runInsts run rest r.2

section
variable {σ : Type}

theorem axMatch_apply {params args : List Obj} {ts : List Term} (hlen : params.length = args.length)
    (hn : (params.map Obj.name).Nodup) (hs : ∀ t ∈ ts, t.Scoped (params.map Obj.name)) {op : Op} (hlin : op.Linear)
    (hl : ts.length = op.ctx.length) :
    ∃ r, (do
      let mt ← axMatch params (ts.map Term.obj) op.params (op.ctx.map Term.obj)
      match mt with
      | none => (pure none : Res (Option (List Obj)))
      | some mt => mt.apply args) = .ok r ∧
      ∀ as, r = some as ↔ op.Triggered as (ts.map (Term.value params args)) := by
  have h := axMatchLoop_spec (axParams := op.params) hlen hn ts op.ctx ⟨op.params, [], []⟩ op.params true hl hs hlin.once
    hlin.inScope rfl rfl rfl (by simp)
  refine ⟨_, h, fun as => ?_⟩
  rw [← fill_triggered hlin (by simpa using hl.symm) as]
  simp only [Bool.true_and]
  by_cases hc : constsOk op.params (op.ctx.zip (ts.map (Term.value params args))) = true
  · simp [hc, eq_comm]
  · simp [hc]

theorem fireLoop_spec {run : Ax → List Obj → σ → Res (Nat × σ)} {sign : Bool} {pred : Name} {params args : List Obj}
    {ts : List Term} (hlen : params.length = args.length)
    (hn : (params.map Obj.name).Nodup) (hs : ∀ t ∈ ts, t.Scoped (params.map Obj.name)) :
    ∀ (axs : List Ax), (∀ ax ∈ axs, ax.pos = sign → ax.pred = pred → ax.op.Linear ∧
      ax.ctxArgs = ax.op.ctx.map Term.obj ∧ ax.op.ctx.length = ts.length) →
    ∃ insts : List (Ax × List Obj), (insts.map Prod.fst).Sublist axs ∧
      (∀ s, fireLoop run sign pred params (ts.map Term.obj) args axs s = runInsts run insts s) ∧
      ∀ ax as, (ax, as) ∈ insts ↔ ax ∈ axs ∧ ax.pos = sign ∧ ax.pred = pred ∧
        ax.op.Triggered as (ts.map (Term.value params args))
  | [], _ => ⟨[], by simp, fun s => rfl, by simp⟩
  | ax :: axs, h => by
    obtain ⟨insts, h1, h2, h3⟩ := fireLoop_spec (run := run) hlen hn hs axs (fun a ha => h a (by simp [ha]))
    have hcase : (∃ as, ax.pos = sign ∧ ax.pred = pred ∧ ax.op.Triggered as (ts.map (Term.value params args)) ∧
        (∀ as', ax.op.Triggered as' (ts.map (Term.value params args)) → as' = as) ∧
        ∀ s, fireLoop run sign pred params (ts.map Term.obj) args (ax :: axs) s = runInsts run ((ax, as) :: insts) s) ∨
        ((∀ as, ¬ (ax.pos = sign ∧ ax.pred = pred ∧ ax.op.Triggered as (ts.map (Term.value params args)))) ∧
        ∀ s, fireLoop run sign pred params (ts.map Term.obj) args (ax :: axs) s = runInsts run insts s) := by
      by_cases hm : ax.pos = sign ∧ ax.pred = pred
      · obtain ⟨hlin, hctx, hcl⟩ := h ax (by simp) hm.1 hm.2
        obtain ⟨r, hr1, hr2⟩ := axMatch_apply hlen hn hs hlin hcl.symm
        rw [Res.bind_eq_ok] at hr1
        obtain ⟨mt, hmt, hr1⟩ := hr1
        cases mt with
        | none =>
          simp only [Res.pure_eq, Res.ok.injEq] at hr1
          subst hr1
          right
          refine ⟨fun as ⟨_, _, ht⟩ => by simpa using (hr2 as).2 ht, fun s => ?_⟩
          simp only [fireLoop, hm, and_self, if_true, hctx, hmt, Res.bind_ok, h2]
        | some mt =>
          simp only at hr1
          cases r with
          | none =>
            right
            refine ⟨fun as ⟨_, _, ht⟩ => by simpa using (hr2 as).2 ht, fun s => ?_⟩
            simp only [fireLoop, hm, and_self, if_true, hctx, hmt, Res.bind_ok, hr1, h2]
          | some as =>
            left
            refine ⟨as, hm.1, hm.2, (hr2 as).1 rfl, fun as' ht => ?_, fun s => ?_⟩
            · have := (hr2 as').2 ht
              simpa using this.symm
            · simp only [fireLoop, hm, and_self, if_true, hctx, hmt, Res.bind_ok, hr1, h2, runInsts]
      · right
        refine ⟨fun as ⟨a, b, _⟩ => hm ⟨a, b⟩, fun s => ?_⟩
        simp only [fireLoop, hm, if_false, h2]
    rcases hcase with ⟨as, e1, e2, ht, hu, he⟩ | ⟨hno, he⟩
    · refine ⟨(ax, as) :: insts, by simpa using h1, he, fun ax' as' => ?_⟩
      simp only [List.mem_cons, Prod.mk.injEq, h3]
      constructor
      · rintro (⟨rfl, rfl⟩ | ⟨h5, h6⟩)
        · exact ⟨Or.inl rfl, e1, e2, ht⟩
        · exact ⟨Or.inr h5, h6⟩
      · rintro ⟨rfl | h5, h6, h7, h8⟩
        · exact Or.inl ⟨rfl, hu _ h8⟩
        · exact Or.inr ⟨h5, h6, h7, h8⟩
    · refine ⟨insts, h1.trans (List.sublist_cons_self _ _), he, fun ax' as' => ?_⟩
      rw [h3]
      constructor
      · rintro ⟨h5, h6⟩; exact ⟨by simp [h5], h6⟩
      · rintro ⟨h5, h6⟩
        rcases List.mem_cons.1 h5 with rfl | h5
        · exact absurd h6 (hno as')
        · exact ⟨h5, h6⟩

end

/-! ## Groundness -/

theorem applyLoop_mem {U : Obj → Prop} {args : List Obj} (ha : ∀ a ∈ args, U a) :
    ∀ {idx : List (Nat × Nat)} {buf buf' : List Obj}, applyLoop args idx buf = .ok buf' →
    (∀ (k : Nat) o, buf[k]? = some o → U o ∨ ∃ j, (k, j) ∈ idx) → (∀ o ∈ buf', U o) ∧ buf'.length = buf.length
  | [], buf, buf', h, hb => by
    simp only [applyLoop, Res.ok.injEq] at h
    subst h
    refine ⟨fun o ho => ?_, rfl⟩
    obtain ⟨k, hk⟩ := List.mem_iff_getElem?.1 ho
    simpa using hb k o hk
  | (i, j) :: idx, buf, buf', h, hb => by
    simp only [applyLoop, Res.bind_eq_ok] at h
    obtain ⟨a, h1, h2⟩ := h
    split at h2
    · rename_i hi
      obtain ⟨h3, h4⟩ := applyLoop_mem ha h2 (by
        intro k o hk
        by_cases e : i = k
        · subst e
          rw [List.getElem?_set_self hi] at hk
          cases hk
          exact Or.inl (ha _ (List.mem_of_getElem? (Res.index_eq_ok.1 h1)))
        · rw [List.getElem?_set_ne e] at hk
          rcases hb k o hk with h | ⟨j', hj'⟩
          · exact Or.inl h
          · right
            simp only [List.mem_cons, Prod.mk.injEq] at hj'
            rcases hj' with ⟨rfl, -⟩ | hj'
            · exact absurd rfl e
            · exact ⟨j', hj'⟩)
      exact ⟨h3, by simpa using h4⟩
    · simp at h2

theorem axMatchLoop_mem {U : Obj → Prop} {actionParams axParams : List Obj} :
    ∀ (effs ctx : List Obj) (acc mt : AxMatch), effs.length = ctx.length →
    (∀ o ∈ effs, firstIdx o actionParams = none → U o) →
    (∀ (k : Nat) o, acc.args[k]? = some o → U o ∨ (∃ j, (k, j) ∈ acc.idx) ∨ ∃ q ∈ ctx, firstIdx q axParams = some k) →
    axMatchLoop actionParams axParams effs ctx acc = .ok (some mt) →
    ∀ (k : Nat) o, mt.args[k]? = some o → U o ∨ ∃ j, (k, j) ∈ mt.idx
  | [], [], acc, mt, _, _, h, hm => by
    simp only [axMatchLoop, Res.ok.injEq, Option.some.injEq] at hm
    subst hm
    simpa using h
  | [], _ :: _, _, _, h, _, _, _ => by simp at h
  | _ :: _, [], _, _, h, _, _, _ => by simp at h
  | p :: effs, q :: ctx, acc, mt, hl, he, h, hm => by
    have hl' : effs.length = ctx.length := by simpa using hl
    have he' : ∀ o ∈ effs, firstIdx o actionParams = none → U o := fun o ho => he o (by simp [ho])
    simp only [axMatchLoop] at hm
    have noq : firstIdx q axParams = none → ∀ (k : Nat) o, acc.args[k]? = some o →
        U o ∨ (∃ j, (k, j) ∈ acc.idx) ∨ ∃ q ∈ ctx, firstIdx q axParams = some k := by
      intro hq k o hk
      rcases h k o hk with h | h | ⟨q', hq', hi⟩
      · exact Or.inl h
      · exact Or.inr (Or.inl h)
      · rcases List.mem_cons.1 hq' with rfl | hq'
        · rw [hq] at hi; simp at hi
        · exact Or.inr (Or.inr ⟨q', hq', hi⟩)
    cases hi : firstIdx q axParams with
    | none =>
      cases hj : firstIdx p actionParams with
      | none =>
        rw [hi, hj] at hm
        simp only at hm
        split at hm
        · exact axMatchLoop_mem effs ctx acc mt hl' he' (noq hi) hm
        · simp at hm
      | some j =>
        rw [hi, hj] at hm
        exact axMatchLoop_mem effs ctx ⟨acc.args, acc.idx, acc.future ++ [(j, q)]⟩ mt hl' he' (noq hi) hm
    | some i =>
      cases hj : firstIdx p actionParams with
      | none =>
        rw [hi, hj] at hm
        refine axMatchLoop_mem effs ctx _ mt hl' he' ?_ hm
        intro k o hk
        simp only at hk ⊢
        by_cases e : i = k
        · subst e
          by_cases hlt : i < acc.args.length
          · rw [List.getElem?_set_self hlt] at hk
            cases hk
            exact Or.inl (he p (by simp) hj)
          · rw [List.getElem?_eq_none (by simp; omega)] at hk; simp at hk
        · rw [List.getElem?_set_ne e] at hk
          rcases h k o hk with h | h | ⟨q', hq', hi'⟩
          · exact Or.inl h
          · exact Or.inr (Or.inl h)
          · rcases List.mem_cons.1 hq' with rfl | hq'
            · rw [hi] at hi'; simp only [Option.some.injEq] at hi'; exact absurd hi' e
            · exact Or.inr (Or.inr ⟨q', hq', hi'⟩)
      | some j =>
        rw [hi, hj] at hm
        refine axMatchLoop_mem effs ctx _ mt hl' he' ?_ hm
        intro k o hk
        simp only at hk ⊢
        rcases h k o hk with h | ⟨j', h⟩ | ⟨q', hq', hi'⟩
        · exact Or.inl h
        · exact Or.inr (Or.inl ⟨j', by simp [h]⟩)
        · rcases List.mem_cons.1 hq' with rfl | hq'
          · rw [hi] at hi'
            simp only [Option.some.injEq] at hi'
            subst hi'
            exact Or.inr (Or.inl ⟨j, by simp⟩)
          · exact Or.inr (Or.inr ⟨q', hq', hi'⟩)

theorem axMatchLoop_args_length {actionParams axParams : List Obj} : ∀ (effs ctx : List Obj) (acc mt : AxMatch),
    axMatchLoop actionParams axParams effs ctx acc = .ok (some mt) → mt.args.length = acc.args.length
  | [], ctx, acc, mt, h => by
    cases ctx <;> simp only [axMatchLoop, Res.ok.injEq, Option.some.injEq] at h <;> rw [h]
  | _ :: _, [], _, _, h => by simp [axMatchLoop] at h
  | p :: effs, q :: ctx, acc, mt, h => by
    simp only [axMatchLoop] at h
    cases hi : firstIdx q axParams <;> cases hj : firstIdx p actionParams <;> rw [hi, hj] at h <;> simp only at h
    · split at h
      · exact axMatchLoop_args_length effs ctx _ mt h
      · simp at h
    · have := axMatchLoop_args_length effs ctx _ mt h
      exact this
    · simpa using axMatchLoop_args_length effs ctx _ mt h
    · have := axMatchLoop_args_length effs ctx _ mt h
      exact this

theorem Op.Linear.covered {op : Op} (h : op.Linear) : op.Covered := ⟨h.nodup, h.covers⟩

theorem Op.Covered.idx {op : Op} (h : op.Covered) {k : Nat} (hk : k < op.params.length) :
    ∃ q ∈ op.ctx.map Term.obj, firstIdx q op.params = some k := by
  obtain ⟨v, hv, hvn⟩ := mem_varNames.1 (h.covers op.params[k] (List.getElem_mem hk))
  refine ⟨v, List.mem_map.2 ⟨_, hv, rfl⟩, ?_⟩
  cases hi : firstIdx v op.params with
  | none =>
    have := firstIdx_none.1 hi
    rw [hvn] at this
    exact absurd (List.mem_map.2 ⟨_, List.getElem_mem hk, rfl⟩) this
  | some i =>
    obtain ⟨p, h1, h2⟩ := firstIdx_some hi
    obtain ⟨hi', rfl⟩ := List.getElem?_eq_some_iff.1 h1
    have hnd := h.nodup
    rw [List.nodup_iff_injective_getElem] at hnd
    have := @hnd ⟨i, by simpa using hi'⟩ ⟨k, by simpa using hk⟩ (by simp [h2, hvn])
    simp only [Fin.mk.injEq] at this
    rw [this]

section
variable {σ : Type} [StateLike σ]

/-- An invariant of states kept by operations on ground atoms. -/
structure KeepsGround (objects : List Obj) (G : σ → Prop) : Prop where
  insert : ∀ s x, Ground objects x → G s → G (StateLike.insert s x).2
  erase : ∀ s x, Ground objects x → G s → G (StateLike.erase s x).2

def FireGround (arity : Name → Nat) (objects : List Obj) (G : σ → Prop) (fire : Fire σ) : Prop :=
  ∀ sign pred (ts : List Term) params args s s', params.length = args.length → (∀ a ∈ args, a ∈ objects) →
    ts.length = arity pred →
    (∀ t ∈ ts, (∀ v, t = .var v → v.name ∈ params.map Obj.name) ∧ ∀ c, t = .const c → c ∈ objects) →
    G s → fire sign pred params (ts.map Term.obj) args s = .ok s' → G s'

variable {arity : Name → Nat} {objects : List Obj} {G : σ → Prop} {m : ObjMap} {fire : Fire σ}

theorem applySimple_ground (hG : KeepsGround objects G) (hf : FireGround arity objects G fire) {sign : Bool}
    {pred : Name} {ts : List Term} {params args : List Obj} {s : σ} {r : Nat × σ} (hlen : params.length = args.length)
    (ha : ∀ a ∈ args, a ∈ objects) (hl : ts.length = arity pred)
    (hts : ∀ t ∈ ts, (∀ v, t = .var v → v.name ∈ params.map Obj.name) ∧ ∀ c, t = .const c → c ∈ objects)
    (hs : G s) (h : applySimple m fire sign pred ts params args s = .ok r) : G r.2 := by
  have hg : Ground objects (Atom.ofObjs pred (ts.map (Term.value params args))) := by
    refine ⟨ts.map (Term.value params args), ?_, rfl⟩
    intro o ho
    obtain ⟨t, ht, rfl⟩ := List.mem_map.1 ho
    refine resolve_mem (U := (· ∈ objects)) _ _ _ _ hlen ha ?_
    cases t with
    | var v => exact Or.inl ((hts _ ht).1 v rfl)
    | const c => exact Or.inr ((hts _ ht).2 c rfl)
  simp only [applySimple, applyFn_terms params args ts (Nat.le_of_eq hlen), Res.bind_ok] at h
  cases hk : atomKind m pred <;> simp only [hk, Res.bind_eq_ok] at h
  · obtain ⟨a, -, b, -, h⟩ := h
    split at h
    · simp only [Res.pure_eq, Res.ok.injEq] at h; subst h; exact hs
    · simp at h
  · obtain ⟨a, -, h⟩ := h
    split at h
    · simp only [Res.pure_eq, Res.ok.injEq] at h; subst h; exact hs
    · simp at h
  · cases sign
    · simp only [Bool.false_eq_true, if_false] at h
      split at h
      · simp only [Res.pure_eq, Res.ok.injEq] at h
        rw [← h]; exact hG.erase s _ hg hs
      · simp only [Res.bind_eq_ok, Res.pure_eq, Res.ok.injEq] at h
        obtain ⟨s', h1, h2⟩ := h
        rw [← h2]; exact hf _ _ _ _ _ _ _ hlen ha hl hts (hG.erase s _ hg hs) h1
    · simp only [if_true] at h
      split at h
      · simp only [Res.pure_eq, Res.ok.injEq] at h
        rw [← h]; exact hG.insert s _ hg hs
      · simp only [Res.bind_eq_ok, Res.pure_eq, Res.ok.injEq] at h
        obtain ⟨s', h1, h2⟩ := h
        rw [← h2]; exact hf _ _ _ _ _ _ _ hlen ha hl hts (hG.insert s _ hg hs) h1

theorem applySimples_ground (hG : KeepsGround objects G) (hf : FireGround arity objects G fire) {sign : Bool}
    {params args : List Obj} (hlen : params.length = args.length) (ha : ∀ a ∈ args, a ∈ objects) :
    ∀ {l : List (Name × List Term)} {s : σ} {r : Nat × σ}, ClosedLits arity objects (params.map Obj.name) l → G s →
    applySimples m fire sign params args l s = .ok r → G r.2
  | [], s, r, _, hs, h => by simp only [applySimples, Res.ok.injEq] at h; subst h; exact hs
  | (pred, ts) :: l, s, r, hl, hs, h => by
    simp only [applySimples, Res.bind_eq_ok, Res.pure_eq, Res.ok.injEq] at h
    obtain ⟨r1, h1, r2, h2, rfl⟩ := h
    have h0 := hl pred ts (by simp)
    show G r2.2
    exact applySimples_ground (l := l) hG hf hlen ha (fun p t hm => hl p t (by simp [hm]))
      (applySimple_ground hG hf hlen ha h0.1 h0.2 hs h1) h2

omit [StateLike σ] in
theorem loopEff_inv {f : List Obj → σ → Res (Nat × σ)} : ∀ {l : List (List Obj)} {s : σ} {r : Nat × σ},
    (∀ os ∈ l, ∀ s r, G s → f os s = .ok r → G r.2) → G s → loopEff f l s = .ok r → G r.2
  | [], s, r, _, hs, h => by simp only [loopEff, Res.ok.injEq] at h; subst h; exact hs
  | os :: l, s, r, hf, hs, h => by
    simp only [loopEff, Res.bind_eq_ok, Res.pure_eq, Res.ok.injEq] at h
    obtain ⟨r1, h1, r2, h2, rfl⟩ := h
    show G r2.2
    exact loopEff_inv (l := l) (fun o ho => hf o (by simp [ho])) (hf os (by simp) _ _ hs h1) h2

theorem gen_mem {objects vars : List Obj} {l : List (List Obj)}
    (h : genLoop (paramTypes (ObjMap.create objects) vars) = .ok l) {os : List Obj} (ho : os ∈ l) :
    WellTyped objects vars os := by
  by_cases hv : vars = []
  · subst hv
    have : l = [] := by
      have h0 : genLoop (paramTypes (ObjMap.create objects) []) = .ok [] := rfl
      rw [h0] at h
      cases h; rfl
    subst this; simp at ho
  · obtain ⟨l', h1, h2⟩ := gen_create objects vars hv
    rw [h1] at h
    cases h
    exact (h2 os).1 ho

mutual
theorem Eff.apply_ground (hG : KeepsGround objects G) (hf : FireGround arity objects G fire) :
    ∀ (e : Eff) (params args : List Obj) (s : σ) (r : Nat × σ), params.length = args.length →
    (∀ a ∈ args, a ∈ objects) → e.Closed arity objects (params.map Obj.name) → G s →
    e.apply (ObjMap.create objects) fire params args s = .ok r → G r.2
  | .mk fs adds dels cs, params, args, s, r, hlen, ha, hc, hs, h => by
    simp only [Eff.Closed] at hc
    simp only [Eff.apply, Res.bind_eq_ok, Res.pure_eq, Res.ok.injEq] at h
    obtain ⟨r1, h1, r2, h2, r3, h3, r4, h4, rfl⟩ := h
    show G r4.2
    exact CList.apply_ground hG hf cs _ _ _ _ hlen ha hc.2.2.2
      (applySimples_ground hG hf hlen ha hc.2.2.1
        (applySimples_ground hG hf hlen ha hc.2.1 (FList.apply_ground hG hf fs _ _ _ _ hlen ha hc.1 hs h1) h2) h3) h4
theorem FList.apply_ground (hG : KeepsGround objects G) (hf : FireGround arity objects G fire) :
    ∀ (e : FList) (params args : List Obj) (s : σ) (r : Nat × σ), params.length = args.length →
    (∀ a ∈ args, a ∈ objects) → e.Closed arity objects (params.map Obj.name) → G s →
    e.apply (ObjMap.create objects) fire params args s = .ok r → G r.2
  | .nil, params, args, s, r, _, _, _, hs, h => by
    simp only [FList.apply, Res.ok.injEq] at h; subst h; exact hs
  | .cons vars e rest, params, args, s, r, hlen, ha, hc, hs, h => by
    simp only [FList.Closed] at hc
    simp only [FList.apply, Res.bind_eq_ok, Res.pure_eq, Res.ok.injEq] at h
    obtain ⟨l, hl, r1, h1, r2, h2, rfl⟩ := h
    show G r2.2
    refine FList.apply_ground hG hf rest _ _ _ _ hlen ha hc.2 (loopEff_inv (fun os ho s r hs h => ?_) hs h1) h2
    have hw := gen_mem hl ho
    refine Eff.apply_ground hG hf e _ _ s r (by simp [hlen, hw.length]) ?_ (by simpa using hc.1) hs h
    intro a h
    rcases List.mem_append.1 h with h | h
    · exact ha a h
    · exact (hw.mem h).1
theorem CList.apply_ground (hG : KeepsGround objects G) (hf : FireGround arity objects G fire) :
    ∀ (e : CList) (params args : List Obj) (s : σ) (r : Nat × σ), params.length = args.length →
    (∀ a ∈ args, a ∈ objects) → e.Closed arity objects (params.map Obj.name) → G s →
    e.apply (ObjMap.create objects) fire params args s = .ok r → G r.2
  | .nil, params, args, s, r, _, _, _, hs, h => by
    simp only [CList.apply, Res.ok.injEq] at h; subst h; exact hs
  | .cons g e rest, params, args, s, r, hlen, ha, hc, hs, h => by
    simp only [CList.Closed] at hc
    simp only [CList.apply, Res.bind_eq_ok, Res.pure_eq, Res.ok.injEq] at h
    obtain ⟨b, -, r1, h1, r2, h2, rfl⟩ := h
    show G r2.2
    refine CList.apply_ground hG hf rest _ _ _ _ hlen ha hc.2 ?_ h2
    cases b
    · simp only [Bool.false_eq_true, if_false, Res.ok.injEq] at h1; subst h1; exact hs
    · exact Eff.apply_ground hG hf e _ _ s _ hlen ha hc.1 hs h1
end

omit [StateLike σ] in
theorem fireLoop_ground {run : Ax → List Obj → σ → Res (Nat × σ)} {sign : Bool} {pred : Name}
    {params args : List Obj} {ts : List Term} (ha : ∀ a ∈ args, a ∈ objects)
    (hts : ∀ t ∈ ts, (∀ v, t = .var v → v.name ∈ params.map Obj.name) ∧ ∀ c, t = .const c → c ∈ objects) :
    ∀ {axs : List Ax} {s s' : σ},
    (∀ ax ∈ axs, ax.pred = pred → ax.op.Covered ∧ ax.ctxArgs = ax.op.ctx.map Term.obj ∧ ax.op.ctx.length = ts.length) →
    (∀ ax ∈ axs, ∀ as s r, as.length = ax.op.params.length → (∀ a ∈ as, a ∈ objects) → G s → run ax as s = .ok r →
      G r.2) → G s →
    fireLoop run sign pred params (ts.map Term.obj) args axs s = .ok s' → G s'
  | [], s, s', _, _, hs, h => by simp only [fireLoop, Res.ok.injEq] at h; subst h; exact hs
  | ax :: axs, s, s', hax, hrun, hs, h => by
    have ih := fun s hs => fireLoop_ground (run := run) (sign := sign) (s := s) (s' := s') ha hts (axs := axs)
      (fun a hm => hax a (by simp [hm])) (fun a hm => hrun a (by simp [hm])) hs
    simp only [fireLoop] at h
    split at h
    · rename_i hm
      obtain ⟨hcov, hctx, hcl⟩ := hax ax (by simp) hm.2
      simp only [Res.bind_eq_ok] at h
      obtain ⟨mt, hmt, h⟩ := h
      cases mt with
      | none => exact ih s hs h
      | some mt =>
        simp only [Res.bind_eq_ok] at h
        obtain ⟨as, has, h⟩ := h
        cases as with
        | none => exact ih s hs h
        | some as =>
          simp only [Res.bind_eq_ok] at h
          obtain ⟨r, h1, h2⟩ := h
          have hfill := axMatchLoop_mem (U := (· ∈ objects)) (ts.map Term.obj) ax.ctxArgs ⟨ax.op.params, [], []⟩ mt
            (by simp [hctx, hcl]) (by
              intro o ho hn
              obtain ⟨t, ht, rfl⟩ := List.mem_map.1 ho
              cases t with
              | var v => exact absurd ((hts _ ht).1 v rfl) (firstIdx_none.1 hn)
              | const c => exact (hts _ ht).2 c rfl)
            (by
              intro k o hk
              right; right
              rw [hctx]
              exact hcov.idx (List.getElem?_eq_some_iff.1 hk).1) hmt
          have hal := axMatchLoop_args_length _ _ _ _ hmt
          simp only [AxMatch.apply, Res.bind_eq_ok] at has
          obtain ⟨b, -, has⟩ := has
          cases b with
          | false => simp at has
          | true =>
            simp only [if_true, Res.bind_eq_ok, Res.pure_eq, Res.ok.injEq, Option.some.injEq] at has
            obtain ⟨as', has, rfl⟩ := has
            obtain ⟨h3, h4⟩ := applyLoop_mem ha has hfill
            exact ih _ (hrun ax (by simp) _ _ _ (by rw [h4, hal]) h3 hs h1) h2
    · exact ih s hs h

theorem fireN_ground (hG : KeepsGround objects G) {axs : List Ax}
    (hax : ∀ ax ∈ axs, ax.op.Covered ∧ ax.ctxArgs = ax.op.ctx.map Term.obj ∧ ax.op.ctx.length = arity ax.pred ∧
      ax.op.eff.Closed arity objects (ax.op.params.map Obj.name)) :
    ∀ n, FireGround arity objects G (fireN (σ := σ) (ObjMap.create objects) axs n)
  | 0 => fun _ _ ts params args s s' _ ha hl hts hs h =>
    fireLoop_ground ha hts (fun ax hm hp => ⟨(hax ax hm).1, (hax ax hm).2.1, by rw [(hax ax hm).2.2.1, hl, hp]⟩)
      (by intro _ _ _ _ _ _ _ _ h; simp at h) hs h
  | n + 1 => fun _ _ ts params args s s' _ ha hl hts hs h =>
    fireLoop_ground ha hts (fun ax hm hp => ⟨(hax ax hm).1, (hax ax hm).2.1, by rw [(hax ax hm).2.2.1, hl, hp]⟩)
      (fun ax hm as s r hlen has hs h =>
        Eff.apply_ground hG (fireN_ground hG hax n) ax.op.eff _ _ s r hlen.symm has (hax ax hm).2.2.2 hs h) hs h

end

/-! ## More budget gives the same answer -/

/-- `r'` is `r`, or `r` ran out of budget. -/
def Res.Le (r r' : Res α) : Prop := r = .fuel ∨ r' = r

theorem Res.Le.refl (r : Res α) : r.Le r := Or.inr rfl

theorem Res.Le.bind {r r' : Res α} {f f' : α → Res β} (h : r.Le r') (hf : ∀ a, (f a).Le (f' a)) :
    (r >>= f).Le (r' >>= f') := by
  rcases h with rfl | rfl
  · exact Or.inl rfl
  · cases r' with
    | ok a => exact hf a
    | exc e => exact Or.inr rfl
    | ub => exact Or.inr rfl
    | fuel => exact Or.inr rfl

section
variable {σ : Type} [StateLike σ]

def Fire.Le (f f' : Fire σ) : Prop := ∀ sign pred ps es as s, (f sign pred ps es as s).Le (f' sign pred ps es as s)

theorem applySimple_mono {m : ObjMap} {f f' : Fire σ} (h : Fire.Le f f') (sign : Bool) (pred : Name) (ts : List Term)
    (params args : List Obj) (s : σ) :
    (applySimple m f sign pred ts params args s).Le (applySimple m f' sign pred ts params args s) := by
  unfold applySimple
  refine (Res.Le.refl _).bind (fun os => ?_)
  cases atomKind m pred
  · exact Res.Le.refl _
  · exact Res.Le.refl _
  · dsimp only
    generalize (if sign = true then StateLike.insert s (Atom.ofObjs pred os) else
      StateLike.erase s (Atom.ofObjs pred os)) = r
    split
    · exact Res.Le.refl _
    · exact (h _ _ _ _ _ _).bind (fun _ => Res.Le.refl _)

theorem applySimples_mono {m : ObjMap} {f f' : Fire σ} (h : Fire.Le f f') (sign : Bool) (params args : List Obj) :
    ∀ (l : List (Name × List Term)) (s : σ),
    (applySimples m f sign params args l s).Le (applySimples m f' sign params args l s)
  | [], _ => Res.Le.refl _
  | (pred, ts) :: l, s => (applySimple_mono h sign pred ts params args s).bind
      (fun _ => (applySimples_mono h sign params args l _).bind (fun _ => Res.Le.refl _))

omit [StateLike σ] in
theorem loopEff_mono {f f' : List Obj → σ → Res (Nat × σ)} (h : ∀ os s, (f os s).Le (f' os s)) :
    ∀ (l : List (List Obj)) (s : σ), (loopEff f l s).Le (loopEff f' l s)
  | [], _ => Res.Le.refl _
  | os :: l, s => (h os s).bind (fun _ => (loopEff_mono h l _).bind (fun _ => Res.Le.refl _))

mutual
theorem Eff.apply_mono {m : ObjMap} {f f' : Fire σ} (h : Fire.Le f f') : ∀ (e : Eff) (params args : List Obj) (s : σ),
    (e.apply m f params args s).Le (e.apply m f' params args s)
  | .mk fs adds dels cs, params, args, s => by
    simp only [Eff.apply]
    exact (FList.apply_mono h fs params args s).bind fun _ => (applySimples_mono h _ _ _ _ _).bind fun _ =>
      (applySimples_mono h _ _ _ _ _).bind fun _ => (CList.apply_mono h cs _ _ _).bind fun _ => Res.Le.refl _
theorem FList.apply_mono {m : ObjMap} {f f' : Fire σ} (h : Fire.Le f f') : ∀ (e : FList) (params args : List Obj)
    (s : σ), (e.apply m f params args s).Le (e.apply m f' params args s)
  | .nil, _, _, _ => by simp only [FList.apply]; exact Res.Le.refl _
  | .cons vars e rest, params, args, s => by
    simp only [FList.apply]
    exact (Res.Le.refl _).bind fun _ => (loopEff_mono (fun os s => Eff.apply_mono h e _ _ s) _ _).bind fun _ =>
      (FList.apply_mono h rest _ _ _).bind fun _ => Res.Le.refl _
theorem CList.apply_mono {m : ObjMap} {f f' : Fire σ} (h : Fire.Le f f') : ∀ (e : CList) (params args : List Obj)
    (s : σ), (e.apply m f params args s).Le (e.apply m f' params args s)
  | .nil, _, _, _ => by simp only [CList.apply]; exact Res.Le.refl _
  | .cons g e rest, params, args, s => by
    simp only [CList.apply]
    refine (Res.Le.refl _).bind fun b => Res.Le.bind ?_ fun _ => (CList.apply_mono h rest _ _ _).bind fun _ =>
      Res.Le.refl _
    cases b
    · exact Res.Le.refl _
    · exact Eff.apply_mono h e _ _ _
end

omit [StateLike σ] in
theorem fireLoop_mono {run run' : Ax → List Obj → σ → Res (Nat × σ)} (h : ∀ ax as s, (run ax as s).Le (run' ax as s))
    (sign : Bool) (pred : Name) (ps es as : List Obj) : ∀ (axs : List Ax) (s : σ),
    (fireLoop run sign pred ps es as axs s).Le (fireLoop run' sign pred ps es as axs s)
  | [], _ => Res.Le.refl _
  | ax :: axs, s => by
    have ih := fireLoop_mono h sign pred ps es as axs
    simp only [fireLoop]
    split
    · refine (Res.Le.refl _).bind fun mt => ?_
      cases mt with
      | none => exact ih _
      | some mt =>
        refine (Res.Le.refl _).bind fun as => ?_
        cases as with
        | none => exact ih _
        | some as => exact (h _ _ _).bind fun _ => ih _
    · exact ih _

theorem fireN_mono (m : ObjMap) (axs : List Ax) : ∀ n, Fire.Le (fireN (σ := σ) m axs n) (fireN m axs (n + 1))
  | 0 => fun _ _ _ _ _ _ => fireLoop_mono (fun _ _ _ => Or.inl rfl) _ _ _ _ _ _ _
  | n + 1 => fun _ _ _ _ _ _ =>
    fireLoop_mono (fun ax _ _ => Eff.apply_mono (fireN_mono m axs n) ax.op.eff _ _ _) _ _ _ _ _ _ _

theorem Op.apply_mono (m : ObjMap) (axs : List Ax) (op : Op) (args : List Obj) (s : σ) {n k : Nat} (hnk : n ≤ k)
    (h : op.apply m axs n args s ≠ .fuel) : op.apply m axs k args s = op.apply m axs n args s := by
  induction hnk with
  | refl => rfl
  | step _ ih =>
    rename_i k _
    have := Eff.apply_mono (m := m) (fireN_mono (σ := σ) m axs k) op.eff op.params args s
    rcases this with h1 | h1
    · rw [show op.eff.apply m (fireN m axs k) op.params args s = op.apply m axs k args s from rfl, ih] at h1
      exact absurd h1 h
    · exact Eq.trans h1 ih

end

end Symbolic
