import Verif.Spec.Trigger
import Verif.Lemmas.EffectRel

namespace Symbolic

/-! ## First and last match -/

theorem firstIdx_none {o : Obj} : ∀ {ps : List Obj}, firstIdx o ps = none ↔ o.name ∉ ps.map Obj.name
  | [] => by simp [firstIdx]
  | p :: ps => by
    by_cases e : p.name = o.name
    · simp [firstIdx, Obj.same, e]
    · have e' : ¬ o.name = p.name := fun h => e h.symm
      simp only [firstIdx, Obj.same, e, decide_false, Bool.false_eq_true, if_false, Option.map_eq_none_iff,
        firstIdx_none (ps := ps), List.map_cons, List.mem_cons, e', false_or]

theorem firstIdx_some {o : Obj} : ∀ {ps : List Obj} {i : Nat}, firstIdx o ps = some i →
    ∃ p, ps[i]? = some p ∧ p.name = o.name
  | [], i, h => by simp [firstIdx] at h
  | p :: ps, i, h => by
    by_cases e : p.name = o.name
    · simp only [firstIdx, Obj.same, e, decide_true, if_true, Option.some.injEq] at h
      subst h; exact ⟨p, rfl, e⟩
    · simp only [firstIdx, Obj.same, e, decide_false, Bool.false_eq_true, if_false, Option.map_eq_some_iff] at h
      obtain ⟨j, hj, rfl⟩ := h
      obtain ⟨q, h1, h2⟩ := firstIdx_some hj
      exact ⟨q, by simpa using h1, h2⟩

theorem firstIdx_lt {o : Obj} {ps : List Obj} {i : Nat} (h : firstIdx o ps = some i) : i < ps.length := by
  obtain ⟨p, h1, -⟩ := firstIdx_some h
  exact (List.getElem?_eq_some_iff.1 h1).1

/-- Different names have different indices. -/
theorem firstIdx_inj {o o' : Obj} {ps : List Obj} {i : Nat} (h : firstIdx o ps = some i)
    (h' : firstIdx o' ps = some i) : o.name = o'.name := by
  obtain ⟨p, h1, h2⟩ := firstIdx_some h
  obtain ⟨p', h1', h2'⟩ := firstIdx_some h'
  rw [h1] at h1'
  cases h1'
  exact h2.symm.trans h2'

/-- With different parameter names the first match is the last match. -/
theorem resolve_firstIdx {o : Obj} : ∀ {ps as : List Obj} {d : Obj} {j : Nat}, (ps.map Obj.name).Nodup →
    ps.length = as.length → firstIdx o ps = some j → as[j]? = some (resolve o ps as d)
  | [], _, _, _, _, _, h => by simp [firstIdx] at h
  | _ :: _, [], _, _, _, hl, _ => by simp at hl
  | p :: ps, a :: as, d, j, hn, hl, h => by
    simp only [List.map_cons, List.nodup_cons] at hn
    by_cases e : p.name = o.name
    · simp only [firstIdx, Obj.same, e, decide_true, if_true, Option.some.injEq] at h
      subst h
      rw [e] at hn
      simp only [resolve, Obj.same, e, decide_true, if_true, resolve_not_mem o ps as a hn.1]
      rfl
    · simp only [firstIdx, Obj.same, e, decide_false, Bool.false_eq_true, if_false, Option.map_eq_some_iff] at h
      obtain ⟨i, hi, rfl⟩ := h
      have := resolve_firstIdx (d := d) hn.2 (by simpa using hl) hi
      have e' : ¬ o.name = p.name := fun h => e h.symm
      simpa [resolve, Obj.same, e'] using this

theorem bind_firstIdx {o : Obj} {ps as : List Obj} {j : Nat} (hn : (ps.map Obj.name).Nodup)
    (hl : ps.length = as.length) (h : firstIdx o ps = some j) : Env.none.bind ps as o.name = as[j]? := by
  have hm : o.name ∈ ps.map Obj.name := by
    by_contra hc
    rw [firstIdx_none.2 hc] at h; simp at h
  rw [Env.bind_apply Env.none o ps as o hl (Or.inr hm), resolve_firstIdx (d := o) hn hl h]

/-! ## Matching -/

/-- What matching the context terms against the objects writes into the parameter list. -/
def fill (params : List Obj) : List (Term × Obj) → List Obj → List Obj
  | [], buf => buf
  | (t, o) :: rest, buf =>
    match firstIdx t.obj params with
    | none => fill params rest buf
    | some i => fill params rest (buf.set i o)

/-- Constants of the context agree with the objects. -/
def constsOk (params : List Obj) : List (Term × Obj) → Bool
  | [] => true
  | (t, o) :: rest =>
    match firstIdx t.obj params with
    | none => decide (t.obj.name = o.name) && constsOk params rest
    | some _ => constsOk params rest

theorem applyLoop_set {args : List Obj} {i : Nat} {o : Obj} : ∀ {idx : List (Nat × Nat)} {buf buf' : List Obj},
    (∀ k ∈ idx, k.1 ≠ i) → applyLoop args idx buf = .ok buf' → applyLoop args idx (buf.set i o) = .ok (buf'.set i o)
  | [], buf, buf', _, h => by simp only [applyLoop, Res.ok.injEq] at h ⊢; rw [h]
  | (k, j) :: idx, buf, buf', hi, h => by
    simp only [applyLoop, Res.bind_eq_ok] at h ⊢
    obtain ⟨a, h1, h2⟩ := h
    refine ⟨a, h1, ?_⟩
    split at h2
    · rename_i hk
      have hne : k ≠ i := hi (k, j) (by simp)
      rw [if_pos (by simpa using hk), List.set_comm _ _ (fun h => hne h.symm)]
      exact applyLoop_set (fun x hx => hi x (by simp [hx])) h2
    · simp at h2

theorem applyLoop_snoc {args : List Obj} {i j : Nat} {o : Obj} {idx : List (Nat × Nat)} {buf buf' : List Obj}
    (h : applyLoop args idx buf = .ok buf') (hj : args[j]? = some o) (hi : i < buf'.length) :
    applyLoop args (idx ++ [(i, j)]) buf = .ok (buf'.set i o) := by
  rw [applyLoop_append, h, Res.bind_ok]
  simp [applyLoop, Res.index, hj, hi]

theorem futureOk_snoc {args : List Obj} {j : Nat} {o a : Obj} (hj : args[j]? = some a) : ∀ {l : List (Nat × Obj)}
    {b : Bool}, futureOk args l = .ok b → futureOk args (l ++ [(j, o)]) = .ok (b && a.same o)
  | [], b, h => by
    simp only [futureOk, Res.ok.injEq] at h
    subst h
    by_cases e : a.same o = true <;> simp [futureOk, Res.index, hj, e]
  | (k, q) :: l, b, h => by
    simp only [List.cons_append, futureOk, Res.bind_eq_ok] at h ⊢
    obtain ⟨c, h1, h2⟩ := h
    refine ⟨c, h1, ?_⟩
    split at h2
    · rename_i hc; rw [if_pos hc]; exact futureOk_snoc hj h2
    · rename_i hc
      rw [if_neg hc]
      simp only [Res.pure_eq, Res.ok.injEq] at h2
      subst h2; simp

/-- The two-phase matching (at construction, at each application) in one formula. -/
theorem axMatchLoop_spec {actionParams args axParams : List Obj} (hlen : actionParams.length = args.length)
    (hn : (actionParams.map Obj.name).Nodup) :
    ∀ (effs ctx : List Term) (acc : AxMatch) (buf : List Obj) (f : Bool), effs.length = ctx.length →
    (∀ t ∈ effs, t.Scoped (actionParams.map Obj.name)) → (varNames ctx).Nodup →
    (∀ t ∈ ctx, t.Scoped (axParams.map Obj.name)) →
    applyLoop args acc.idx acc.args = .ok buf → buf.length = axParams.length → futureOk args acc.future = .ok f →
    (∀ k ∈ acc.idx, ∀ v : Obj, v.name ∈ varNames ctx → firstIdx v axParams ≠ some k.1) →
    (do
      let mt ← axMatchLoop actionParams axParams (effs.map Term.obj) (ctx.map Term.obj) acc
      match mt with
      | none => (pure none : Res (Option (List Obj)))
      | some mt => mt.apply args) =
    .ok (if f && constsOk axParams (ctx.zip (effs.map (Term.value actionParams args))) then
      some (fill axParams (ctx.zip (effs.map (Term.value actionParams args))) buf) else none)
  | [], [], acc, buf, f, _, _, _, _, hb, _, hf, _ => by
    simp only [List.map_nil, axMatchLoop, Res.bind_ok, AxMatch.apply, hf, List.zip_nil_right, constsOk, fill,
      Bool.and_true]
    cases f <;> simp [hb]
  | [], _ :: _, _, _, _, h, _, _, _, _, _, _, _ => by simp at h
  | _ :: _, [], _, _, _, h, _, _, _, _, _, _, _ => by simp at h
  | e :: effs, c :: ctx, acc, buf, f, hl, hes, hcn, hcs, hb, hbl, hf, hk => by
    have hl' : effs.length = ctx.length := by simpa using hl
    have hes' : ∀ t ∈ effs, t.Scoped (actionParams.map Obj.name) := fun t ht => hes t (by simp [ht])
    have hcs' : ∀ t ∈ ctx, t.Scoped (axParams.map Obj.name) := fun t ht => hcs t (by simp [ht])
    have hcn' : (varNames ctx).Nodup := by
      cases c <;> simp only [varNames, List.nodup_cons] at hcn
      · exact hcn.2
      · exact hcn
    have hsub : ∀ n, n ∈ varNames ctx → n ∈ varNames (c :: ctx) := by
      intro n h; cases c <;> simp [varNames, h]
    have hcv : ∀ i, firstIdx c.obj axParams = some i → ∃ v : Obj, c = .var v := by
      intro i hi
      cases c with
      | var v => exact ⟨v, rfl⟩
      | const c =>
        have := hcs (.const c) (by simp)
        have h2 := firstIdx_none.2 this
        simp only [Term.obj] at hi
        rw [h2] at hi; simp at hi
    have hev : firstIdx e.obj actionParams = none → e.value actionParams args = e.obj := by
      intro h; exact resolve_not_mem _ _ _ _ (firstIdx_none.1 h)
    have hej : ∀ j, firstIdx e.obj actionParams = some j → args[j]? = some (e.value actionParams args) :=
      fun j h => resolve_firstIdx hn hlen h
    simp only [List.map_cons, axMatchLoop]
    cases hi : firstIdx c.obj axParams with
    | none =>
      cases hj : firstIdx e.obj actionParams with
      | none =>
        simp only [List.zip_cons_cons, constsOk, hi, fill, hev hj]
        by_cases hs : c.obj.name = e.obj.name
        · have hs' : c.obj.same e.obj = true := by simpa [Obj.same] using hs
          simp only [hs', if_true, hs, decide_true, Bool.true_and]
          exact axMatchLoop_spec hlen hn effs ctx acc buf f hl' hes' hcn' hcs' hb hbl hf
            (fun k hk' v hv => hk k hk' v (hsub _ hv))
        · simp [Obj.same, hs]
      | some j =>
        simp only [List.zip_cons_cons, constsOk, hi, fill]
        have := axMatchLoop_spec hlen hn effs ctx ⟨acc.args, acc.idx, acc.future ++ [(j, c.obj)]⟩ buf _ hl' hes' hcn'
          hcs' hb hbl (futureOk_snoc (hej j hj) hf) (fun k hk' v hv => hk k hk' v (hsub _ hv))
        rw [this]
        congr 1
        simp only [Obj.same, eq_comm (a := (e.value actionParams args).name), Bool.and_assoc]
    | some i =>
      obtain ⟨v, rfl⟩ := hcv i hi
      simp only [Term.obj] at hi
      simp only [varNames, List.nodup_cons] at hcn
      have hfresh : ∀ w : Obj, w.name ∈ varNames ctx → firstIdx w axParams ≠ some i := by
        intro w hw h
        exact hcn.1 (firstIdx_inj hi h ▸ hw)
      have hilt : i < buf.length := by rw [hbl]; exact firstIdx_lt hi
      cases hj : firstIdx e.obj actionParams with
      | none =>
        simp only [List.zip_cons_cons, constsOk, fill, Term.obj, hi, hev hj]
        exact axMatchLoop_spec hlen hn effs ctx ⟨acc.args.set i e.obj, acc.idx, acc.future⟩ (buf.set i e.obj) f hl' hes'
          hcn' hcs' (applyLoop_set (fun k hk' h => hk k hk' v (by simp [varNames]) (h ▸ hi)) hb) (by simpa using hbl) hf
          (fun k hk' w hw => hk k hk' w (hsub _ hw))
      | some j =>
        simp only [List.zip_cons_cons, constsOk, fill, Term.obj, hi]
        exact axMatchLoop_spec hlen hn effs ctx ⟨acc.args, acc.idx ++ [(i, j)], acc.future⟩ _ f hl' hes'
          hcn' hcs' (applyLoop_snoc hb (hej j hj) hilt) (by simpa using hbl) hf (by
            intro k hk' w hw
            rcases List.mem_append.1 hk' with h | h
            · exact hk k h w (hsub _ hw)
            · simp only [List.mem_singleton] at h
              subst h; exact hfresh w hw)

theorem fill_length (params : List Obj) : ∀ (l : List (Term × Obj)) (buf : List Obj),
    (fill params l buf).length = buf.length
  | [], _ => rfl
  | (t, o) :: l, buf => by
    simp only [fill]
    split
    · exact fill_length params l buf
    · rw [fill_length params l]; simp

theorem fill_other {params : List Obj} {k : Nat} : ∀ {l : List (Term × Obj)} {buf : List Obj},
    (∀ t o, (t, o) ∈ l → firstIdx t.obj params ≠ some k) → (fill params l buf)[k]? = buf[k]?
  | [], _, _ => rfl
  | (t, o) :: l, buf, h => by
    have h1 := h t o (by simp)
    have ih := fun b => fill_other (params := params) (k := k) (l := l) (buf := b) (fun t o hm => h t o (by simp [hm]))
    simp only [fill]
    split
    · exact ih _
    · rename_i i hi
      rw [ih, List.getElem?_set_ne]
      rintro rfl; exact h1 hi

theorem mem_varNames {n : Name} : ∀ {ctx : List Term}, n ∈ varNames ctx ↔ ∃ v : Obj, Term.var v ∈ ctx ∧ v.name = n
  | [] => by simp [varNames]
  | .var w :: ctx => by
    simp only [varNames, List.mem_cons, mem_varNames (ctx := ctx)]
    constructor
    · rintro (rfl | ⟨v, h1, h2⟩)
      · exact ⟨w, Or.inl rfl, rfl⟩
      · exact ⟨v, Or.inr h1, h2⟩
    · rintro ⟨v, h1 | h1, h2⟩
      · cases h1; exact Or.inl h2.symm
      · exact Or.inr ⟨v, h1, h2⟩
  | .const w :: ctx => by
    simp only [varNames, List.mem_cons, mem_varNames (ctx := ctx)]
    constructor
    · rintro ⟨v, h1, h2⟩; exact ⟨v, Or.inr h1, h2⟩
    · rintro ⟨v, h1 | h1, h2⟩
      · cases h1
      · exact ⟨v, h1, h2⟩

/-- With each variable at most once, a filled position has the object of that variable. -/
theorem fill_at {params : List Obj} {k : Nat} {v o : Obj} (hk : firstIdx v params = some k) :
    ∀ {ctx : List Term} {os buf : List Obj}, ctx.length = os.length → (varNames ctx).Nodup →
    (∀ t ∈ ctx, t.Scoped (params.map Obj.name)) → buf.length = params.length → (Term.var v, o) ∈ ctx.zip os →
    (fill params (ctx.zip os) buf)[k]? = some o
  | [], _, _, _, _, _, _, h => by simp at h
  | _ :: _, [], _, hl, _, _, _, _ => by simp at hl
  | c :: ctx, p :: os, buf, hl, hn, hs, hb, h => by
    have hl' : ctx.length = os.length := by simpa using hl
    have hs' : ∀ t ∈ ctx, t.Scoped (params.map Obj.name) := fun t ht => hs t (by simp [ht])
    have hn' : (varNames ctx).Nodup := by
      cases c <;> simp only [varNames, List.nodup_cons] at hn
      · exact hn.2
      · exact hn
    simp only [List.zip_cons_cons, List.mem_cons, Prod.mk.injEq] at h
    simp only [List.zip_cons_cons, fill]
    by_cases hm : (Term.var v, o) ∈ ctx.zip os
    · split
      · exact fill_at hk hl' hn' hs' hb hm
      · exact fill_at hk hl' hn' hs' (by simpa using hb) hm
    · obtain ⟨rfl, rfl⟩ := h.resolve_right hm
      simp only [Term.obj, hk]
      rw [fill_other]
      · rw [List.getElem?_set_self]
        rw [hb]; exact firstIdx_lt hk
      · intro t q hmem hidx
        have hne : v.name ∉ varNames ctx := by
          simp only [varNames, List.nodup_cons] at hn; exact hn.1
        have htm : t ∈ ctx := (List.of_mem_zip hmem).1
        cases t with
        | const c =>
          have := firstIdx_none.2 (hs' _ htm)
          simp only [Term.obj] at hidx
          rw [this] at hidx; simp at hidx
        | var w =>
          have e := firstIdx_inj hidx hk
          apply hne
          simp only [Term.obj] at e
          rw [← e]
          exact mem_varNames.2 ⟨w, htm, rfl⟩

theorem constsOk_iff {params : List Obj} : ∀ {ctx : List Term} {os : List Obj}, ctx.length = os.length →
    (∀ t ∈ ctx, t.Scoped (params.map Obj.name)) →
    (constsOk params (ctx.zip os) = true ↔ ∀ c o, (Term.const c, o) ∈ ctx.zip os → c.name = o.name)
  | [], _, _, _ => by simp [constsOk]
  | _ :: _, [], hl, _ => by simp at hl
  | t :: ctx, p :: os, hl, hs => by
    have ih := constsOk_iff (ctx := ctx) (os := os) (by simpa using hl) (fun t ht => hs t (by simp [ht]))
    have h1 := hs t (by simp)
    simp only [List.zip_cons_cons, constsOk, List.mem_cons, Prod.mk.injEq]
    cases t with
    | var v =>
      have : ∃ i, firstIdx v params = some i := by
        cases h : firstIdx v params with
        | some i => exact ⟨i, rfl⟩
        | none => exact absurd h1 (firstIdx_none.1 h)
      obtain ⟨i, hi⟩ := this
      simp only [Term.obj, hi, ih, reduceCtorEq, false_and, false_or]
    | const c =>
      have hi := firstIdx_none.2 h1
      simp only [Term.obj, hi, Bool.and_eq_true, ih, Term.const.injEq]
      constructor
      · rintro ⟨h2, h3⟩ d o (⟨rfl, rfl⟩ | hm)
        · exact of_decide_eq_true h2
        · exact h3 d o hm
      · intro h
        exact ⟨decide_eq_true (h c p (Or.inl ⟨rfl, rfl⟩)), fun d o hm => h d o (Or.inr hm)⟩

theorem mem_zip_iff_index {ts : List α} {os : List β} {t : α} {o : β} :
    (t, o) ∈ ts.zip os ↔ ∃ k : Nat, ts[k]? = some t ∧ os[k]? = some o := by
  rw [List.mem_iff_getElem?]
  constructor
  · rintro ⟨k, hk⟩
    rw [List.getElem?_zip_eq_some] at hk
    exact ⟨k, hk⟩
  · rintro ⟨k, hk⟩
    exact ⟨k, by rw [List.getElem?_zip_eq_some]; exact hk⟩

/-- The filled parameter list is the triggered instance. -/
theorem fill_triggered {op : Op} (hlin : op.Linear) {os : List Obj} (hl : op.ctx.length = os.length) (as : List Obj) :
    (constsOk op.params (op.ctx.zip os) = true ∧ as = fill op.params (op.ctx.zip os) op.params) ↔
      op.Triggered as os := by
  have hidx : ∀ v : Obj, v.name ∈ op.params.map Obj.name → ∃ i, firstIdx v op.params = some i := by
    intro v hv
    cases h : firstIdx v op.params with
    | some i => exact ⟨i, rfl⟩
    | none => exact absurd hv (firstIdx_none.1 h)
  have match_iff : ∀ as : List Obj, as.length = op.params.length →
      (List.Forall₂ (MatchTerm (Env.none.bind op.params as)) op.ctx os ↔
        ∀ t o, (t, o) ∈ op.ctx.zip os → MatchTerm (Env.none.bind op.params as) t o) := by
    intro as _
    rw [List.forall₂_iff_zip]
    constructor
    · intro h t o hm; exact h.2 hm
    · intro h; exact ⟨hl, fun {t o} hm => h t o hm⟩
  constructor
  · rintro ⟨hc, rfl⟩
    have hlen : (fill op.params (op.ctx.zip os) op.params).length = op.params.length := fill_length _ _ _
    refine ⟨hlen, (match_iff _ hlen).2 ?_⟩
    intro t o hm
    cases t with
    | const c => exact (constsOk_iff hl hlin.inScope).1 hc c o hm
    | var v =>
      obtain ⟨i, hi⟩ := hidx v (hlin.inScope _ (List.of_mem_zip hm).1)
      show Env.none.bind op.params _ v.name = some o
      rw [bind_firstIdx hlin.nodup hlen.symm hi]
      exact fill_at hi hl hlin.once hlin.inScope rfl hm
  · rintro ⟨hlen, hm⟩
    rw [match_iff as hlen] at hm
    refine ⟨(constsOk_iff hl hlin.inScope).2 (fun c o h => hm _ _ h), ?_⟩
    apply List.ext_getElem?
    intro k
    by_cases hk : k < op.params.length
    · obtain ⟨v, hv, hvn⟩ := mem_varNames.1 (hlin.covers op.params[k] (List.getElem_mem hk))
      obtain ⟨l, hl1⟩ := List.mem_iff_getElem?.1 hv
      have hlt : l < os.length := by rw [← hl]; exact (List.getElem?_eq_some_iff.1 hl1).1
      have hz : (Term.var v, os[l]) ∈ op.ctx.zip os :=
        mem_zip_iff_index.2 ⟨l, hl1, List.getElem?_eq_getElem hlt⟩
      obtain ⟨i, hi⟩ := hidx v (hlin.inScope _ hv)
      have hik : i = k := by
        obtain ⟨p, h1, h2⟩ := firstIdx_some hi
        obtain ⟨hi', rfl⟩ := List.getElem?_eq_some_iff.1 h1
        have hnd := hlin.nodup
        rw [List.nodup_iff_injective_getElem] at hnd
        have := @hnd ⟨i, by simpa using hi'⟩ ⟨k, by simpa using hk⟩ (by simp [h2, hvn])
        simpa using this
      subst hik
      rw [fill_at hi hl hlin.once hlin.inScope rfl hz]
      have := hm _ _ hz
      simp only [MatchTerm] at this
      rw [bind_firstIdx hlin.nodup hlen.symm hi] at this
      exact this
    · rw [List.getElem?_eq_none (by omega), List.getElem?_eq_none (by rw [fill_length]; omega)]

end Symbolic
