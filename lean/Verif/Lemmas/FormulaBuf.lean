import Verif.Model.FormulaBuf
import Verif.Lemmas.Res

namespace Symbolic

/-! ## Buffers do not matter -/

theorem applyLoop_agree (args : List Obj) : ∀ (idx : List (Nat × Nat)) (buf buf' : List Obj),
    buf.length = buf'.length → (∀ k, k ∉ idx.map Prod.fst → buf[k]? = buf'[k]?) →
    applyLoop args idx buf = applyLoop args idx buf'
  | [], buf, buf', _, h => by
    have : buf = buf' := List.ext_getElem? (fun k => h k (by simp))
    rw [this]
  | (i, j) :: rest, buf, buf', hl, h => by
    simp only [applyLoop]
    cases Res.index args j <;> simp only [Res.bind_ok, Res.bind_exc, Res.bind_ub, Res.bind_fuel]
    rename_i a
    rw [hl]
    split
    · refine applyLoop_agree args rest _ _ (by simp [hl]) (fun k hk => ?_)
      rw [List.getElem?_set, List.getElem?_set]
      by_cases e : i = k
      · simp [e, hl]
      · simp only [e, if_false]
        exact h k (by simp [hk, Ne.symm e])
    · rfl

theorem applyLoop_frame (args : List Obj) : ∀ (idx : List (Nat × Nat)) (buf out : List Obj),
    applyLoop args idx buf = .ok out →
    out.length = buf.length ∧ ∀ k, k ∉ idx.map Prod.fst → out[k]? = buf[k]?
  | [], buf, out, h => by
    simp only [applyLoop, Res.ok.injEq] at h
    subst h; simp
  | (i, j) :: rest, buf, out, h => by
    simp only [applyLoop, Res.bind_eq_ok] at h
    obtain ⟨a, -, h⟩ := h
    split at h
    · obtain ⟨h1, h2⟩ := applyLoop_frame args rest _ _ h
      refine ⟨by simpa using h1, fun k hk => ?_⟩
      simp only [List.map_cons, List.mem_cons, not_or] at hk
      rw [h2 k hk.2, List.getElem?_set_ne (Ne.symm hk.1)]
    · simp at h

/-- A buffer an atom can have: the written arguments wherever no parameter is substituted. -/
def GoodBuf (params props buf : List Obj) : Prop :=
  buf.length = props.length ∧ ∀ k, k ∉ (idxParams params props).map Prod.fst → buf[k]? = props[k]?

theorem GoodBuf.init (params props : List Obj) : GoodBuf params props props := ⟨rfl, fun _ _ => rfl⟩

mutual
/-- Buffers that a formula can have. -/
def Goal.Inv : Goal → List Obj → Bufs → Prop
  | .atom _ ts, params, b => ∃ buf, b = .leaf buf ∧ GoodBuf params (ts.map Term.obj) buf
  | .conj gs, params, b => ∃ bs, b = .node bs ∧ Goal.InvL gs params bs
  | .disj gs, params, b => ∃ bs, b = .node bs ∧ Goal.InvL gs params bs
  | .neg g, params, b => ∃ b', b = .node [b'] ∧ Goal.Inv g params b'
  | .all vars g, params, b => ∃ b', b = .node [b'] ∧ Goal.Inv g (params ++ vars) b'
  | .ex vars g, params, b => ∃ b', b = .node [b'] ∧ Goal.Inv g (params ++ vars) b'
  | .other, _, _ => True
def Goal.InvL : List Goal → List Obj → List Bufs → Prop
  | [], _, _ => True
  | g :: gs, params, bs => ∃ b bs', bs = b :: bs' ∧ Goal.Inv g params b ∧ Goal.InvL gs params bs'
end

mutual
theorem Goal.inv_bufs : ∀ (g : Goal) (params : List Obj), g.Inv params g.bufs
  | .atom _ ts, params => by simp only [Goal.Inv, Goal.bufs]; exact ⟨_, rfl, GoodBuf.init _ _⟩
  | .conj gs, params => by simp only [Goal.Inv, Goal.bufs]; exact ⟨_, rfl, Goal.invL_bufs gs params⟩
  | .disj gs, params => by simp only [Goal.Inv, Goal.bufs]; exact ⟨_, rfl, Goal.invL_bufs gs params⟩
  | .neg g, params => by simp only [Goal.Inv, Goal.bufs]; exact ⟨_, rfl, Goal.inv_bufs g params⟩
  | .all vars g, params => by simp only [Goal.Inv, Goal.bufs]; exact ⟨_, rfl, Goal.inv_bufs g _⟩
  | .ex vars g, params => by simp only [Goal.Inv, Goal.bufs]; exact ⟨_, rfl, Goal.inv_bufs g _⟩
  | .other, _ => by simp only [Goal.Inv]
theorem Goal.invL_bufs : ∀ (gs : List Goal) (params : List Obj), Goal.InvL gs params (Goal.bufsL gs)
  | [], _ => by simp only [Goal.InvL]
  | g :: gs, params => by
    simp only [Goal.InvL, Goal.bufsL]; exact ⟨_, _, rfl, Goal.inv_bufs g params, Goal.invL_bufs gs params⟩
end

theorem runAtom_spec (params : List Obj) (ts : List Term) (args : List Obj) (ask : List Obj → Res Bool) (b : Bufs)
    (h : ∃ buf, b = .leaf buf ∧ GoodBuf params (ts.map Term.obj) buf) :
    (runAtom params ts args ask b).1 = (do
      let os ← applyFn params (ts.map Term.obj) args
      ask os) ∧
    ∃ buf, (runAtom params ts args ask b).2 = .leaf buf ∧ GoodBuf params (ts.map Term.obj) buf := by
  obtain ⟨buf, rfl, hg⟩ := h
  have e := applyLoop_agree args (idxParams params (ts.map Term.obj)) buf (ts.map Term.obj) hg.1 hg.2
  simp only [runAtom, applyFn, ← e]
  cases hr : applyLoop args (idxParams params (ts.map Term.obj)) buf with
  | ok buf' =>
    obtain ⟨h1, h2⟩ := applyLoop_frame _ _ _ _ hr
    exact ⟨rfl, _, rfl, h1.trans hg.1, fun k hk => (h2 k hk).trans (hg.2 k hk)⟩
  | exc e => exact ⟨rfl, _, rfl, hg⟩
  | ub => exact ⟨rfl, _, rfl, hg⟩
  | fuel => exact ⟨rfl, _, rfl, hg⟩

theorem runLoopAll_spec {f : List Obj → Bufs → Res Bool × Bufs} {f' : List Obj → Res Bool} {I : Bufs → Prop}
    (h : ∀ os b, I b → (f os b).1 = f' os ∧ I (f os b).2) :
    ∀ (l : List (List Obj)) (b : Bufs), I b → (runLoopAll f l b).1 = loopAll f' l ∧ I (runLoopAll f l b).2
  | [], b, hb => ⟨rfl, hb⟩
  | os :: l, b, hb => by
    obtain ⟨h1, h2⟩ := h os b hb
    simp only [runLoopAll, loopAll, ← h1]
    rcases hr : f os b with ⟨r, b'⟩
    rw [hr] at h2
    cases r with
    | ok c => cases c with
      | true => simpa using runLoopAll_spec h l b' h2
      | false => exact ⟨rfl, h2⟩
    | exc e => exact ⟨rfl, h2⟩
    | ub => exact ⟨rfl, h2⟩
    | fuel => exact ⟨rfl, h2⟩

theorem runLoopAny_spec {f : List Obj → Bufs → Res Bool × Bufs} {f' : List Obj → Res Bool} {I : Bufs → Prop}
    (h : ∀ os b, I b → (f os b).1 = f' os ∧ I (f os b).2) :
    ∀ (l : List (List Obj)) (b : Bufs), I b → (runLoopAny f l b).1 = loopAny f' l ∧ I (runLoopAny f l b).2
  | [], b, hb => ⟨rfl, hb⟩
  | os :: l, b, hb => by
    obtain ⟨h1, h2⟩ := h os b hb
    simp only [runLoopAny, loopAny, ← h1]
    rcases hr : f os b with ⟨r, b'⟩
    rw [hr] at h2
    cases r with
    | ok c => cases c with
      | false => simpa using runLoopAny_spec h l b' h2
      | true => exact ⟨rfl, h2⟩
    | exc e => exact ⟨rfl, h2⟩
    | ub => exact ⟨rfl, h2⟩
    | fuel => exact ⟨rfl, h2⟩

variable {σ : Type} [StateLike σ]

theorem evalNeg_atom (m : ObjMap) (params : List Obj) (pred : Name) (ts : List Term) (s : σ) (args : List Obj) :
    evalNeg m params (.atom pred ts) s args (evalAtom m params pred ts s args) = (do
      let os ← applyFn params (ts.map Term.obj) args
      askNeg m pred s os) := by
  unfold evalNeg
  simp only [askNeg, evalAtom, askPos]
  cases hk : atomKind m pred <;> cases applyFn params (List.map Term.obj ts) args <;> rfl

theorem evalNeg_not_atom (m : ObjMap) (params : List Obj) (g : Goal) (s : σ) (args : List Obj) (r : Res Bool)
    (hg : ∀ pred ts, g ≠ .atom pred ts) : evalNeg m params g s args r = notRes r := by
  cases g
  · exact absurd rfl (hg _ _)
  all_goals rfl

mutual
theorem Goal.run_spec (m : ObjMap) (s : σ) : ∀ (g : Goal) (params args : List Obj) (b : Bufs), g.Inv params b →
    (g.run m params s args b).1 = g.eval m params s args ∧ g.Inv params (g.run m params s args b).2
  | .atom pred ts, params, args, b, h => by
    simp only [Goal.Inv] at h ⊢
    obtain ⟨h1, h2⟩ := runAtom_spec params ts args (askPos m pred s) b h
    simp only [Goal.run, Goal.eval]
    exact ⟨h1, h2⟩
  | .conj gs, params, args, b, h => by
    simp only [Goal.Inv] at h ⊢
    obtain ⟨bs, rfl, h⟩ := h
    obtain ⟨h1, h2⟩ := Goal.runAll_spec m s gs params args bs h
    simp only [Goal.run, Goal.eval]
    exact ⟨h1, _, rfl, h2⟩
  | .disj gs, params, args, b, h => by
    simp only [Goal.Inv] at h ⊢
    obtain ⟨bs, rfl, h⟩ := h
    obtain ⟨h1, h2⟩ := Goal.runAny_spec m s gs params args bs h
    simp only [Goal.run, Goal.eval]
    exact ⟨h1, _, rfl, h2⟩
  | .neg g, params, args, b, h => by
    simp only [Goal.Inv] at h ⊢
    obtain ⟨b', rfl, h⟩ := h
    by_cases hg : ∃ pred ts, g = .atom pred ts
    · obtain ⟨pred, ts, rfl⟩ := hg
      simp only [Goal.Inv] at h ⊢
      obtain ⟨h1, h2⟩ := runAtom_spec params ts args (askNeg m pred s) b' h
      simp only [Goal.run, Goal.eval, evalNeg_atom]
      exact ⟨h1, _, rfl, h2⟩
    · obtain ⟨h1, h2⟩ := Goal.run_spec m s g params args b' h
      have hg' : ∀ pred ts, g ≠ .atom pred ts := fun pred ts e => hg ⟨pred, ts, e⟩
      have e : Goal.run (.neg g) m params s args (.node [b']) =
          (notRes (g.run m params s args b').1, .node [(g.run m params s args b').2]) := by
        cases g
        · exact absurd rfl (hg' _ _)
        all_goals simp only [Goal.run]
      rw [e]
      simp only [Goal.eval, evalNeg_not_atom m params g s args _ hg', h1]
      exact ⟨trivial, _, rfl, h2⟩
  | .all vars g, params, args, b, h => by
    simp only [Goal.Inv] at h ⊢
    obtain ⟨b', rfl, h⟩ := h
    simp only [Goal.run, Goal.eval]
    cases hl : genLoop (paramTypes m vars) with
    | ok l =>
      obtain ⟨h1, h2⟩ := runLoopAll_spec (I := g.Inv (params ++ vars))
        (fun os b hb => Goal.run_spec m s g (params ++ vars) (args ++ os) b hb) l b' h
      exact ⟨h1, _, rfl, h2⟩
    | exc e => exact ⟨rfl, _, rfl, h⟩
    | ub => exact ⟨rfl, _, rfl, h⟩
    | fuel => exact ⟨rfl, _, rfl, h⟩
  | .ex vars g, params, args, b, h => by
    simp only [Goal.Inv] at h ⊢
    obtain ⟨b', rfl, h⟩ := h
    simp only [Goal.run, Goal.eval]
    cases hl : genLoop (paramTypes m vars) with
    | ok l =>
      obtain ⟨h1, h2⟩ := runLoopAny_spec (I := g.Inv (params ++ vars))
        (fun os b hb => Goal.run_spec m s g (params ++ vars) (args ++ os) b hb) l b' h
      exact ⟨h1, _, rfl, h2⟩
    | exc e => exact ⟨rfl, _, rfl, h⟩
    | ub => exact ⟨rfl, _, rfl, h⟩
    | fuel => exact ⟨rfl, _, rfl, h⟩
  | .other, params, args, b, h => by simp [Goal.run, Goal.eval, Goal.Inv]

theorem Goal.runAll_spec (m : ObjMap) (s : σ) : ∀ (gs : List Goal) (params args : List Obj) (bs : List Bufs),
    Goal.InvL gs params bs →
    (Goal.runAll gs m params s args bs).1 = Goal.evalAll gs m params s args ∧
      Goal.InvL gs params (Goal.runAll gs m params s args bs).2
  | [], params, args, bs, h => by simp [Goal.runAll, Goal.evalAll, Goal.InvL]
  | g :: gs, params, args, bs, h => by
    simp only [Goal.InvL] at h ⊢
    obtain ⟨b, bs, rfl, hb, hbs⟩ := h
    obtain ⟨h1, h2⟩ := Goal.run_spec m s g params args b hb
    obtain ⟨h3, h4⟩ := Goal.runAll_spec m s gs params args bs hbs
    simp only [Goal.runAll, Goal.evalAll, ← h1]
    rcases hr : Goal.run g m params s args b with ⟨r, b'⟩
    rw [hr] at h2
    cases r with
    | ok c => cases c with
      | true => exact ⟨h3, _, _, rfl, h2, h4⟩
      | false => exact ⟨rfl, _, _, rfl, h2, hbs⟩
    | exc e => exact ⟨rfl, _, _, rfl, h2, hbs⟩
    | ub => exact ⟨rfl, _, _, rfl, h2, hbs⟩
    | fuel => exact ⟨rfl, _, _, rfl, h2, hbs⟩

theorem Goal.runAny_spec (m : ObjMap) (s : σ) : ∀ (gs : List Goal) (params args : List Obj) (bs : List Bufs),
    Goal.InvL gs params bs →
    (Goal.runAny gs m params s args bs).1 = Goal.evalAny gs m params s args ∧
      Goal.InvL gs params (Goal.runAny gs m params s args bs).2
  | [], params, args, bs, h => by simp [Goal.runAny, Goal.evalAny, Goal.InvL]
  | g :: gs, params, args, bs, h => by
    simp only [Goal.InvL] at h ⊢
    obtain ⟨b, bs, rfl, hb, hbs⟩ := h
    obtain ⟨h1, h2⟩ := Goal.run_spec m s g params args b hb
    obtain ⟨h3, h4⟩ := Goal.runAny_spec m s gs params args bs hbs
    simp only [Goal.runAny, Goal.evalAny, ← h1]
    rcases hr : Goal.run g m params s args b with ⟨r, b'⟩
    rw [hr] at h2
    cases r with
    | ok c => cases c with
      | false => exact ⟨h3, _, _, rfl, h2, h4⟩
      | true => exact ⟨rfl, _, _, rfl, h2, hbs⟩
    | exc e => exact ⟨rfl, _, _, rfl, h2, hbs⟩
    | ub => exact ⟨rfl, _, _, rfl, h2, hbs⟩
    | fuel => exact ⟨rfl, _, _, rfl, h2, hbs⟩
end

variable [StrHash]

/-- Buffers that a Formula can have. -/
def Formula.Inv (F : Formula) (bs : FormulaBufs) : Prop :=
  F.goal.Inv F.params bs.onState ∧ F.goal.Inv F.params bs.onPartial

theorem Formula.call_spec (F : Formula) (bs : FormulaBufs) (h : F.Inv bs) (c : FormulaCall) :
    (F.call bs c).1 = F.fresh c ∧ F.Inv (F.call bs c).2 := by
  cases c with
  | onState s args =>
    obtain ⟨h1, h2⟩ := Goal.run_spec F.omap s F.goal F.params args bs.onState h.1
    exact ⟨by simp only [Formula.call, Formula.fresh, Formula.evalState, h1], h2, h.2⟩
  | onPartial s args =>
    obtain ⟨h1, h2⟩ := Goal.run_spec F.omap s F.goal F.params args bs.onPartial h.2
    exact ⟨by simp only [Formula.call, Formula.fresh, Formula.evalPartial, h1], h.1, h2⟩

end Symbolic
