import Verif.Lemmas.Formula

/-!
Evaluations of the same formula on two states (complete or partial) compared.
-/

namespace Symbolic

variable {σ τ : Type} [StateLike σ] [StateLike τ]

/-- Every definite answer of `s` is also the answer of `t`. -/
structure Sim (s : σ) (t : τ) : Prop where
  contains : ∀ a b, StateLike.contains s a = .ok b → StateLike.contains t a = .ok b
  lacks : ∀ a b, StateLike.lacks s a = .ok b → StateLike.lacks t a = .ok b

theorem evalAtom_sim {s : σ} {t : τ} (h : Sim s t) {m : ObjMap} {params : List Obj} {pred : Name} {ts : List Term}
    {args : List Obj} {b : Bool} (he : evalAtom m params pred ts s args = .ok b) :
    evalAtom m params pred ts t args = .ok b := by
  simp only [evalAtom, Res.bind_eq_ok] at he ⊢
  obtain ⟨os, h1, h2⟩ := he
  refine ⟨os, h1, ?_⟩
  cases hk : atomKind m pred <;> simp only [hk] at h2 ⊢
  · exact h2
  · exact h2
  · exact h.contains _ _ h2

theorem evalNeg_sim {s : σ} {t : τ} (h : Sim s t) {m : ObjMap} {params : List Obj} {g : Goal} {args : List Obj}
    {r r' : Res Bool} (hr : ∀ b, r = .ok b → r' = .ok b) {b : Bool} (he : evalNeg m params g s args r = .ok b) :
    evalNeg m params g t args r' = .ok b := by
  have aux : ∀ b, (do let b ← r; pure (!b) : Res Bool) = .ok b → (do let b ← r'; pure (!b) : Res Bool) = .ok b := by
    intro b hb
    rw [Res.bind_eq_ok] at hb ⊢
    obtain ⟨c, h1, h2⟩ := hb
    exact ⟨c, hr c h1, h2⟩
  unfold evalNeg at he ⊢
  split
  · rename_i pred ts
    simp only at he
    split
    · rename_i hk
      simp only [hk, Res.bind_eq_ok] at he ⊢
      obtain ⟨os, h1, h2⟩ := he
      exact ⟨os, h1, h.lacks _ _ h2⟩
    · rename_i hk
      cases hk' : atomKind m pred
      · simp only [hk'] at he; exact aux b he
      · simp only [hk'] at he; exact aux b he
      · exact absurd hk' hk
  · rename_i hg
    cases g
    · exact absurd rfl (hg _ _)
    all_goals exact aux b he

theorem loopAll_sim {f f' : List Obj → Res Bool} (hf : ∀ os b, f os = .ok b → f' os = .ok b) :
    ∀ {l : List (List Obj)} {b : Bool}, loopAll f l = .ok b → loopAll f' l = .ok b
  | [], b, h => h
  | os :: l, b, h => by
    simp only [loopAll, Res.bind_eq_ok] at h ⊢
    obtain ⟨c, h1, h2⟩ := h
    refine ⟨c, hf _ _ h1, ?_⟩
    cases c
    · exact h2
    · exact loopAll_sim hf h2

theorem loopAny_sim {f f' : List Obj → Res Bool} (hf : ∀ os b, f os = .ok b → f' os = .ok b) :
    ∀ {l : List (List Obj)} {b : Bool}, loopAny f l = .ok b → loopAny f' l = .ok b
  | [], b, h => h
  | os :: l, b, h => by
    simp only [loopAny, Res.bind_eq_ok] at h ⊢
    obtain ⟨c, h1, h2⟩ := h
    refine ⟨c, hf _ _ h1, ?_⟩
    cases c
    · exact loopAny_sim hf h2
    · exact h2

mutual
theorem eval_sim {s : σ} {t : τ} (h : Sim s t) (m : ObjMap) : ∀ (g : Goal) (params args : List Obj) (b : Bool),
    g.eval m params s args = .ok b → g.eval m params t args = .ok b
  | .atom pred ts, params, args, b, he => by
    simp only [Goal.eval] at he ⊢; exact evalAtom_sim h he
  | .conj gs, params, args, b, he => by
    simp only [Goal.eval] at he ⊢; exact evalAll_sim h m gs params args b he
  | .disj gs, params, args, b, he => by
    simp only [Goal.eval] at he ⊢; exact evalAny_sim h m gs params args b he
  | .neg g, params, args, b, he => by
    simp only [Goal.eval] at he ⊢; exact evalNeg_sim h (fun b hb => eval_sim h m g params args b hb) he
  | .all vars g, params, args, b, he => by
    simp only [Goal.eval, Res.bind_eq_ok] at he ⊢
    obtain ⟨l, h1, h2⟩ := he
    exact ⟨l, h1, loopAll_sim (fun os b hb => eval_sim h m g _ _ b hb) h2⟩
  | .ex vars g, params, args, b, he => by
    simp only [Goal.eval, Res.bind_eq_ok] at he ⊢
    obtain ⟨l, h1, h2⟩ := he
    exact ⟨l, h1, loopAny_sim (fun os b hb => eval_sim h m g _ _ b hb) h2⟩
  | .other, params, args, b, he => by simp [Goal.eval] at he

theorem evalAll_sim {s : σ} {t : τ} (h : Sim s t) (m : ObjMap) :
    ∀ (gs : List Goal) (params args : List Obj) (b : Bool),
    Goal.evalAll gs m params s args = .ok b → Goal.evalAll gs m params t args = .ok b
  | [], params, args, b, he => by simpa [Goal.evalAll] using he
  | g :: gs, params, args, b, he => by
    simp only [Goal.evalAll, Res.bind_eq_ok] at he ⊢
    obtain ⟨c, h1, h2⟩ := he
    refine ⟨c, eval_sim h m g params args c h1, ?_⟩
    cases c
    · exact h2
    · exact evalAll_sim h m gs params args b h2

theorem evalAny_sim {s : σ} {t : τ} (h : Sim s t) (m : ObjMap) :
    ∀ (gs : List Goal) (params args : List Obj) (b : Bool),
    Goal.evalAny gs m params s args = .ok b → Goal.evalAny gs m params t args = .ok b
  | [], params, args, b, he => by simpa [Goal.evalAny] using he
  | g :: gs, params, args, b, he => by
    simp only [Goal.evalAny, Res.bind_eq_ok] at he ⊢
    obtain ⟨c, h1, h2⟩ := he
    refine ⟨c, eval_sim h m g params args c h1, ?_⟩
    cases c
    · exact evalAny_sim h m gs params args b h2
    · exact h2
end

/-! ## Agreement on the atoms a formula can ask about -/

/-- `s` and `t` answer alike on the atoms with a mentioned predicate over objects of `U`. -/
def AgreeOn (U : Obj → Prop) (M : Name → Nat → Prop) (s : σ) (t : τ) : Prop :=
  ∀ pred (os : List Obj), M pred os.length → (∀ o ∈ os, U o) →
    StateLike.contains s (Atom.ofObjs pred os) = StateLike.contains t (Atom.ofObjs pred os) ∧
    StateLike.lacks s (Atom.ofObjs pred os) = StateLike.lacks t (Atom.ofObjs pred os)

theorem resolve_mem {U : Obj → Prop} (p : Obj) : ∀ (ps as : List Obj) (d : Obj), ps.length = as.length →
    (∀ a ∈ as, U a) → (p.name ∈ ps.map Obj.name ∨ U d) → U (resolve p ps as d)
  | [], [], d, _, _, h => by simpa [resolve] using h
  | [], _ :: _, _, h, _, _ => by simp at h
  | _ :: _, [], _, h, _, _ => by simp at h
  | q :: ps, a :: as, d, h, ha, hd => by
    simp only [resolve]
    refine resolve_mem p ps as _ (by simpa using h) (fun x hx => ha x (by simp [hx])) ?_
    by_cases e : p.name = q.name
    · right; rw [if_pos (by simpa [Obj.same] using e)]; exact ha a (by simp)
    · rw [if_neg (by simpa [Obj.same] using e)]
      simpa [e] using hd

theorem value_mem {U : Obj → Prop} {params args : List Obj} (hlen : params.length = args.length)
    (ha : ∀ a ∈ args, U a) {t : Term} (hs : t.Scoped (params.map Obj.name)) (hc : ∀ c, t = .const c → U c) :
    U (t.value params args) := by
  cases t with
  | var v => exact resolve_mem v params args v hlen ha (Or.inl hs)
  | const c => exact resolve_mem c params args c hlen ha (Or.inr (hc c rfl))

theorem evalAtom_agree {U : Obj → Prop} {M : Name → Nat → Prop} {s : σ} {t : τ} (h : AgreeOn U M s t) {m : ObjMap}
    {params args : List Obj} {pred : Name} {ts : List Term} (hlen : params.length = args.length)
    (ha : ∀ a ∈ args, U a) (hs : ∀ u ∈ ts, u.Scoped (params.map Obj.name)) (hc : ∀ c, Term.const c ∈ ts → U c)
    (hm : M pred ts.length) :
    evalAtom m params pred ts s args = evalAtom m params pred ts t args ∧
    (atomKind m pred = .plain → StateLike.lacks s (Atom.ofObjs pred (ts.map (Term.value params args))) =
      StateLike.lacks t (Atom.ofObjs pred (ts.map (Term.value params args)))) := by
  have hU : ∀ o ∈ ts.map (Term.value params args), U o := by
    intro o ho
    obtain ⟨u, hu, rfl⟩ := List.mem_map.1 ho
    exact value_mem hlen ha (hs u hu) (fun c e => hc c (e ▸ hu))
  have := h pred (ts.map (Term.value params args)) (by simpa using hm) hU
  refine ⟨?_, fun _ => this.2⟩
  simp only [evalAtom, applyFn_terms params args ts (Nat.le_of_eq hlen), Res.bind_ok]
  cases atomKind m pred
  · rfl
  · rfl
  · exact this.1

theorem loopAll_congr {f f' : List Obj → Res Bool} : ∀ {l : List (List Obj)}, (∀ os ∈ l, f os = f' os) →
    loopAll f l = loopAll f' l
  | [], _ => rfl
  | os :: l, h => by
    simp only [loopAll, h os (by simp), loopAll_congr (l := l) (fun x hx => h x (by simp [hx]))]

theorem loopAny_congr {f f' : List Obj → Res Bool} : ∀ {l : List (List Obj)}, (∀ os ∈ l, f os = f' os) →
    loopAny f l = loopAny f' l
  | [], _ => rfl
  | os :: l, h => by
    simp only [loopAny, h os (by simp), loopAny_congr (l := l) (fun x hx => h x (by simp [hx]))]

section
variable {U : Obj → Prop} {M : Name → Nat → Prop} {s : σ} {t : τ} {objects : List Obj}

mutual
theorem eval_agree (h : AgreeOn U M s t) (hU : ∀ o ∈ objects, U o) : ∀ (g : Goal) (params args : List Obj),
    params.length = args.length → (∀ a ∈ args, U a) → Goal.WF objects (params.map Obj.name) g →
    (∀ c, g.HasConst c → U c) → (∀ p n, g.Mentions p n → M p n) →
    g.eval (ObjMap.create objects) params s args = g.eval (ObjMap.create objects) params t args
  | .atom pred ts, params, args, hlen, ha, hwf, hc, hm => by
    simp only [Goal.eval]
    exact (evalAtom_agree h hlen ha hwf.1 hc (hm _ _ ⟨rfl, rfl⟩)).1
  | .conj gs, params, args, hlen, ha, hwf, hc, hm => by
    simp only [Goal.eval]
    exact evalAll_agree h hU gs params args hlen ha (by simpa [Goal.WF] using hwf)
      (by simpa [Goal.HasConst] using hc) (by simpa [Goal.Mentions] using hm)
  | .disj gs, params, args, hlen, ha, hwf, hc, hm => by
    simp only [Goal.eval]
    exact evalAny_agree h hU gs params args hlen ha (by simpa [Goal.WF] using hwf)
      (by simpa [Goal.HasConst] using hc) (by simpa [Goal.Mentions] using hm)
  | .neg g, params, args, hlen, ha, hwf, hc, hm => by
    have ih := eval_agree h hU g params args hlen ha (by simpa [Goal.WF] using hwf)
      (by simpa [Goal.HasConst] using hc) (by simpa [Goal.Mentions] using hm)
    simp only [Goal.eval, ih, evalNeg]
    split
    · rename_i pred ts
      split
      · rename_i hk
        simp only [Goal.WF] at hwf
        simp only [applyFn_terms params args ts (Nat.le_of_eq hlen), Res.bind_ok]
        exact (evalAtom_agree (m := ObjMap.create objects) h hlen ha hwf.1
          (by simpa [Goal.HasConst] using hc) (hm _ _ ⟨rfl, rfl⟩)).2 hk
      · rfl
    · rfl
  | .all vars g, params, args, hlen, ha, hwf, hc, hm => by
    obtain ⟨hv, hwf⟩ := by simpa only [Goal.WF] using hwf
    obtain ⟨l, hl, hmem⟩ := gen_create objects vars hv
    simp only [Goal.eval, hl, Res.bind_ok]
    refine loopAll_congr (fun os hos => ?_)
    have hw := (hmem os).1 hos
    refine eval_agree h hU g _ _ (by simp [hlen, hw.length]) ?_ (by simpa using hwf)
      (by simpa [Goal.HasConst] using hc) (by simpa [Goal.Mentions] using hm)
    intro a haa
    rcases List.mem_append.1 haa with haa | haa
    · exact ha a haa
    · exact hU a ((hw.mem haa).1)
  | .ex vars g, params, args, hlen, ha, hwf, hc, hm => by
    obtain ⟨hv, hwf⟩ := by simpa only [Goal.WF] using hwf
    obtain ⟨l, hl, hmem⟩ := gen_create objects vars hv
    simp only [Goal.eval, hl, Res.bind_ok]
    refine loopAny_congr (fun os hos => ?_)
    have hw := (hmem os).1 hos
    refine eval_agree h hU g _ _ (by simp [hlen, hw.length]) ?_ (by simpa using hwf)
      (by simpa [Goal.HasConst] using hc) (by simpa [Goal.Mentions] using hm)
    intro a haa
    rcases List.mem_append.1 haa with haa | haa
    · exact ha a haa
    · exact hU a ((hw.mem haa).1)
  | .other, params, args, hlen, ha, hwf, hc, hm => rfl

theorem evalAll_agree (h : AgreeOn U M s t) (hU : ∀ o ∈ objects, U o) : ∀ (gs : List Goal) (params args : List Obj),
    params.length = args.length → (∀ a ∈ args, U a) → Goal.WFs objects (params.map Obj.name) gs →
    (∀ c, Goal.HasConstL gs c → U c) → (∀ p n, Goal.MentionsL gs p n → M p n) →
    Goal.evalAll gs (ObjMap.create objects) params s args = Goal.evalAll gs (ObjMap.create objects) params t args
  | [], params, args, hlen, ha, hwf, hc, hm => rfl
  | g :: gs, params, args, hlen, ha, hwf, hc, hm => by
    obtain ⟨hg, hgs⟩ := by simpa only [Goal.WFs] using hwf
    simp only [Goal.evalAll]
    rw [eval_agree h hU g params args hlen ha hg (fun c hc' => hc c (Or.inl hc')) (fun p n hp => hm p n (Or.inl hp)),
      evalAll_agree h hU gs params args hlen ha hgs (fun c hc' => hc c (Or.inr hc')) (fun p n hp => hm p n (Or.inr hp))]

theorem evalAny_agree (h : AgreeOn U M s t) (hU : ∀ o ∈ objects, U o) : ∀ (gs : List Goal) (params args : List Obj),
    params.length = args.length → (∀ a ∈ args, U a) → Goal.WFs objects (params.map Obj.name) gs →
    (∀ c, Goal.HasConstL gs c → U c) → (∀ p n, Goal.MentionsL gs p n → M p n) →
    Goal.evalAny gs (ObjMap.create objects) params s args = Goal.evalAny gs (ObjMap.create objects) params t args
  | [], params, args, hlen, ha, hwf, hc, hm => rfl
  | g :: gs, params, args, hlen, ha, hwf, hc, hm => by
    obtain ⟨hg, hgs⟩ := by simpa only [Goal.WFs] using hwf
    simp only [Goal.evalAny]
    rw [eval_agree h hU g params args hlen ha hg (fun c hc' => hc c (Or.inl hc')) (fun p n hp => hm p n (Or.inl hp)),
      evalAny_agree h hU gs params args hlen ha hgs (fun c hc' => hc c (Or.inr hc')) (fun p n hp => hm p n (Or.inr hp))]
end
end

end Symbolic
