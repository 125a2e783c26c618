import Verif.Model.Pddl
import Verif.Spec.Partial
import Verif.Lemmas.Formula
import Verif.Lemmas.Fire
import Verif.Lemmas.Prepare
import Verif.Lemmas.AxiomState

/-!
# Axioms on partial states

A complete state in which all axioms hold guides every application of an axiom to a partial state it is compatible with.
-/

namespace Symbolic

section
variable [StrHash]

/-! ## Evaluation on a partial state -/

/-- An answer, or "unknown". -/
def KnownOr (r : Res Bool) : Prop := (∃ b, r = .ok b) ∨ r = .exc .unknownEvaluation

theorem knownOr_contains (p : PartialState) (a : Atom) : KnownOr (p.contains a) := by
  unfold PartialState.contains
  split
  · exact Or.inl ⟨_, rfl⟩
  · split
    · exact Or.inl ⟨_, rfl⟩
    · exact Or.inr rfl

theorem knownOr_lacks (p : PartialState) (a : Atom) : KnownOr (p.doesNotContain a) := by
  unfold PartialState.doesNotContain
  split
  · exact Or.inl ⟨_, rfl⟩
  · split
    · exact Or.inl ⟨_, rfl⟩
    · exact Or.inr rfl

omit [StrHash] in
theorem KnownOr.loopAll {f : List Obj → Res Bool} : ∀ {l : List (List Obj)}, (∀ os ∈ l, KnownOr (f os)) →
    KnownOr (loopAll f l)
  | [], _ => Or.inl ⟨true, rfl⟩
  | os :: l, h => by
    rcases h os (by simp) with ⟨b, hb⟩ | hb
    · cases b
      · exact Or.inl ⟨false, by simp [Symbolic.loopAll, hb]⟩
      · simpa [Symbolic.loopAll, hb] using KnownOr.loopAll (fun x hx => h x (by simp [hx]))
    · exact Or.inr (by simp only [Symbolic.loopAll, hb]; rfl)

omit [StrHash] in
theorem KnownOr.loopAny {f : List Obj → Res Bool} : ∀ {l : List (List Obj)}, (∀ os ∈ l, KnownOr (f os)) →
    KnownOr (loopAny f l)
  | [], _ => Or.inl ⟨false, rfl⟩
  | os :: l, h => by
    rcases h os (by simp) with ⟨b, hb⟩ | hb
    · cases b
      · simpa [Symbolic.loopAny, hb] using KnownOr.loopAny (fun x hx => h x (by simp [hx]))
      · exact Or.inl ⟨true, by simp [Symbolic.loopAny, hb]⟩
    · exact Or.inr (by simp only [Symbolic.loopAny, hb]; rfl)

theorem evalAtom_known (objects : List Obj) (p : PartialState) (params args : List Obj) (pred : Name) (ts : List Term)
    (hlen : params.length = args.length) (hwf : Goal.WF objects (params.map Obj.name) (.atom pred ts)) :
    KnownOr (evalAtom (ObjMap.create objects) params pred ts p args) := by
  obtain ⟨-, h2, h1⟩ := hwf
  obtain ⟨k1, k2, k3⟩ := atomKind_create objects pred
  simp only [evalAtom, applyFn_terms params args ts (Nat.le_of_eq hlen), Res.bind_ok]
  cases hk : atomKind (ObjMap.create objects) pred with
  | eq =>
    obtain ⟨t₁, t₂, rfl⟩ := List.length_eq_two.1 (h2 (k1.1 hk))
    exact Or.inl ⟨_, by simp [Res.index]; rfl⟩
  | type =>
    obtain ⟨e, ht⟩ := k2.1 hk
    obtain ⟨t, rfl⟩ := List.length_eq_one_iff.1 (h1 e ht)
    exact Or.inl ⟨_, by simp [Res.index]; rfl⟩
  | plain => exact knownOr_contains p _

mutual
theorem eval_known (objects : List Obj) (p : PartialState) : ∀ (g : Goal) (params args : List Obj),
    params.length = args.length → Goal.WF objects (params.map Obj.name) g →
    KnownOr (g.eval (ObjMap.create objects) params p args)
  | .atom pred ts, params, args, hlen, hwf => by
    simpa [Goal.eval] using evalAtom_known objects p params args pred ts hlen hwf
  | .conj gs, params, args, hlen, hwf => by
    simpa [Goal.eval] using evalAll_known objects p gs params args hlen (by simpa [Goal.WF] using hwf)
  | .disj gs, params, args, hlen, hwf => by
    simpa [Goal.eval] using evalAny_known objects p gs params args hlen (by simpa [Goal.WF] using hwf)
  | .neg g, params, args, hlen, hwf => by
    have ih := eval_known objects p g params args hlen (by simpa [Goal.WF] using hwf)
    have aux : KnownOr (do let b ← Goal.eval g (ObjMap.create objects) params p args; pure (!b)) := by
      rcases ih with ⟨b, hb⟩ | hb
      · exact Or.inl ⟨!b, by rw [hb]; rfl⟩
      · exact Or.inr (by rw [hb]; rfl)
    rw [Goal.eval]
    unfold evalNeg
    split
    · rename_i pred ts
      split
      · rw [applyFn_terms params args ts (Nat.le_of_eq hlen)]
        exact knownOr_lacks p _
      · exact aux
    · exact aux
  | .all vars g, params, args, hlen, hwf => by
    obtain ⟨hv, hwf⟩ := by simpa only [Goal.WF] using hwf
    obtain ⟨l, hl, hmem⟩ := gen_create objects vars hv
    simp only [Goal.eval, hl, Res.bind_ok]
    refine KnownOr.loopAll fun os hos => ?_
    exact eval_known objects p g _ _ (by simp [hlen, ((hmem os).1 hos).length]) (by simpa using hwf)
  | .ex vars g, params, args, hlen, hwf => by
    obtain ⟨hv, hwf⟩ := by simpa only [Goal.WF] using hwf
    obtain ⟨l, hl, hmem⟩ := gen_create objects vars hv
    simp only [Goal.eval, hl, Res.bind_ok]
    refine KnownOr.loopAny fun os hos => ?_
    exact eval_known objects p g _ _ (by simp [hlen, ((hmem os).1 hos).length]) (by simpa using hwf)
  | .other, _, _, _, hwf => by simp [Goal.WF] at hwf
theorem evalAll_known (objects : List Obj) (p : PartialState) : ∀ (gs : List Goal) (params args : List Obj),
    params.length = args.length → Goal.WFs objects (params.map Obj.name) gs →
    KnownOr (Goal.evalAll gs (ObjMap.create objects) params p args)
  | [], _, _, _, _ => Or.inl ⟨true, by simp [Goal.evalAll]⟩
  | g :: gs, params, args, hlen, hwf => by
    obtain ⟨hg, hgs⟩ := by simpa only [Goal.WFs] using hwf
    have ih := evalAll_known objects p gs params args hlen hgs
    rcases eval_known objects p g params args hlen hg with ⟨b, hb⟩ | hb
    · cases b
      · exact Or.inl ⟨false, by simp [Goal.evalAll, hb]⟩
      · simpa [Goal.evalAll, hb] using ih
    · exact Or.inr (by simp only [Goal.evalAll, hb]; rfl)
theorem evalAny_known (objects : List Obj) (p : PartialState) : ∀ (gs : List Goal) (params args : List Obj),
    params.length = args.length → Goal.WFs objects (params.map Obj.name) gs →
    KnownOr (Goal.evalAny gs (ObjMap.create objects) params p args)
  | [], _, _, _, _ => Or.inl ⟨false, by simp [Goal.evalAny]⟩
  | g :: gs, params, args, hlen, hwf => by
    obtain ⟨hg, hgs⟩ := by simpa only [Goal.WFs] using hwf
    have ih := evalAny_known objects p gs params args hlen hgs
    rcases eval_known objects p g params args hlen hg with ⟨b, hb⟩ | hb
    · cases b
      · simpa [Goal.evalAny, hb] using ih
      · exact Or.inl ⟨true, by simp [Goal.evalAny, hb]⟩
    · exact Or.inr (by simp only [Goal.evalAny, hb]; rfl)
end

/-! ## Growing towards a complete state -/

/-- The complete state `T` agrees with everything `p` knows. -/
def Toward (T : State) (p : PartialState) : Prop := Compatible (· ∈ p.pos) (· ∈ p.neg) (· ∈ T)

/-- `q` knows everything `p` knows. -/
def GrowsP (p q : PartialState) : Prop := (∀ a, a ∈ p.pos → a ∈ q.pos) ∧ ∀ a, a ∈ p.neg → a ∈ q.neg

theorem GrowsP.refl (p : PartialState) : GrowsP p p := ⟨fun _ h => h, fun _ h => h⟩

theorem GrowsP.trans {p q r : PartialState} (h : GrowsP p q) (h' : GrowsP q r) : GrowsP p r :=
  ⟨fun a ha => h'.1 a (h.1 a ha), fun a ha => h'.2 a (h.2 a ha)⟩

theorem Toward.sim {T : State} {p : PartialState} (h : Toward T p) : Sim p T := by
  constructor
  · intro a c hc
    have hc' : (if p.pos.contains a then Res.ok true else if p.neg.contains a then Res.ok false
      else Res.exc .unknownEvaluation) = Res.ok c := hc
    show Res.ok (T.contains a) = Res.ok c
    rw [State.contains_eq] at hc' ⊢
    rw [State.contains_eq] at hc'
    by_cases h1 : a ∈ p.pos
    · simp only [h1, decide_true, if_true, Res.ok.injEq] at hc'
      rw [← hc']; simp [h.1 a h1]
    · by_cases h2 : a ∈ p.neg
      · simp only [h1, h2, decide_false, decide_true, if_true, Bool.false_eq_true, if_false, Res.ok.injEq] at hc'
        rw [← hc']; simp [h.2 a h2]
      · simp [h1, h2] at hc'
  · intro a c hc
    have hc' : (if p.pos.contains a then Res.ok false else if p.neg.contains a then Res.ok true
      else Res.exc .unknownEvaluation) = Res.ok c := hc
    show Res.ok (!T.contains a) = Res.ok c
    rw [State.contains_eq] at hc' ⊢
    rw [State.contains_eq] at hc'
    by_cases h1 : a ∈ p.pos
    · simp only [h1, decide_true, if_true, Res.ok.injEq] at hc'
      rw [← hc']; simp [h.1 a h1]
    · by_cases h2 : a ∈ p.neg
      · simp only [h1, h2, decide_false, decide_true, if_true, Bool.false_eq_true, if_false, Res.ok.injEq] at hc'
        rw [← hc']; simp [h.2 a h2]
      · simp [h1, h2] at hc'

/-- A formula that is known to be true is true in `T`. -/
theorem Toward.sat {T : State} {p : PartialState} (h : Toward T p) {objects : List Obj} {g : Goal}
    {params args : List Obj} (hlen : params.length = args.length) (hwf : g.WF objects (params.map Obj.name))
    (he : g.eval (ObjMap.create objects) params p args = .ok true) :
    Sat objects (· ∈ T) (Env.none.bind params args) g := by
  obtain ⟨b, h1, h2⟩ := eval_sat objects T g params args hlen hwf
  rw [eval_sim h.sim _ g params args true he] at h1
  cases h1
  exact h2.1 rfl

/-- Applied to `p`, the result is out of budget, or `p` has grown without an override and still agrees with `T`. -/
def Good (T : State) (p : PartialState) (r : Res (Nat × PartialState)) : Prop :=
  r = .fuel ∨ ∃ n q, r = .ok (n, q) ∧ n ≤ 1 ∧ Toward T q ∧ GrowsP p q

def GoodS (T : State) (p : PartialState) (r : Res PartialState) : Prop :=
  r = .fuel ∨ ∃ q, r = .ok q ∧ Toward T q ∧ GrowsP p q

theorem Good.refl {T : State} {p : PartialState} (h : Toward T p) : Good T p (.ok (0, p)) :=
  Or.inr ⟨0, p, rfl, by omega, h, GrowsP.refl p⟩

theorem Good.seq {T : State} {p : PartialState} {a : Res (Nat × PartialState)} {f : PartialState → Res (Nat × PartialState)}
    (h : Good T p a) (hf : ∀ q, Toward T q → Good T q (f q)) :
    Good T p (do let r ← a; let r' ← f r.2; pure (max r.1 r'.1, r'.2)) := by
  rcases h with rfl | ⟨n, q, rfl, hn, ht, hg⟩
  · exact Or.inl rfl
  · rcases hf q ht with hq | ⟨k, u, hq, hk, hu, hg'⟩
    · exact Or.inl (by simp [hq])
    · refine Or.inr ⟨max n k, u, by simp [hq], by omega, hu, hg.trans hg'⟩

theorem Good.loopEff {T : State} {f : List Obj → PartialState → Res (Nat × PartialState)} :
    ∀ {l : List (List Obj)} {p : PartialState}, (∀ os ∈ l, ∀ p, Toward T p → Good T p (f os p)) → Toward T p →
    Good T p (loopEff f l p)
  | [], p, _, hp => Good.refl hp
  | os :: l, p, h, hp => by
    rw [Symbolic.loopEff]
    exact (h os (by simp) p hp).seq (fun q hq => Good.loopEff (fun x hx => h x (by simp [hx])) hq)

/-- One operation in the direction of `T`. -/
theorem step_toward {T : State} {p : PartialState} (hp : Toward T p) {sign : Bool} {x : Atom}
    (hx : x ∈ T ↔ sign = true) :
    let r := if sign then StateLike.insert p x else StateLike.erase p x
    r.1 ≤ 1 ∧ Toward T r.2 ∧ GrowsP p r.2 := by
  cases sign
  · have hT : x ∉ T := by simpa using hx
    have hn : x ∉ p.pos := fun h => hT (hp.1 x h)
    show (p.pos.erase x).1.toNat + (p.neg.insert x).1.toNat ≤ 1 ∧
      Toward T ⟨(p.pos.erase x).2, (p.neg.insert x).2⟩ ∧ GrowsP p ⟨(p.pos.erase x).2, (p.neg.insert x).2⟩
    rw [State.erase_of_not_mem hn, State.erase_flag]
    refine ⟨?_, ⟨hp.1, ?_⟩, fun _ h => h, fun a h => ?_⟩
    · have := Bool.toNat_le (p.neg.insert x).1
      simpa [hn] using this
    · intro a ha
      rcases State.mem_insert.1 ha with rfl | ha
      · exact hT
      · exact hp.2 a ha
    · exact State.mem_insert.2 (Or.inr h)
  · have hT : x ∈ T := by simpa using hx
    have hn : x ∉ p.neg := fun h => hp.2 x h hT
    show (p.neg.erase x).1.toNat + (p.pos.insert x).1.toNat ≤ 1 ∧
      Toward T ⟨(p.pos.insert x).2, (p.neg.erase x).2⟩ ∧ GrowsP p ⟨(p.pos.insert x).2, (p.neg.erase x).2⟩
    rw [State.erase_of_not_mem hn, State.erase_flag]
    refine ⟨?_, ⟨?_, hp.2⟩, fun a h => ?_, fun _ h => h⟩
    · have := Bool.toNat_le (p.pos.insert x).1
      simpa [hn] using this
    · intro a ha
      rcases State.mem_insert.1 ha with rfl | ha
      · exact hT
      · exact hp.1 a ha
    · exact State.mem_insert.2 (Or.inr h)

/-! ## Effects -/

/-- Firing on an atom that agrees with `T` and respects its signature. -/
def FireGood (objects : List Obj) (sig : Name → List Name) (T : State) (fire : Fire PartialState) : Prop :=
  ∀ sign pred (ts : List Term) params args p, params.length = args.length → (params.map Obj.name).Nodup →
    (∀ t ∈ ts, t.Scoped (params.map Obj.name)) → pred ≠ n!"=" → ¬ IsType objects pred →
    Respects objects (sig pred) (ts.map (Term.value params args)) →
    (Atom.ofObjs pred (ts.map (Term.value params args)) ∈ T ↔ sign = true) → Toward T p →
    GoodS T p (fire sign pred params (ts.map Term.obj) args p)

variable {objects : List Obj} {sig : Name → List Name} {T : State} {fire : Fire PartialState}

theorem applySimple_good (hf : FireGood objects sig T fire) (sign : Bool) (pred : Name) (ts : List Term)
    (params args : List Obj) (p : PartialState) (hlen : params.length = args.length)
    (hnd : (params.map Obj.name).Nodup) (hwf : Goal.WF objects (params.map Obj.name) (.atom pred ts))
    (hty : pred ≠ n!"=" → ¬ IsType objects pred → ∀ os, List.Forall₂ (Denotes (Env.none.bind params args)) ts os →
      Respects objects (sig pred) os)
    (hT : SatAtom objects (· ∈ T) (Env.none.bind params args) pred ts ↔ sign = true) (hp : Toward T p) :
    Good T p (applySimple (ObjMap.create objects) fire sign pred ts params args p) := by
  obtain ⟨b, h1, h2⟩ := evalAtom_sat objects T params args pred ts hlen hwf
  rw [← h2] at hT
  have hb : b = sign := by cases b <;> cases sign <;> simp_all
  subst hb
  simp only [evalAtom, applyFn_terms params args ts (Nat.le_of_eq hlen), Res.bind_ok] at h1
  simp only [applySimple, applyFn_terms params args ts (Nat.le_of_eq hlen), Res.bind_ok]
  cases hk : atomKind (ObjMap.create objects) pred <;> simp only [hk] at h1 ⊢
  · simp only [Res.bind_eq_ok, Res.pure_eq, Res.ok.injEq] at h1
    obtain ⟨o1, ho1, o2, ho2, h3⟩ := h1
    simp only [ho1, ho2, Res.bind_ok, h3, if_true]
    exact Good.refl hp
  · simp only [Res.bind_eq_ok, Res.pure_eq, Res.ok.injEq] at h1
    obtain ⟨o1, ho1, h3⟩ := h1
    simp only [ho1, Res.bind_ok, h3, if_true]
    exact Good.refl hp
  · obtain ⟨ne, nt⟩ := (atomKind_create objects pred).2.2.1 hk
    have hx : Atom.ofObjs pred (ts.map (Term.value params args)) ∈ T ↔ b = true := by
      have : T.contains (Atom.ofObjs pred (ts.map (Term.value params args))) = b := by
        simpa [StateLike.contains] using h1
      rw [State.mem_def, this]
    obtain ⟨h3, h4, h5⟩ := step_toward hp hx
    revert h3 h4 h5
    generalize (if b = true then StateLike.insert p (Atom.ofObjs pred (ts.map (Term.value params args))) else
      StateLike.erase p (Atom.ofObjs pred (ts.map (Term.value params args)))) = r
    intro h3 h4 h5
    split
    · exact Or.inr ⟨r.1, r.2, rfl, h3, h4, h5⟩
    · have hr := hty ne nt _ ((forall₂_denotes hlen hwf.1 _).2 rfl)
      rcases hf b pred ts params args r.2 hlen hnd hwf.1 ne nt hr hx h4 with h | ⟨q, h, h6, h7⟩
      · exact Or.inl (by simp [h])
      · exact Or.inr ⟨r.1, q, by simp [h], h3, h6, h5.trans h7⟩

theorem applySimples_good (hf : FireGood objects sig T fire) (sign : Bool) (params args : List Obj)
    (hlen : params.length = args.length) (hnd : (params.map Obj.name).Nodup) :
    ∀ (l : List (Name × List Term)) (p : PartialState), AtomLits objects (params.map Obj.name) l →
    LitsTyped objects sig (Env.none.bind params args) l →
    (∀ pred ts, (pred, ts) ∈ l → (SatAtom objects (· ∈ T) (Env.none.bind params args) pred ts ↔ sign = true)) →
    Toward T p → Good T p (applySimples (ObjMap.create objects) fire sign params args l p)
  | [], p, _, _, _, hp => Good.refl hp
  | (pred, ts) :: l, p, hw, ht, hT, hp => by
    rw [applySimples]
    refine (applySimple_good hf sign pred ts params args p hlen hnd (hw pred ts (by simp)) (ht pred ts (by simp))
      (hT pred ts (by simp)) hp).seq (fun q hq => ?_)
    exact applySimples_good hf sign params args hlen hnd l q (fun a b h => hw a b (by simp [h]))
      (fun a b h => ht a b (by simp [h])) (fun a b h => hT a b (by simp [h])) hq

mutual
/-- Applying a true implication to a partial state. -/
theorem Eff.apply_good (hf : FireGood objects sig T fire) : ∀ (e : Eff) (params args : List Obj) (p : PartialState),
    params.length = args.length → (params.map Obj.name).Nodup → e.Formed objects (params.map Obj.name) →
    e.Fresh (params.map Obj.name) → e.Typed objects sig (Env.none.bind params args) →
    e.Says objects (· ∈ T) (Env.none.bind params args) → Toward T p →
    Good T p (e.apply (ObjMap.create objects) fire params args p)
  | .mk fs adds dels cs, params, args, p, hlen, hnd, hw, hfr, ht, hs, hp => by
    simp only [Eff.Formed] at hw
    simp only [Eff.Fresh] at hfr
    simp only [Eff.Typed] at ht
    simp only [Eff.Says] at hs
    have h1 := FList.apply_good hf fs params args p hlen hnd hw.1 hfr.1 ht.1 hs.1 hp
    have h2 := fun q => applySimples_good hf true params args hlen hnd adds q hw.2.1 ht.2.1
      (fun a b h => by simpa using hs.2.1 a b h)
    have h3 := fun q => applySimples_good hf false params args hlen hnd dels q hw.2.2.1 ht.2.2.1
      (fun a b h => by simpa using hs.2.2.1 a b h)
    have h4 := fun q => CList.apply_good hf cs params args q hlen hnd hw.2.2.2 hfr.2 ht.2.2.2 hs.2.2.2
    simp only [Eff.apply]
    rcases h1 with h1 | ⟨n1, q1, h1, e1, t1, g1⟩
    · exact Or.inl (by simp [h1])
    rcases h2 q1 t1 with h2 | ⟨n2, q2, h2, e2, t2, g2⟩
    · exact Or.inl (by simp [h1, h2])
    rcases h3 q2 t2 with h3 | ⟨n3, q3, h3, e3, t3, g3⟩
    · exact Or.inl (by simp [h1, h2, h3])
    rcases h4 q3 t3 with h4 | ⟨n4, q4, h4, e4, t4, g4⟩
    · exact Or.inl (by simp [h1, h2, h3, h4])
    exact Or.inr ⟨_, q4, by simp [h1, h2, h3, h4]; rfl, by omega, t4, ((g1.trans g2).trans g3).trans g4⟩
theorem FList.apply_good (hf : FireGood objects sig T fire) : ∀ (e : FList) (params args : List Obj) (p : PartialState),
    params.length = args.length → (params.map Obj.name).Nodup → e.Formed objects (params.map Obj.name) →
    e.Fresh (params.map Obj.name) → e.Typed objects sig (Env.none.bind params args) →
    e.Says objects (· ∈ T) (Env.none.bind params args) → Toward T p →
    Good T p (e.apply (ObjMap.create objects) fire params args p)
  | .nil, params, args, p, _, _, _, _, _, _, hp => by simp only [FList.apply]; exact Good.refl hp
  | .cons vars e rest, params, args, p, hlen, hnd, hw, hfr, ht, hs, hp => by
    simp only [FList.Formed] at hw
    simp only [FList.Fresh] at hfr
    simp only [FList.Typed] at ht
    simp only [FList.Says] at hs
    obtain ⟨l, hl, hmem⟩ := gen_create objects vars hw.1
    simp only [FList.apply, hl, Res.bind_ok]
    refine Good.seq (Good.loopEff (fun os hos q hq => ?_) hp)
      (fun q hq => FList.apply_good hf rest params args q hlen hnd hw.2.2 hfr.2.2 ht.2 hs.2 hq)
    have hwt := (hmem os).1 hos
    refine Eff.apply_good hf e _ _ q (by simp [hlen, hwt.length]) (by simpa using hfr.1) (by simpa using hw.2.1)
      (by simpa using hfr.2.1) ?_ ?_ hq
    · rw [Env.bind_append _ _ _ _ _ hlen]; exact ht.1 os hwt
    · rw [Env.bind_append _ _ _ _ _ hlen]; exact hs.1 os hwt
theorem CList.apply_good (hf : FireGood objects sig T fire) : ∀ (e : CList) (params args : List Obj) (p : PartialState),
    params.length = args.length → (params.map Obj.name).Nodup → e.Formed objects (params.map Obj.name) →
    e.Fresh (params.map Obj.name) → e.Typed objects sig (Env.none.bind params args) →
    e.Says objects (· ∈ T) (Env.none.bind params args) → Toward T p →
    Good T p (e.apply (ObjMap.create objects) fire params args p)
  | .nil, params, args, p, _, _, _, _, _, _, hp => by simp only [CList.apply]; exact Good.refl hp
  | .cons g e rest, params, args, p, hlen, hnd, hw, hfr, ht, hs, hp => by
    simp only [CList.Formed] at hw
    simp only [CList.Fresh] at hfr
    simp only [CList.Typed] at ht
    simp only [CList.Says] at hs
    have hrest := fun q => CList.apply_good hf rest params args q hlen hnd hw.2.2 hfr.2 ht.2 hs.2
    have hskip : Good T p (do
        let r' ← CList.apply (ObjMap.create objects) fire rest params args p
        pure (max 0 r'.1, r'.2)) := by
      have := (Good.refl hp).seq (f := fun q => CList.apply (ObjMap.create objects) fire rest params args q) hrest
      simpa using this
    simp only [CList.apply]
    rcases eval_known objects p g params args hlen hw.1 with ⟨b, hb⟩ | hb
    · have hc : StateLike.cond (σ := PartialState) (Goal.eval g (ObjMap.create objects) params p args) = .ok b := by
        rw [hb]; rfl
      simp only [hc, Res.bind_ok]
      cases b
      · simpa using hskip
      · refine Good.seq ?_ hrest
        exact Eff.apply_good hf e params args p hlen hnd hw.2.1 hfr.1 ht.1 (hs.1 (hp.sat hlen hw.1 hb)) hp
    · have hc : StateLike.cond (σ := PartialState) (Goal.eval g (ObjMap.create objects) params p args) = .ok false := by
        rw [hb]; rfl
      simp only [hc, Res.bind_ok]
      simpa using hskip
end

/-! ## Triggered axioms -/

theorem runInsts_good {run : Ax → List Obj → PartialState → Res (Nat × PartialState)} :
    ∀ {l : List (Ax × List Obj)} {p : PartialState},
    (∀ ax as, (ax, as) ∈ l → ∀ p, Toward T p → Good T p (run ax as p)) → Toward T p → GoodS T p (runInsts run l p)
  | [], p, _, hp => Or.inr ⟨p, rfl, hp, GrowsP.refl p⟩
  | (ax, as) :: l, p, h, hp => by
    rw [runInsts]
    rcases h ax as (by simp) p hp with h1 | ⟨n, q, h1, -, h2, h3⟩
    · exact Or.inl (by simp [h1])
    · rcases runInsts_good (l := l) (fun a b hm => h a b (by simp [hm])) h2 with h4 | ⟨u, h4, h5, h6⟩
      · exact Or.inl (by simp [h1, h4])
      · exact Or.inr ⟨u, by simp [h1, h4], h5, h3.trans h6⟩

omit [StrHash] in
/-- The context is an atom or a negated atom. -/
theorem contextOf_ok {op : Op} {pos : Bool} {pred : Name} {args : List Obj} (h : contextOf op.pre = .ok (pos, pred, args)) :
    op.ctxPred = pred ∧ args = op.ctx.map Term.obj ∧
      op.pre = (if pos then .atom pred op.ctx else .neg (.atom pred op.ctx)) := by
  unfold Op.ctx Op.ctxPred
  unfold contextOf at h
  split at h
  · simp only [Res.ok.injEq, Prod.mk.injEq] at h
    obtain ⟨rfl, rfl, rfl⟩ := h
    rename_i e
    simp [e]
  · simp only [Res.ok.injEq, Prod.mk.injEq] at h
    obtain ⟨rfl, rfl, rfl⟩ := h
    rename_i e
    simp [e]
  · simp at h

omit [StrHash] in
theorem match_denotes {env : Env} : ∀ {ts : List Term} {os : List Obj}, List.Forall₂ (MatchTerm env) ts os →
    ∃ us, List.Forall₂ (Denotes env) ts us ∧ us.map Obj.name = os.map Obj.name
  | _, _, .nil => ⟨[], .nil, rfl⟩
  | t :: ts, o :: os, .cons h hs => by
    obtain ⟨us, h1, h2⟩ := match_denotes hs
    cases t with
    | var v => exact ⟨o :: us, .cons h h1, by simp [h2]⟩
    | const c => exact ⟨c :: us, .cons rfl h1, by simp only [List.map_cons, h2]; rw [show c.name = o.name from h]⟩

omit [StrHash] in
theorem denotes_unique {env : Env} : ∀ {ts : List Term} {us vs : List Obj}, List.Forall₂ (Denotes env) ts us →
    List.Forall₂ (Denotes env) ts vs → us = vs
  | _, _, _, .nil, .nil => rfl
  | t :: ts, _, _, .cons h hs, .cons h' hs' => by
    have e := denotes_unique hs hs'
    cases t with
    | var v =>
      simp only [Denotes] at h h'
      rw [h] at h'
      cases h'
      rw [e]
    | const c =>
      simp only [Denotes] at h h'
      rw [← h, ← h', e]

omit [StrHash] in
/-- A triggered instance has a true context if the atom agrees with the sign of the context. -/
theorem triggered_sat {S : Atom → Prop} {op : Op} {pos : Bool} {pred : Name} {cargs : List Obj}
    (hc : contextOf op.pre = .ok (pos, pred, cargs)) (hne : pred ≠ n!"=") (hnt : ¬ IsType objects pred)
    {as os : List Obj} (ht : op.Triggered as os) (hx : S (Atom.ofObjs pred os) ↔ pos = true) :
    Sat objects S (Env.none.bind op.params as) op.pre := by
  obtain ⟨-, -, hpre⟩ := contextOf_ok hc
  obtain ⟨us, h1, h2⟩ := match_denotes ht.2
  have e : Atom.ofObjs pred os = ⟨pred, us.map Obj.name⟩ := by simp [Atom.ofObjs, h2]
  rw [hpre]
  cases pos
  · simp only [Bool.false_eq_true, if_false, Sat]
    rintro (⟨h, -⟩ | ⟨-, h, -⟩ | ⟨-, -, vs, hv, h⟩)
    · exact hne h
    · exact hnt h
    · rw [denotes_unique hv h1, ← e] at h
      simpa using hx.1 h
  · simp only [if_true, Sat]
    exact Or.inr (Or.inr ⟨hne, hnt, us, h1, by rw [← e]; exact hx.2 rfl⟩)

/-- All axioms agree with the signatures and hold in `T`. -/
structure Guided (objects : List Obj) (sig : Name → List Name) (T : State) (ax : Ax) : Prop where
  sorted : ax.op.Sorted objects sig
  ctx : contextOf ax.op.pre = .ok (ax.pos, ax.pred, ax.ctxArgs)
  holds : ∀ os, WellTyped objects ax.op.params os → ax.op.HoldsFor objects (· ∈ T) os

theorem Guided.run {ax : Ax} (h : Guided objects sig T ax) (hf : FireGood objects sig T fire) {as : List Obj}
    (hw : WellTyped objects ax.op.params as) (hs : Sat objects (· ∈ T) (Env.none.bind ax.op.params as) ax.op.pre)
    {p : PartialState} (hp : Toward T p) :
    Good T p (ax.op.eff.apply (ObjMap.create objects) fire ax.op.params as p) :=
  Eff.apply_good hf _ _ _ p hw.length h.sorted.linear.nodup h.sorted.formed.eff h.sorted.fresh (h.sorted.eff as hw)
    (h.holds as hw hs) hp

theorem fireLoop_good {axs : List Ax} (hax : ∀ ax ∈ axs, Guided objects sig T ax)
    {run : Ax → List Obj → PartialState → Res (Nat × PartialState)}
    (hrun : ∀ ax ∈ axs, ∀ as, WellTyped objects ax.op.params as →
      Sat objects (· ∈ T) (Env.none.bind ax.op.params as) ax.op.pre → ∀ p, Toward T p → Good T p (run ax as p)) :
    FireGood objects sig T (fun sign pred ps es as p => fireLoop run sign pred ps es as axs p) := by
  intro sign pred ts params args p hlen hnd hs hne hnt hr hx hp
  have hl : ts.length = (sig pred).length := by simpa using (List.Forall₂.length_eq hr).symm
  obtain ⟨insts, -, h2, h3⟩ := fireLoop_spec (run := run) (sign := sign) (pred := pred) hlen hnd hs axs (by
    rintro ax hm - rfl
    have hg := hax ax hm
    obtain ⟨e1, e2, -⟩ := contextOf_ok hg.ctx
    exact ⟨hg.sorted.linear, e2, by rw [hg.sorted.arity, e1, hl]⟩)
  dsimp only
  rw [h2]
  refine runInsts_good (fun ax as hm p hp => ?_) hp
  obtain ⟨h4, h5, h6, h7⟩ := (h3 ax as).1 hm
  have hg := hax ax h4
  obtain ⟨e1, -, -⟩ := contextOf_ok hg.ctx
  refine hrun ax h4 as ?_ ?_ p hp
  · exact hg.sorted.wide as _ (by rw [e1, h6]; exact hr) h7
  · exact triggered_sat hg.ctx (by rw [h6]; exact hne) (by rw [h6]; exact hnt) h7 (by rw [h6, h5]; exact hx)

theorem fireN_good {axs : List Ax} (hax : ∀ ax ∈ axs, Guided objects sig T ax) :
    ∀ n, FireGood objects sig T (fireN (ObjMap.create objects) axs n)
  | 0 => fireLoop_good hax (fun _ _ _ _ _ _ _ => Or.inl rfl)
  | n + 1 => fireLoop_good hax (fun ax hm _ hw hs _ hp => (hax ax hm).run (fireN_good hax n) hw hs hp)

/-! ## Passes over the axioms -/

theorem isValid_known {op : Op} (hf : op.Formed objects) (p : PartialState) {as : List Obj}
    (hw : WellTyped objects op.params as) : ∃ v, optionalOf (op.isValid (ObjMap.create objects) p as) = .ok v ∧
      (v = some true → op.pre.eval (ObjMap.create objects) op.params p as = .ok true) := by
  rcases eval_known objects p op.pre op.params as hw.length hf.pre with ⟨b, hb⟩ | hb
  · exact ⟨some b, by rw [Op.isValid, hb]; rfl, by rintro ⟨⟩; exact hb⟩
  · exact ⟨none, by rw [Op.isValid, hb]; rfl, by simp⟩

theorem axApplyPLoop_good {axs : List Ax} (hax : ∀ ax ∈ axs, Guided objects sig T ax) {fuel : Nat} {ax : Ax}
    (hm : ax ∈ axs) : ∀ {l : List (List Obj)} {p : PartialState}, (∀ as ∈ l, WellTyped objects ax.op.params as) →
    Toward T p → Good T p (axApplyPLoop (ObjMap.create objects) axs fuel ax l p)
  | [], p, _, hp => Good.refl hp
  | as :: l, p, hw, hp => by
    obtain ⟨v, h1, h2⟩ := isValid_known (hax ax hm).sorted.formed p (hw as (by simp))
    have hrest := fun q => axApplyPLoop_good hax (fuel := fuel) hm (l := l) (p := q) (fun x hx => hw x (by simp [hx]))
    simp only [axApplyPLoop, h1, Res.bind_ok]
    by_cases hv : v = some true
    · simp only [hv, if_true]
      refine Good.seq ?_ hrest
      exact (hax ax hm).run (fireN_good hax fuel) (hw as (by simp))
        (hp.sat (hw as (by simp)).length (hax ax hm).sorted.formed.pre (h2 hv)) hp
    · simp only [hv, if_false]
      exact Good.seq (Good.refl hp) hrest

/-- Out of budget, or grown, with any flag. -/
def GoodB (T : State) (p : PartialState) (r : Res (Bool × PartialState)) : Prop :=
  r = .fuel ∨ ∃ b q, r = .ok (b, q) ∧ Toward T q ∧ GrowsP p q

theorem consistentPassP_good {axs : List Ax} (hax : ∀ ax ∈ axs, Guided objects sig T ax) {fuel : Nat} :
    ∀ {l : List Ax} {p : PartialState}, (∀ ax ∈ l, ax ∈ axs ∧ ∀ as ∈ ax.arguments, WellTyped objects ax.op.params as) →
    Toward T p → GoodB T p (Pddl.consistentPassP (ObjMap.create objects) axs fuel l p)
  | [], p, _, hp => Or.inr ⟨false, p, rfl, hp, GrowsP.refl p⟩
  | ax :: l, p, h, hp => by
    simp only [Pddl.consistentPassP]
    rcases axApplyPLoop_good hax (fuel := fuel) (h ax (by simp)).1 (h ax (by simp)).2 hp with h1 | ⟨n, q, h1, hn, h2, h3⟩
    · exact Or.inl (by simp [Ax.applyP, h1])
    · have hn2 : n ≠ 2 := by omega
      rcases consistentPassP_good hax (fuel := fuel) (l := l) (fun a ha => h a (by simp [ha])) h2 with h4 | ⟨b, u, h4, h5, h6⟩
      · exact Or.inl (by simp [Ax.applyP, h1, hn2, h4])
      · exact Or.inr ⟨_, u, by simp only [Ax.applyP, h1, Res.bind_ok, hn2, if_false, h4]; rfl, h5, h3.trans h6⟩

theorem consistentFixP_good {axs : List Ax} (hax : ∀ ax ∈ axs, Guided objects sig T ax)
    (hargs : ∀ ax ∈ axs, ∀ as ∈ ax.arguments, WellTyped objects ax.op.params as) {fuel : Nat} (i : Nat)
    (p : PartialState) (hp : Toward T p) :
    Pddl.consistentFixP (ObjMap.create objects) axs fuel i p = .exc .runtimeError ∨
      GoodS T p (Pddl.consistentFixP (ObjMap.create objects) axs fuel i p) := by
  rw [Pddl.consistentFixP]
  rcases consistentPassP_good hax (fuel := fuel) (fun a ha => ⟨ha, hargs a ha⟩) hp with h1 | ⟨b, q, h1, h2, h3⟩
  · exact Or.inr (Or.inl (by simp [h1]))
  · simp only [h1, Res.bind_ok]
    split
    · exact Or.inl rfl
    · rename_i hi
      split
      · rcases consistentFixP_good hax hargs (fuel := fuel) (i + 1) q h2 with h | h | ⟨u, h, h4, h5⟩
        · exact Or.inl h
        · exact Or.inr (Or.inl h)
        · exact Or.inr (Or.inr ⟨u, h, h4, h3.trans h5⟩)
      · exact Or.inr (Or.inr ⟨q, rfl, h2, h3⟩)
termination_by Pddl.kMaxIterations + 1 - i
decreasing_by
  rename_i hi _
  simp only [Pddl.kMaxIterations, gt_iff_lt, Nat.not_lt] at hi ⊢
  omega

/-- Out of budget, or "consistent". -/
def GoodV (T : State) (p : PartialState) (r : Res (Bool × Bool × PartialState)) : Prop :=
  r = .fuel ∨ ∃ c q, r = .ok (true, c, q) ∧ Toward T q ∧ GrowsP p q

theorem consistentPLoop_good {axs : List Ax} (hax : ∀ ax ∈ axs, Guided objects sig T ax) {fuel : Nat} {ax : Ax}
    (hm : ax ∈ axs) : ∀ {l : List (List Obj)} {p : PartialState} {c : Bool},
    (∀ as ∈ l, WellTyped objects ax.op.params as) → Toward T p →
    GoodV T p (consistentPLoop (ObjMap.create objects) axs fuel ax l p c)
  | [], p, c, _, hp => Or.inr ⟨c, p, rfl, hp, GrowsP.refl p⟩
  | as :: l, p, c, hw, hp => by
    obtain ⟨v, h1, h2⟩ := isValid_known (hax ax hm).sorted.formed p (hw as (by simp))
    have hrest := fun q c => consistentPLoop_good hax (fuel := fuel) hm (l := l) (p := q) (c := c)
      (fun x hx => hw x (by simp [hx]))
    simp only [consistentPLoop, h1, Res.bind_ok]
    by_cases hv : v = some true
    · subst hv
      have hg := (hax ax hm).run (fireN_good hax fuel) (hw as (by simp))
        (hp.sat (hw as (by simp)).length (hax ax hm).sorted.formed.pre (h2 rfl)) hp
      rcases hg with hg | ⟨n, q, hg, hn, h3, h4⟩
      · exact Or.inl (by simp [Op.apply, hg, catchExc])
      · have hn' : ¬ n > 1 := by omega
        simp only [Op.apply, hg, catchExc, Res.bind_ok, hn', if_false]
        rcases hrest q (c || decide (n > 0)) h3 with h | ⟨c', u, h, h5, h6⟩
        · exact Or.inl h
        · exact Or.inr ⟨c', u, h, h5, h4.trans h6⟩
    · rcases v with _ | _ | _
      · exact hrest p c hp
      · exact hrest p c hp
      · exact absurd rfl hv

theorem consistentPPass_good {axs : List Ax} (hax : ∀ ax ∈ axs, Guided objects sig T ax) {fuel : Nat} :
    ∀ {l : List Ax} {p : PartialState} {c : Bool},
    (∀ ax ∈ l, ax ∈ axs ∧ ∀ as ∈ ax.arguments, WellTyped objects ax.op.params as) →
    Toward T p → GoodV T p (consistentPPass (ObjMap.create objects) axs fuel l p c)
  | [], p, c, _, hp => Or.inr ⟨c, p, rfl, hp, GrowsP.refl p⟩
  | ax :: l, p, c, h, hp => by
    simp only [consistentPPass]
    rcases consistentPLoop_good hax (fuel := fuel) (c := c) (h ax (by simp)).1 (h ax (by simp)).2 hp with
      h1 | ⟨c', q, h1, h2, h3⟩
    · exact Or.inl (by simp [h1])
    · simp only [h1, Res.bind_ok, if_true]
      rcases consistentPPass_good hax (fuel := fuel) (l := l) (c := c') (fun a ha => h a (by simp [ha])) h2 with h4 | ⟨b, u, h4, h5, h6⟩
      · exact Or.inl h4
      · exact Or.inr ⟨b, u, h4, h5, h3.trans h6⟩

theorem consistentPFix_good {axs : List Ax} (hax : ∀ ax ∈ axs, Guided objects sig T ax)
    (hargs : ∀ ax ∈ axs, ∀ as ∈ ax.arguments, WellTyped objects ax.op.params as) {fuel : Nat} :
    ∀ (k : Nat) (p : PartialState), Toward T p →
    consistentPFix (ObjMap.create objects) axs fuel k p = .fuel ∨
      consistentPFix (ObjMap.create objects) axs fuel k p = .ok true
  | 0, _, _ => Or.inl rfl
  | k + 1, p, hp => by
    rw [consistentPFix]
    rcases consistentPPass_good hax (fuel := fuel) (c := false) (fun a ha => ⟨ha, hargs a ha⟩) hp with h1 | ⟨c, q, h1, h2, -⟩
    · exact Or.inl (by simp [h1])
    · simp only [h1, Res.bind_ok, if_true]
      cases c
      · exact Or.inr rfl
      · exact consistentPFix_good hax hargs k q h2

/-! ## A pass that changes nothing -/

theorem PartialState.insert_zero {p : PartialState} {x : Atom} (h : (StateLike.insert p x).1 = 0) :
    x ∈ p.pos ∧ x ∉ p.neg := by
  have h' : (p.neg.erase x).1.toNat + (p.pos.insert x).1.toNat = 0 := h
  rw [State.erase_flag, State.insert_flag] at h'
  by_cases h1 : x ∈ p.pos <;> by_cases h2 : x ∈ p.neg <;> simp [h1, h2] at h' ⊢

theorem PartialState.erase_zero {p : PartialState} {x : Atom} (h : (StateLike.erase p x).1 = 0) :
    x ∈ p.neg ∧ x ∉ p.pos := by
  have h' : (p.pos.erase x).1.toNat + (p.neg.insert x).1.toNat = 0 := h
  rw [State.erase_flag, State.insert_flag] at h'
  by_cases h1 : x ∈ p.pos <;> by_cases h2 : x ∈ p.neg <;> simp [h1, h2] at h' ⊢

/-- The instance adds nothing: if its context is known to be true, applying it reports no change. -/
def QuietP (m : ObjMap) (axs : List Ax) (fuel : Nat) (ax : Ax) (p : PartialState) (as : List Obj) : Prop :=
  ax.op.isValid m p as = .ok true → ax.op.apply m axs fuel as p = .ok (0, p)

theorem axApplyPLoop_zero {m : ObjMap} {axs : List Ax} {fuel : Nat} {ax : Ax} :
    ∀ {l : List (List Obj)} {p q : PartialState}, axApplyPLoop m axs fuel ax l p = .ok (0, q) →
    q = p ∧ ∀ as ∈ l, QuietP m axs fuel ax p as
  | [], p, q, h => by
    simp only [axApplyPLoop, Res.ok.injEq, Prod.mk.injEq, true_and] at h
    exact ⟨h.symm, by simp⟩
  | as :: l, p, q, h => by
    simp only [axApplyPLoop, Res.bind_eq_ok, Res.pure_eq, Res.ok.injEq, Prod.mk.injEq] at h
    obtain ⟨v, h1, ⟨n, p1⟩, h2, ⟨n', p2⟩, h3, h4, rfl⟩ := h
    simp only at h3 h4
    have e1 : n = 0 := by omega
    have e2 : n' = 0 := by omega
    subst e1 e2
    obtain ⟨rfl, h6⟩ := axApplyPLoop_zero h3
    have hq : p2 = p ∧ (v = some true → ax.op.apply m axs fuel as p = .ok (0, p)) := by
      split at h2
      · have := Eff.apply_zero _ _ _ _ _ _ _ h2
        subst this
        exact ⟨rfl, fun _ => h2⟩
      · rename_i hv
        simp only [Res.ok.injEq, Prod.mk.injEq, true_and] at h2
        exact ⟨h2.symm, fun h => absurd h hv⟩
    obtain ⟨rfl, hq⟩ := hq
    refine ⟨rfl, fun as' ha => ?_⟩
    rcases List.mem_cons.1 ha with rfl | ha
    · intro hv
      rw [hv] at h1
      exact hq (by simpa [optionalOf] using h1.symm)
    · exact h6 as' ha

theorem consistentPassP_false {m : ObjMap} {axs : List Ax} {fuel : Nat} :
    ∀ {l : List Ax} {p q : PartialState}, Pddl.consistentPassP m axs fuel l p = .ok (false, q) →
    q = p ∧ ∀ ax ∈ l, ∀ as ∈ ax.arguments, QuietP m axs fuel ax p as
  | [], p, q, h => by
    simp only [Pddl.consistentPassP, Res.ok.injEq, Prod.mk.injEq, true_and] at h
    exact ⟨h.symm, by simp⟩
  | ax :: l, p, q, h => by
    simp only [Pddl.consistentPassP, Res.bind_eq_ok] at h
    obtain ⟨⟨n, p1⟩, h1, h⟩ := h
    split at h
    · simp at h
    · simp only [Res.bind_eq_ok, Res.pure_eq, Res.ok.injEq, Prod.mk.injEq, Bool.or_eq_false_iff,
        decide_eq_false_iff_not] at h
      obtain ⟨⟨b, p2⟩, h2, ⟨hn, rfl⟩, rfl⟩ := h
      have e1 : n = 0 := by omega
      subst e1
      obtain ⟨rfl, h3⟩ := axApplyPLoop_zero h1
      obtain ⟨rfl, h4⟩ := consistentPassP_false h2
      refine ⟨rfl, fun a ha => ?_⟩
      rcases List.mem_cons.1 ha with rfl | ha
      · exact h3
      · exact h4 a ha

theorem consistentFixP_quiet {m : ObjMap} {axs : List Ax} {fuel : Nat} (i : Nat) (p q : PartialState)
    (h : Pddl.consistentFixP m axs fuel i p = .ok q) :
    ∀ ax ∈ axs, ∀ as ∈ ax.arguments, QuietP m axs fuel ax q as := by
  rw [Pddl.consistentFixP, Res.bind_eq_ok] at h
  obtain ⟨⟨b, r⟩, h1, h⟩ := h
  split at h
  · simp at h
  · split at h
    · exact consistentFixP_quiet (i + 1) r q h
    · rename_i hb
      simp only [Res.pure_eq, Res.ok.injEq] at h
      subst h
      have e : b = false := by simpa using hb
      subst e
      obtain ⟨rfl, h2⟩ := consistentPassP_false h1
      exact h2
termination_by Pddl.kMaxIterations + 1 - i
decreasing_by
  rename_i hi _
  simp only [Pddl.kMaxIterations, gt_iff_lt, Nat.not_lt] at hi ⊢
  omega

/-! ## What "no change" means for effects without conditions -/

theorem applySimples_zero_known {sign : Bool} {params args : List Obj} (hlen : params.length = args.length)
    {p : PartialState} :
    ∀ {l : List (Name × List Term)}, AtomLits objects (params.map Obj.name) l →
    applySimples (ObjMap.create objects) fire sign params args l p = .ok (0, p) →
    ∀ x, x.pred ≠ n!"=" → ¬ IsType objects x.pred → Lists (Env.none.bind params args) l x →
      if sign = true then x ∈ p.pos else x ∈ p.neg
  | [], _, _, x, _, _, hx => by simp [Lists] at hx
  | (pred, ts) :: l, hw, h, x, hne, hnt, hx => by
    rw [applySimples, seq_zero_iff (fun t => applySimple_zero) (fun t u => applySimples_zero)] at h
    obtain ⟨pred', ts', os, hm, hd, rfl⟩ := hx
    rcases List.mem_cons.1 hm with e | hm
    · cases e
      have hk := (atomKind_create objects pred).2.2.2 ⟨hne, hnt⟩
      have h1 := h.1
      rw [forall₂_denotes hlen (hw pred ts (by simp)).1] at hd
      subst hd
      simp only [applySimple, applyFn_terms params args ts (Nat.le_of_eq hlen), Res.bind_ok, hk] at h1
      have h0 : (if sign then StateLike.insert p (Atom.ofObjs pred (ts.map (Term.value params args)))
          else StateLike.erase p (Atom.ofObjs pred (ts.map (Term.value params args)))).1 = 0 := by
        by_contra hc
        rw [if_neg hc] at h1
        simp only [Res.bind_eq_ok, Res.pure_eq, Res.ok.injEq, Prod.mk.injEq] at h1
        obtain ⟨_, -, h3, -⟩ := h1
        exact hc h3
      cases sign
      · exact (PartialState.erase_zero h0).1
      · exact (PartialState.insert_zero h0).1
    · exact applySimples_zero_known hlen (fun a b h => hw a b (by simp [h])) h.2 _ hne hnt
        ⟨pred', ts', os, hm, hd, rfl⟩

mutual
theorem Eff.apply_zero_known {S : Atom → Prop} : ∀ (e : Eff) (params args : List Obj) (p : PartialState),
    params.length = args.length → e.Formed objects (params.map Obj.name) → e.NoCond →
    e.apply (ObjMap.create objects) fire params args p = .ok (0, p) →
    ∀ sign x, x.pred ≠ n!"=" → ¬ IsType objects x.pred → Makes objects S sign (Env.none.bind params args) e x →
      if sign = true then x ∈ p.pos else x ∈ p.neg
  | .mk fs adds dels cs, params, args, p, hlen, hw, hc, h, sign, x, hne, hnt, hx => by
    simp only [Eff.Formed] at hw
    simp only [Eff.NoCond] at hc
    simp only [Eff.apply, Res.bind_eq_ok, Res.pure_eq, Res.ok.injEq, Prod.mk.injEq] at h
    obtain ⟨⟨n1, t1⟩, h1, ⟨n2, t2⟩, h2, ⟨n3, t3⟩, h3, ⟨n4, t4⟩, h4, h5, h6⟩ := h
    simp only at h5 h2 h3 h4 h6
    have e1 : n1 = 0 := by omega
    have e2 : n2 = 0 := by omega
    have e3 : n3 = 0 := by omega
    have e4 : n4 = 0 := by omega
    subst e1 e2 e3 e4 h6
    have z1 := FList.apply_zero _ _ _ _ _ _ _ h1
    subst z1
    have z2 := applySimples_zero h2
    subst z2
    have z3 := applySimples_zero h3
    subst z3
    simp only [Makes] at hx
    rcases hx with hx | ⟨rfl, hx⟩ | ⟨rfl, hx⟩ | hx
    · exact FList.apply_zero_known fs params args _ hlen hw.1 hc.1 h1 sign x hne hnt hx
    · exact applySimples_zero_known hlen hw.2.1 h2 x hne hnt hx
    · exact applySimples_zero_known hlen hw.2.2.1 h3 x hne hnt hx
    · rw [hc.2] at hx; simp [MakesC] at hx
theorem FList.apply_zero_known {S : Atom → Prop} : ∀ (e : FList) (params args : List Obj) (p : PartialState),
    params.length = args.length → e.Formed objects (params.map Obj.name) → e.NoCond →
    e.apply (ObjMap.create objects) fire params args p = .ok (0, p) →
    ∀ sign x, x.pred ≠ n!"=" → ¬ IsType objects x.pred → MakesF objects S sign (Env.none.bind params args) e x →
      if sign = true then x ∈ p.pos else x ∈ p.neg
  | .nil, _, _, _, _, _, _, _, _, _, _, _, hx => by simp [MakesF] at hx
  | .cons vars e rest, params, args, p, hlen, hw, hc, h, sign, x, hne, hnt, hx => by
    simp only [FList.Formed] at hw
    simp only [FList.NoCond] at hc
    obtain ⟨l, hl, hmem⟩ := gen_create objects vars hw.1
    simp only [FList.apply, hl, Res.bind_ok] at h
    rw [seq_zero_iff (fun t h => loopEff_zero (fun os s s' h => Eff.apply_zero _ _ e _ _ s s' h) h)
        (fun t u h => FList.apply_zero _ _ rest _ _ _ _ h),
      loopEff_zero_iff (fun os s s' h => Eff.apply_zero _ _ e _ _ s s' h)] at h
    simp only [MakesF] at hx
    rcases hx with ⟨os, ho, hx⟩ | hx
    · refine Eff.apply_zero_known (S := S) e _ _ p (by simp [hlen, ho.length]) (by simpa using hw.2.1) hc.1
        (h.1 os ((hmem os).2 ho)) sign x hne hnt ?_
      rw [Env.bind_append _ _ _ _ _ hlen]; exact hx
    · exact FList.apply_zero_known rest params args p hlen hw.2.2 hc.2 h.2 sign x hne hnt hx
end

end

end Symbolic
