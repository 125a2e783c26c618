import Verif.Spec.PartialApply
import Verif.Lemmas.PartialAxiom
import Verif.Lemmas.TypeSound
import Verif.Lemmas.Frame
import Verif.Lemmas.Reorder

/-!
# Applying one action to a partial state and to a complete state
-/

namespace Symbolic

/-! ## Effects on two states -/

section
variable {σ τ : Type}

/-- One of the two runs is out of budget, both throw the same, or both return, the results are related, and nothing
changes in the second if nothing changes in the first. -/
def Pair (R : σ → τ → Prop) (a : Res (Nat × σ)) (b : Res (Nat × τ)) : Prop :=
  a = .fuel ∨ b = .fuel ∨ (∃ e, a = .exc e ∧ b = .exc e) ∨
    ∃ n p k s, a = .ok (n, p) ∧ b = .ok (k, s) ∧ (n = 0 → k = 0) ∧ R p s

def PairS (R : σ → τ → Prop) (a : Res σ) (b : Res τ) : Prop :=
  a = .fuel ∨ b = .fuel ∨ (∃ e, a = .exc e ∧ b = .exc e) ∨ ∃ p s, a = .ok p ∧ b = .ok s ∧ R p s

variable {R : σ → τ → Prop}

theorem Pair.ok {n k : Nat} {p : σ} {s : τ} (hk : n = 0 → k = 0) (h : R p s) : Pair R (.ok (n, p)) (.ok (k, s)) :=
  .inr (.inr (.inr ⟨n, p, k, s, rfl, rfl, hk, h⟩))

theorem Pair.bind {α β : Type} {a : Res (Nat × σ)} {b : Res (Nat × τ)} {f : Nat × σ → Res α} {g : Nat × τ → Res β}
    {Q : Res α → Res β → Prop} (h : Pair R a b) (h1 : ∀ y, Q .fuel y) (h2 : ∀ x, Q x .fuel) (h3 : ∀ e, Q (.exc e) (.exc e))
    (h4 : ∀ n p k s, (n = 0 → k = 0) → R p s → Q (f (n, p)) (g (k, s))) : Q (a >>= f) (b >>= g) := by
  rcases h with rfl | rfl | ⟨e, rfl, rfl⟩ | ⟨n, p, k, s, rfl, rfl, hk, h⟩
  · exact h1 _
  · exact h2 _
  · exact h3 _
  · exact h4 _ _ _ _ hk h

theorem Pair.map {α β : Type} {R' : α → β → Prop} {a : Res (Nat × σ)} {b : Res (Nat × τ)} {f : Nat × σ → Res (Nat × α)}
    {g : Nat × τ → Res (Nat × β)} (h : Pair R a b) (h4 : ∀ n p k s, (n = 0 → k = 0) → R p s → Pair R' (f (n, p)) (g (k, s))) :
    Pair R' (a >>= f) (b >>= g) :=
  h.bind (Q := Pair R') (fun _ => .inl rfl) (fun _ => .inr (.inl rfl)) (fun e => .inr (.inr (.inl ⟨e, rfl, rfl⟩))) h4

/-- One after the other. -/
theorem Pair.seq {a : Res (Nat × σ)} {b : Res (Nat × τ)} {f : σ → Res (Nat × σ)} {g : τ → Res (Nat × τ)} (h : Pair R a b)
    (hf : ∀ p s, R p s → Pair R (f p) (g s)) :
    Pair R (do let r ← a; let r' ← f r.2; pure (max r.1 r'.1, r'.2)) (do let r ← b; let r' ← g r.2; pure (max r.1 r'.1, r'.2)) :=
  h.map fun _ p _ s hk hr => (hf p s hr).map fun _ _ _ _ hk' hr' => Pair.ok (by omega) hr'

theorem Pair.loopEff {f : List Obj → σ → Res (Nat × σ)} {g : List Obj → τ → Res (Nat × τ)} :
    ∀ {l : List (List Obj)} {p : σ} {s : τ}, (∀ os ∈ l, ∀ p s, R p s → Pair R (f os p) (g os s)) → R p s →
    Pair R (loopEff f l p) (loopEff g l s)
  | [], _, _, _, h => Pair.ok id h
  | os :: l, p, s, hf, h =>
    (hf os (by simp) p s h).seq fun _ _ h' => Pair.loopEff (fun x hx => hf x (by simp [hx])) h'

mutual
/-- `L` holds of every literal of the effect and `C` of every condition, with the parameters and arguments in scope. -/
def Eff.Each (objects : List Obj) (L : Bool → Name → List Term → List Obj → List Obj → Prop)
    (C : Goal → List Obj → List Obj → Prop) : Eff → List Obj → List Obj → Prop
  | .mk fs adds dels cs, ps, as => FList.Each objects L C fs ps as ∧ (∀ pred ts, (pred, ts) ∈ adds → L true pred ts ps as) ∧
      (∀ pred ts, (pred, ts) ∈ dels → L false pred ts ps as) ∧ CList.Each objects L C cs ps as
def FList.Each (objects : List Obj) (L : Bool → Name → List Term → List Obj → List Obj → Prop)
    (C : Goal → List Obj → List Obj → Prop) : FList → List Obj → List Obj → Prop
  | .nil, _, _ => True
  | .cons vars e rest, ps, as => vars ≠ [] ∧
      (∀ os, WellTyped objects vars os → Eff.Each objects L C e (ps ++ vars) (as ++ os)) ∧ FList.Each objects L C rest ps as
def CList.Each (objects : List Obj) (L : Bool → Name → List Term → List Obj → List Obj → Prop)
    (C : Goal → List Obj → List Obj → Prop) : CList → List Obj → List Obj → Prop
  | .nil, _, _ => True
  | .cons g e rest, ps, as => C g ps as ∧ Eff.Each objects L C e ps as ∧ CList.Each objects L C rest ps as
end

variable [StateLike σ] [StateLike τ] {objects : List Obj} {L : Bool → Name → List Term → List Obj → List Obj → Prop}
  {C : Goal → List Obj → List Obj → Prop} {fire : Fire σ} {fire' : Fire τ}

/-- Literals keep the relation. -/
def PairLits (objects : List Obj) (L : Bool → Name → List Term → List Obj → List Obj → Prop) (R : σ → τ → Prop)
    (fire : Fire σ) (fire' : Fire τ) : Prop :=
  ∀ sign pred ts params args p s, L sign pred ts params args → R p s →
    Pair R (applySimple (ObjMap.create objects) fire sign pred ts params args p)
      (applySimple (ObjMap.create objects) fire' sign pred ts params args s)

/-- Conditions are judged alike. -/
def PairConds (objects : List Obj) (C : Goal → List Obj → List Obj → Prop) (R : σ → τ → Prop) : Prop :=
  ∀ g params args p s, C g params args → R p s →
    ∃ b, StateLike.cond (σ := σ) (Goal.eval g (ObjMap.create objects) params p args) = .ok b ∧
      StateLike.cond (σ := τ) (Goal.eval g (ObjMap.create objects) params s args) = .ok b

theorem applySimples_pair (hL : PairLits objects L R fire fire') (sign : Bool) (params args : List Obj) :
    ∀ (l : List (Name × List Term)) (p : σ) (s : τ), (∀ pred ts, (pred, ts) ∈ l → L sign pred ts params args) → R p s →
    Pair R (applySimples (ObjMap.create objects) fire sign params args l p)
      (applySimples (ObjMap.create objects) fire' sign params args l s)
  | [], _, _, _, h => Pair.ok id h
  | (pred, ts) :: l, p, s, hl, h =>
    (hL sign pred ts params args p s (hl pred ts (by simp)) h).seq fun p s h =>
      applySimples_pair hL sign params args l p s (fun a b hm => hl a b (by simp [hm])) h

mutual
theorem Eff.apply_pair (hL : PairLits objects L R fire fire') (hC : PairConds objects C R) :
    ∀ (e : Eff) (params args : List Obj) (p : σ) (s : τ), e.Each objects L C params args → R p s →
    Pair R (e.apply (ObjMap.create objects) fire params args p) (e.apply (ObjMap.create objects) fire' params args s)
  | .mk fs adds dels cs, params, args, p, s, he, h => by
    simp only [Eff.Each] at he
    simp only [Eff.apply]
    refine (FList.apply_pair hL hC fs params args p s he.1 h).map fun _ p _ s k1 h => ?_
    refine (applySimples_pair hL true params args adds p s he.2.1 h).map fun _ p _ s k2 h => ?_
    refine (applySimples_pair hL false params args dels p s he.2.2.1 h).map fun _ p _ s k3 h => ?_
    exact (CList.apply_pair hL hC cs params args p s he.2.2.2 h).map fun _ p _ s k4 h => Pair.ok (by omega) h
theorem FList.apply_pair (hL : PairLits objects L R fire fire') (hC : PairConds objects C R) :
    ∀ (e : FList) (params args : List Obj) (p : σ) (s : τ), e.Each objects L C params args → R p s →
    Pair R (e.apply (ObjMap.create objects) fire params args p) (e.apply (ObjMap.create objects) fire' params args s)
  | .nil, params, args, p, s, _, h => by simp only [FList.apply]; exact Pair.ok id h
  | .cons vars e rest, params, args, p, s, he, h => by
    simp only [FList.Each] at he
    obtain ⟨l, hl, hmem⟩ := gen_create objects vars he.1
    simp only [FList.apply, hl, Res.bind_ok]
    exact Pair.seq (Pair.loopEff (fun os hos p s h =>
      Eff.apply_pair hL hC e _ _ p s (he.2.1 os ((hmem os).1 hos)) h) h)
      (fun p s h => FList.apply_pair hL hC rest params args p s he.2.2 h)
theorem CList.apply_pair (hL : PairLits objects L R fire fire') (hC : PairConds objects C R) :
    ∀ (e : CList) (params args : List Obj) (p : σ) (s : τ), e.Each objects L C params args → R p s →
    Pair R (e.apply (ObjMap.create objects) fire params args p) (e.apply (ObjMap.create objects) fire' params args s)
  | .nil, params, args, p, s, _, h => by simp only [CList.apply]; exact Pair.ok id h
  | .cons g e rest, params, args, p, s, he, h => by
    simp only [CList.Each] at he
    obtain ⟨b, h1, h2⟩ := hC g params args p s he.1 h
    simp only [CList.apply, h1, h2, Res.bind_ok]
    refine Pair.seq ?_ (fun p s h => CList.apply_pair hL hC rest params args p s he.2.2 h)
    cases b
    · simp only [Bool.false_eq_true, if_false]; exact Pair.ok id h
    · simp only [if_true]; exact Eff.apply_pair hL hC e params args p s he.2.1 h
end

omit [StateLike σ] [StateLike τ] in
/-- Matching an axiom does not depend on the state. -/
theorem fireLoop_pair {run : Ax → List Obj → σ → Res (Nat × σ)} {run' : Ax → List Obj → τ → Res (Nat × τ)} {sign : Bool}
    {pred : Name} {params args : List Obj} {ts : List Term} (hlen : params.length = args.length)
    (hn : (params.map Obj.name).Nodup) (hs : ∀ t ∈ ts, t.Scoped (params.map Obj.name)) :
    ∀ (axs : List Ax) (p : σ) (s : τ), (∀ ax ∈ axs, ax.pos = sign → ax.pred = pred → ax.op.Linear ∧
      ax.ctxArgs = ax.op.ctx.map Term.obj ∧ ax.op.ctx.length = ts.length) →
    (∀ ax ∈ axs, ax.pos = sign → ax.pred = pred → ∀ as, ax.op.Triggered as (ts.map (Term.value params args)) →
      ∀ p s, R p s → Pair R (run ax as p) (run' ax as s)) → R p s →
    PairS R (fireLoop run sign pred params (ts.map Term.obj) args axs p)
      (fireLoop run' sign pred params (ts.map Term.obj) args axs s)
  | [], p, s, _, _, h => .inr (.inr (.inr ⟨p, s, rfl, rfl, h⟩))
  | ax :: axs, p, s, hw, hr, h => by
    have ih := fun p s => fireLoop_pair hlen hn hs axs p s (fun a ha => hw a (by simp [ha]))
      (fun a ha => hr a (by simp [ha]))
    simp only [fireLoop]
    by_cases hm : ax.pos = sign ∧ ax.pred = pred
    · obtain ⟨hlin, hctx, hcl⟩ := hw ax (by simp) hm.1 hm.2
      obtain ⟨r, hr1, hr2⟩ := axMatch_apply hlen hn hs hlin hcl.symm
      rw [Res.bind_eq_ok] at hr1
      obtain ⟨mt, hmt, hr1⟩ := hr1
      simp only [hm, and_self, if_true, hctx, hmt, Res.bind_ok]
      cases mt with
      | none => exact ih p s h
      | some mt =>
        simp only at hr1
        simp only [hr1, Res.bind_ok]
        cases r with
        | none => exact ih p s h
        | some as =>
          simp only
          exact (hr ax (by simp) hm.1 hm.2 as ((hr2 as).1 rfl) p s h).bind (Q := PairS R) (fun _ => .inl rfl)
            (fun _ => .inr (.inl rfl)) (fun e => .inr (.inr (.inl ⟨e, rfl, rfl⟩))) (fun _ p _ s _ h => ih p s h)
    · simp only [hm, if_false]
      exact ih p s h

end

/-! ## Effects without conditions on one state -/

section
variable {σ : Type} {I : σ → Prop}

/-- Out of budget, or the invariant is kept. -/
def Single (I : σ → Prop) (r : Res (Nat × σ)) : Prop := r = .fuel ∨ ∃ n p, r = .ok (n, p) ∧ I p

theorem Single.ok {n : Nat} {p : σ} (h : I p) : Single I (.ok (n, p)) := .inr ⟨n, p, rfl, h⟩

theorem Single.map {a : Res (Nat × σ)} {f : Nat × σ → Res (Nat × σ)} (h : Single I a)
    (hf : ∀ n p, I p → Single I (f (n, p))) : Single I (a >>= f) := by
  rcases h with rfl | ⟨n, p, rfl, h⟩
  · exact .inl rfl
  · exact hf n p h

theorem Single.seq {a : Res (Nat × σ)} {f : σ → Res (Nat × σ)} (h : Single I a) (hf : ∀ p, I p → Single I (f p)) :
    Single I (do let r ← a; let r' ← f r.2; pure (max r.1 r'.1, r'.2)) :=
  h.map fun _ p hr => (hf p hr).map fun _ _ hr' => Single.ok hr'

theorem Single.loopEff {f : List Obj → σ → Res (Nat × σ)} :
    ∀ {l : List (List Obj)} {p : σ}, (∀ os ∈ l, ∀ p, I p → Single I (f os p)) → I p → Single I (loopEff f l p)
  | [], _, _, h => Single.ok h
  | os :: l, p, hf, h => (hf os (by simp) p h).seq fun _ h' => Single.loopEff (fun x hx => hf x (by simp [hx])) h'

variable [StateLike σ] {objects : List Obj} {L : Bool → Name → List Term → List Obj → List Obj → Prop}
  {C : Goal → List Obj → List Obj → Prop} {fire : Fire σ}

def SingleLits (objects : List Obj) (L : Bool → Name → List Term → List Obj → List Obj → Prop) (I : σ → Prop)
    (fire : Fire σ) : Prop :=
  ∀ sign pred ts params args p, L sign pred ts params args → I p →
    Single I (applySimple (ObjMap.create objects) fire sign pred ts params args p)

theorem applySimples_single (hL : SingleLits objects L I fire) (sign : Bool) (params args : List Obj) :
    ∀ (l : List (Name × List Term)) (p : σ), (∀ pred ts, (pred, ts) ∈ l → L sign pred ts params args) → I p →
    Single I (applySimples (ObjMap.create objects) fire sign params args l p)
  | [], _, _, h => Single.ok h
  | (pred, ts) :: l, p, hl, h =>
    (hL sign pred ts params args p (hl pred ts (by simp)) h).seq fun p h =>
      applySimples_single hL sign params args l p (fun a b hm => hl a b (by simp [hm])) h

mutual
theorem Eff.apply_single (hL : SingleLits objects L I fire) :
    ∀ (e : Eff) (params args : List Obj) (p : σ), e.NoCond → e.Each objects L C params args → I p →
    Single I (e.apply (ObjMap.create objects) fire params args p)
  | .mk fs adds dels cs, params, args, p, hn, he, h => by
    simp only [Eff.Each] at he
    simp only [Eff.NoCond] at hn
    obtain ⟨hn, rfl⟩ := hn
    simp only [Eff.apply]
    refine (FList.apply_single hL fs params args p hn he.1 h).map fun _ p h => ?_
    refine (applySimples_single hL true params args adds p he.2.1 h).map fun _ p h => ?_
    refine (applySimples_single hL false params args dels p he.2.2.1 h).map fun _ p h => ?_
    simp only [CList.apply, Res.bind_ok]
    exact Single.ok h
theorem FList.apply_single (hL : SingleLits objects L I fire) :
    ∀ (e : FList) (params args : List Obj) (p : σ), e.NoCond → e.Each objects L C params args → I p →
    Single I (e.apply (ObjMap.create objects) fire params args p)
  | .nil, params, args, p, _, _, h => by simp only [FList.apply]; exact Single.ok h
  | .cons vars e rest, params, args, p, hn, he, h => by
    simp only [FList.Each] at he
    simp only [FList.NoCond] at hn
    obtain ⟨l, hl, hmem⟩ := gen_create objects vars he.1
    simp only [FList.apply, hl, Res.bind_ok]
    exact Single.seq (Single.loopEff (fun os hos p h =>
      Eff.apply_single hL e _ _ p hn.1 (he.2.1 os ((hmem os).1 hos)) h) h)
      (fun p h => FList.apply_single hL rest params args p hn.2 he.2.2 h)
end

end

/-! ## What is known and what is so -/

section
variable [StrHash]

/-- `s` is compatible with what `p` knows; what `p` does not know is as in `s₀`; `p` knows what `p₀` knew, perhaps otherwise;
only what `A` allows has changed since `s₀`. -/
structure Twin (p₀ : PartialState) (A : Bool → Name → Prop) (s₀ : State) (p : PartialState) (s : State) : Prop where
  compat : Toward s p
  kept : ∀ x, x ∈ p₀.pos ∨ x ∈ p₀.neg → x ∈ p.pos ∨ x ∈ p.neg
  same : ∀ x, x ∉ p.pos → x ∉ p.neg → (x ∈ s ↔ x ∈ s₀)
  within : ChangesWithin (fun sign x => A sign x.pred) (· ∈ s₀) (· ∈ s)

/-- One operation on a partial state. -/
def stepP (sign : Bool) (x : Atom) (p : PartialState) : Nat × PartialState := if sign then p.insert x else p.erase x

theorem stepP_mem (sign : Bool) (x y : Atom) (p : PartialState) :
    (y ∈ (stepP sign x p).2.pos ↔ if y = x then sign = true else y ∈ p.pos) ∧
    (y ∈ (stepP sign x p).2.neg ↔ if y = x then sign = false else y ∈ p.neg) := by
  cases sign
  · show (y ∈ (p.pos.erase x).2 ↔ _) ∧ (y ∈ (p.neg.insert x).2 ↔ _)
    rw [State.mem_erase, State.mem_insert]
    by_cases h : y = x <;> simp [h]
  · show (y ∈ (p.pos.insert x).2 ↔ _) ∧ (y ∈ (p.neg.erase x).2 ↔ _)
    rw [State.mem_erase, State.mem_insert]
    by_cases h : y = x <;> simp [h]

/-- Nothing is reported only if the fact was known. -/
theorem stepP_zero {sign : Bool} {x : Atom} {p : PartialState} (h : (stepP sign x p).1 = 0) :
    (stepP sign x p).2 = p ∧ (if sign then x ∈ p.pos else x ∈ p.neg) := by
  cases sign
  · have h' : (p.pos.erase x).1.toNat + (p.neg.insert x).1.toNat = 0 := h
    rw [State.erase_flag, State.insert_flag] at h'
    have h1 : x ∉ p.pos := by
      intro hx; simp [hx] at h'
    have h2 : x ∈ p.neg := by
      by_contra hx; simp [hx] at h'
    refine ⟨?_, by simpa using h2⟩
    show (⟨(p.pos.erase x).2, (p.neg.insert x).2⟩ : PartialState) = p
    rw [State.erase_of_not_mem h1, State.insert_of_mem h2]
  · have h' : (p.neg.erase x).1.toNat + (p.pos.insert x).1.toNat = 0 := h
    rw [State.erase_flag, State.insert_flag] at h'
    have h1 : x ∉ p.neg := by
      intro hx; simp [hx] at h'
    have h2 : x ∈ p.pos := by
      by_contra hx; simp [hx] at h'
    refine ⟨?_, by simpa using h2⟩
    show (⟨(p.pos.insert x).2, (p.neg.erase x).2⟩ : PartialState) = p
    rw [State.erase_of_not_mem h1, State.insert_of_mem h2]

variable {objects : List Obj} {M : Name → Nat → Prop} {A : Bool → Name → Prop} {s₀ : State} {p₀ p : PartialState} {s : State}

theorem kept_step {sign : Bool} {x : Atom} (h : ∀ x, x ∈ p₀.pos ∨ x ∈ p₀.neg → x ∈ p.pos ∨ x ∈ p.neg) :
    ∀ y, y ∈ p₀.pos ∨ y ∈ p₀.neg → y ∈ (stepP sign x p).2.pos ∨ y ∈ (stepP sign x p).2.neg := by
  intro y hy
  obtain ⟨h1, h2⟩ := stepP_mem sign x y p
  simp only [h1, h2]
  split
  · cases sign <;> simp
  · exact h y hy

/-- The same operation on both. -/
theorem Twin.step (h : Twin p₀ A s₀ p s) {sign : Bool} {x : Atom} (ha : A sign x.pred) :
    Twin p₀ A s₀ (stepP sign x p).2 (stepOp sign x s).2 where
  compat := by
    constructor
    · intro y hy
      have hy := (stepP_mem sign x y p).1.1 hy
      rw [mem_stepOp]
      split at hy
      · rename_i e; simpa [e] using hy
      · rename_i e; simpa [e] using h.compat.1 y hy
    · intro y hy
      have hy := (stepP_mem sign x y p).2.1 hy
      show y ∉ (stepOp sign x s).2
      rw [mem_stepOp]
      split at hy
      · rename_i e; simp [e, hy]
      · rename_i e; simpa [e] using h.compat.2 y hy
  kept := kept_step h.kept
  same y h1 h2 := by
    rw [(stepP_mem sign x y p).1] at h1
    rw [(stepP_mem sign x y p).2] at h2
    rw [mem_stepOp]
    by_cases e : y = x
    · cases sign <;> simp [e] at h1 h2
    · simp only [e, if_false] at h1 h2 ⊢
      exact h.same y h1 h2
  within := h.within.trans (stepOp_within (A := fun sign x => A sign x.pred) ha s)

/-- The operation on the partial state only, if it agrees with the state. -/
theorem Twin.learn (h : Twin p₀ A s₀ p s) {sign : Bool} {x : Atom} (hx : x ∈ s ↔ sign = true) :
    Twin p₀ A s₀ (stepP sign x p).2 s where
  compat := by
    constructor
    · intro y hy
      have hy := (stepP_mem sign x y p).1.1 hy
      split at hy
      · rename_i e; rw [e]; exact hx.2 hy
      · exact h.compat.1 y hy
    · intro y hy
      have hy := (stepP_mem sign x y p).2.1 hy
      split at hy
      · rename_i e; rw [e]; intro hs; rw [hx.1 hs] at hy; simp at hy
      · exact h.compat.2 y hy
  kept := kept_step h.kept
  same y h1 h2 := by
    rw [(stepP_mem sign x y p).1] at h1
    rw [(stepP_mem sign x y p).2] at h2
    by_cases e : y = x
    · cases sign <;> simp [e] at h1 h2
    · simp only [e, if_false] at h1 h2
      exact h.same y h1 h2
  within := h.within

/-- What `p` knows, `s` agrees with. -/
theorem Twin.agree (h : Twin p₀ A s₀ p s) {sign : Bool} {x : Atom} (hx : if sign then x ∈ p.pos else x ∈ p.neg) :
    x ∈ s ↔ sign = true := by
  cases sign
  · simpa using h.compat.2 x (by simpa using hx)
  · simpa using h.compat.1 x (by simpa using hx)

/-- If the operation changes what is known but not the state, it was unknown and is as in `s₀`. -/
theorem Twin.fresh (h : Twin p₀ A s₀ p s) {sign : Bool} {x : Atom} (h1 : (stepP sign x p).1 ≠ 0)
    (h2 : x ∈ s ↔ sign = true) : x ∈ s₀ ↔ sign = true := by
  rw [← h2]
  refine (h.same x ?_ ?_).symm
  · intro hp
    have hs : sign = true := h2.1 (h.compat.1 x hp)
    subst hs
    apply h1
    show (p.neg.erase x).1.toNat + (p.pos.insert x).1.toNat = 0
    rw [State.erase_flag, State.insert_flag]
    simp [hp, show x ∉ p.neg from fun hn => h.compat.2 x hn (h2.2 rfl)]
  · intro hn
    have hx := h.compat.2 x hn
    cases sign
    · apply h1
      show (p.pos.erase x).1.toNat + (p.neg.insert x).1.toNat = 0
      rw [State.erase_flag, State.insert_flag]
      simp [hn, show x ∉ p.pos from fun hp => hx (h.compat.1 x hp)]
    · exact hx (h2.2 rfl)

/-- A condition about known atoms. -/
def AskCond (objects : List Obj) (M : Name → Nat → Prop) (g : Goal) (params args : List Obj) : Prop :=
  params.length = args.length ∧ (∀ o ∈ args, o ∈ objects) ∧ g.WF objects (params.map Obj.name) ∧
    (∀ c, g.HasConst c → c ∈ objects) ∧ ∀ pred n, g.Mentions pred n → M pred n

theorem pairConds (hM : Knows objects (· ∈ p₀.pos) (· ∈ p₀.neg) M) : PairConds objects (AskCond objects M) (Twin p₀ A s₀) := by
  rintro g params args p s ⟨hlen, hargs, hwf, hconst, hm'⟩ h
  obtain ⟨b, hb, -⟩ := eval_sat objects s g params args hlen hwf
  refine ⟨b, ?_, by rw [hb]; rfl⟩
  have e := eval_agree (s := p) (t := s) (U := (· ∈ objects)) (M := g.Mentions) (objects := objects) (by
    intro pred os hm hU
    have hk := h.kept _ (hM pred os (hm' _ _ hm) hU)
    have h1 := h.compat.1 ⟨pred, os.map Obj.name⟩
    have h2 := h.compat.2 ⟨pred, os.map Obj.name⟩
    constructor
    · show (if p.pos.contains _ then Res.ok true else if p.neg.contains _ then Res.ok false
        else Res.exc .unknownEvaluation) = Res.ok (s.contains _)
      simp only [State.contains_eq, decide_eq_true_eq, Atom.ofObjs]
      by_cases hp : (⟨pred, os.map Obj.name⟩ : Atom) ∈ p.pos
      · simp [hp, h1 hp]
      · have hn := hk.resolve_left hp
        simp [hp, hn, h2 hn]
    · show (if p.pos.contains _ then Res.ok false else if p.neg.contains _ then Res.ok true
        else Res.exc .unknownEvaluation) = Res.ok (!s.contains _)
      simp only [State.contains_eq, decide_eq_true_eq, Atom.ofObjs]
      by_cases hp : (⟨pred, os.map Obj.name⟩ : Atom) ∈ p.pos
      · simp [hp, h1 hp]
      · have hn := hk.resolve_left hp
        simp [hp, hn, h2 hn]) (fun _ h => h) g params args hlen hargs hwf hconst (fun _ _ h => h)
  rw [e, hb]
  rfl

/-- A literal about `=` or a type does the same on both; one about a plain atom reduces to the operations. -/
theorem applySimple_pair {fire : Fire PartialState} {fire' : Fire State} {sign : Bool} {pred : Name} {ts : List Term}
    {params args : List Obj} (hlen : params.length = args.length)
    (hwf : Goal.WF objects (params.map Obj.name) (.atom pred ts)) (ha : A sign pred) (h : Twin p₀ A s₀ p s)
    (hboth : pred ≠ n!"=" → ¬ IsType objects pred →
      ∀ p s, Twin p₀ A s₀ p s → PairS (Twin p₀ A s₀)
        (fire sign pred params (ts.map Term.obj) args p) (fire' sign pred params (ts.map Term.obj) args s))
    (hone : pred ≠ n!"=" → ¬ IsType objects pred →
      (Atom.ofObjs pred (ts.map (Term.value params args)) ∈ s₀ ↔ sign = true) →
      ∀ p s, Twin p₀ A s₀ p s → ∃ r, (r = .fuel ∨ ∃ q, r = .ok q ∧ Twin p₀ A s₀ q s) ∧
        fire sign pred params (ts.map Term.obj) args p = r) :
    Pair (Twin p₀ A s₀) (applySimple (ObjMap.create objects) fire sign pred ts params args p)
      (applySimple (ObjMap.create objects) fire' sign pred ts params args s) := by
  obtain ⟨b, h1, -⟩ := evalAtom_sat objects s params args pred ts hlen hwf
  simp only [evalAtom, applyFn_terms params args ts (Nat.le_of_eq hlen), Res.bind_ok] at h1
  simp only [applySimple, applyFn_terms params args ts (Nat.le_of_eq hlen), Res.bind_ok]
  cases hk : atomKind (ObjMap.create objects) pred <;> simp only [hk] at h1 ⊢
  · simp only [Res.bind_eq_ok, Res.pure_eq, Res.ok.injEq] at h1
    obtain ⟨o1, ho1, o2, ho2, h3⟩ := h1
    simp only [ho1, ho2, Res.bind_ok]
    split
    · exact Pair.ok id h
    · exact .inr (.inr (.inl ⟨_, rfl, rfl⟩))
  · simp only [Res.bind_eq_ok, Res.pure_eq, Res.ok.injEq] at h1
    obtain ⟨o1, ho1, h3⟩ := h1
    simp only [ho1, Res.bind_ok]
    split
    · exact Pair.ok id h
    · exact .inr (.inr (.inl ⟨_, rfl, rfl⟩))
  · obtain ⟨ne, nt⟩ := (atomKind_create objects pred).2.2.1 hk
    generalize hx : Atom.ofObjs pred (ts.map (Term.value params args)) = x at hone
    have ha' : A sign x.pred := by rw [← hx]; exact ha
    have eP : (if sign = true then StateLike.insert p x else StateLike.erase p x) = stepP sign x p := rfl
    have eS : (if sign = true then StateLike.insert s x else StateLike.erase s x) = stepOp sign x s := rfl
    rw [eP, eS]
    by_cases h0 : (stepP sign x p).1 = 0
    · obtain ⟨e1, e2⟩ := stepP_zero h0
      have e3 : (stepOp sign x s).1 = 0 := stepOp_code.2 (h.agree e2)
      simp only [h0, e3, if_true, Res.pure_eq]
      refine .inr (.inr (.inr ⟨(stepP sign x p).1, p, (stepOp sign x s).1, s, ?_, ?_, fun _ => e3, h⟩))
      · exact congrArg Res.ok (Prod.ext rfl e1)
      · exact congrArg Res.ok (Prod.ext rfl (stepOp_zero e3))
    · by_cases h0' : (stepOp sign x s).1 = 0
      · have hs := stepOp_code.1 h0'
        simp only [h0, h0', if_true, if_false, Res.pure_eq]
        obtain ⟨r, hr, e⟩ := hone ne nt (h.fresh h0 hs) _ _ (h.learn hs)
        rw [e]
        rcases hr with rfl | ⟨q, rfl, hq⟩
        · exact .inl rfl
        · refine .inr (.inr (.inr ⟨(stepP sign x p).1, q, (stepOp sign x s).1, s, rfl, ?_, fun _ => h0', hq⟩))
          exact congrArg Res.ok (Prod.ext rfl (stepOp_zero h0'))
      · simp only [h0, h0', if_false]
        rcases hboth ne nt _ _ (h.step ha') with e | e | ⟨e, e1, e2⟩ | ⟨q, u, e1, e2, hq⟩
        · rw [e]; exact .inl rfl
        · rw [e]; exact .inr (.inl rfl)
        · rw [e1, e2]; exact .inr (.inr (.inl ⟨e, rfl, rfl⟩))
        · rw [e1, e2]; exact Pair.ok (fun h => absurd h h0) hq

/-! ## No axiom is triggered -/

theorem fireLoop_none {σ : Type} {run : Ax → List Obj → σ → Res (Nat × σ)} {sign : Bool} {pred : Name}
    {params effParams args : List Obj} : ∀ (axs : List Ax) (s : σ), (∀ ax ∈ axs, ¬ (ax.pos = sign ∧ ax.pred = pred)) →
    fireLoop run sign pred params effParams args axs s = .ok s
  | [], _, _ => rfl
  | ax :: axs, s, h => by
    simp only [fireLoop, h ax (by simp), if_false]
    exact fireLoop_none axs s (fun a ha => h a (by simp [ha]))

theorem fireN_none {σ : Type} [StateLike σ] {m : ObjMap} {axs : List Ax} {sign : Bool} {pred : Name}
    (h : ∀ ax ∈ axs, ¬ (ax.pos = sign ∧ ax.pred = pred)) (n : Nat) (params effParams args : List Obj) (s : σ) :
    fireN m axs n sign pred params effParams args s = .ok s := by
  cases n <;> exact fireLoop_none axs s h

/-- A literal that triggers nothing. -/
def PlainLit (objects : List Obj) (axs : List Ax) (A : Bool → Name → Prop) (sign : Bool) (pred : Name) (ts : List Term)
    (params args : List Obj) : Prop :=
  params.length = args.length ∧ Goal.WF objects (params.map Obj.name) (.atom pred ts) ∧ A sign pred ∧
    ∀ ax ∈ axs, ¬ (ax.pos = sign ∧ ax.pred = pred)

theorem pairLits_none (m : ObjMap) (axs : List Ax) (n : Nat) :
    PairLits objects (PlainLit objects axs A) (Twin p₀ A s₀) (fireN m axs n) (fireN m axs n) := by
  rintro sign pred ts params args p s ⟨hlen, hwf, ha, hno⟩ h
  refine applySimple_pair hlen hwf ha h (fun _ _ p s h => ?_) (fun _ _ _ p s h => ?_)
  · exact .inr (.inr (.inr ⟨p, s, fireN_none hno _ _ _ _ _, fireN_none hno _ _ _ _ _, h⟩))
  · exact ⟨.ok p, .inr ⟨p, rfl, h⟩, fireN_none hno _ _ _ _ _⟩

omit [StrHash] in
mutual
theorem Eff.each_plain {axs : List Ax} : ∀ (e : Eff) (params args : List Obj), params.length = args.length →
    (∀ o ∈ args, o ∈ objects) → e.Formed objects (params.map Obj.name) → e.CondsClosed objects →
    (∀ pred n, e.Asks pred n → M pred n) → (∀ sign pred, e.Touches sign pred → A sign pred) →
    (∀ ax ∈ axs, ¬ e.Touches ax.pos ax.pred) → e.Each objects (PlainLit objects axs A) (AskCond objects M) params args
  | .mk fs adds dels cs, params, args, hlen, hargs, hf, hc, hm, hA, hx => by
    simp only [Eff.Formed] at hf
    simp only [Eff.CondsClosed] at hc
    simp only [Eff.Asks] at hm
    simp only [Eff.Touches] at hA hx
    simp only [Eff.Each]
    refine ⟨FList.each_plain fs params args hlen hargs hf.1 hc.1 (fun a b h => hm a b (.inl h)) (fun a b h => hA a b (.inl h))
        (fun ax h h' => hx ax h (.inl h')), fun pred ts h => ?_, fun pred ts h => ?_,
      CList.each_plain cs params args hlen hargs hf.2.2.2 hc.2 (fun a b h => hm a b (.inr h))
        (fun a b h => hA a b (.inr (.inr (.inr h)))) (fun ax h h' => hx ax h (.inr (.inr (.inr h'))))⟩
    · refine ⟨hlen, hf.2.1 _ _ h, hA _ _ (.inr (.inl ⟨rfl, ts, h⟩)), ?_⟩
      rintro ax ha ⟨e1, e2⟩
      exact hx ax ha (.inr (.inl ⟨e1, ts, by rw [e2]; exact h⟩))
    · refine ⟨hlen, hf.2.2.1 _ _ h, hA _ _ (.inr (.inr (.inl ⟨rfl, ts, h⟩))), ?_⟩
      rintro ax ha ⟨e1, e2⟩
      exact hx ax ha (.inr (.inr (.inl ⟨e1, ts, by rw [e2]; exact h⟩)))
theorem FList.each_plain {axs : List Ax} : ∀ (e : FList) (params args : List Obj), params.length = args.length →
    (∀ o ∈ args, o ∈ objects) → e.Formed objects (params.map Obj.name) → e.CondsClosed objects →
    (∀ pred n, e.Asks pred n → M pred n) → (∀ sign pred, e.Touches sign pred → A sign pred) →
    (∀ ax ∈ axs, ¬ e.Touches ax.pos ax.pred) → e.Each objects (PlainLit objects axs A) (AskCond objects M) params args
  | .nil, _, _, _, _, _, _, _, _, _ => trivial
  | .cons vars e rest, params, args, hlen, hargs, hf, hc, hm, hA, hx => by
    simp only [FList.Formed] at hf
    simp only [FList.CondsClosed] at hc
    simp only [FList.Asks] at hm
    simp only [FList.Touches] at hA hx
    simp only [FList.Each]
    refine ⟨hf.1, fun os hw => ?_, FList.each_plain rest params args hlen hargs hf.2.2 hc.2 (fun a b h => hm a b (.inr h))
      (fun a b h => hA a b (.inr h)) (fun ax h h' => hx ax h (.inr h'))⟩
    refine Eff.each_plain e _ _ (by simp [hlen, hw.length]) ?_ (by simpa using hf.2.1) hc.1 (fun a b h => hm a b (.inl h))
      (fun a b h => hA a b (.inl h)) (fun ax h h' => hx ax h (.inl h'))
    intro o ho
    rcases List.mem_append.1 ho with ho | ho
    · exact hargs o ho
    · exact (WellTyped.mem hw ho).1
theorem CList.each_plain {axs : List Ax} : ∀ (e : CList) (params args : List Obj), params.length = args.length →
    (∀ o ∈ args, o ∈ objects) → e.Formed objects (params.map Obj.name) → e.CondsClosed objects →
    (∀ pred n, e.Asks pred n → M pred n) → (∀ sign pred, e.Touches sign pred → A sign pred) →
    (∀ ax ∈ axs, ¬ e.Touches ax.pos ax.pred) → e.Each objects (PlainLit objects axs A) (AskCond objects M) params args
  | .nil, _, _, _, _, _, _, _, _, _ => trivial
  | .cons g e rest, params, args, hlen, hargs, hf, hc, hm, hA, hx => by
    simp only [CList.Formed] at hf
    simp only [CList.CondsClosed] at hc
    simp only [CList.Asks] at hm
    simp only [CList.Touches] at hA hx
    simp only [CList.Each]
    exact ⟨⟨hlen, hargs, hf.1, hc.1, fun a b h => hm a b (.inl h)⟩,
      Eff.each_plain e params args hlen hargs hf.2.1 hc.2.1 (fun a b h => hm a b (.inr (.inl h)))
        (fun a b h => hA a b (.inl h)) (fun ax h h' => hx ax h (.inl h')),
      CList.each_plain rest params args hlen hargs hf.2.2 hc.2.2 (fun a b h => hm a b (.inr (.inr h)))
        (fun a b h => hA a b (.inr h)) (fun ax h h' => hx ax h (.inr h'))⟩
end

/-! ## Axioms are triggered -/

section
variable {sig : Name → List Name}

/-- A literal of an action or axiom. -/
def TypedLit (objects : List Obj) (sig : Name → List Name) (A : Bool → Name → Prop) (sign : Bool) (pred : Name)
    (ts : List Term) (params args : List Obj) : Prop :=
  params.length = args.length ∧ (params.map Obj.name).Nodup ∧ Goal.WF objects (params.map Obj.name) (.atom pred ts) ∧
    (pred ≠ n!"=" → ¬ IsType objects pred → ∀ os, List.Forall₂ (Denotes (Env.none.bind params args)) ts os →
      Respects objects (sig pred) os) ∧ A sign pred

/-- A literal that agrees with `s₀` and is never written with the other sign. -/
def SoloLit (objects : List Obj) (sig : Name → List Name) (A : Bool → Name → Prop) (s₀ : State) (sign : Bool) (pred : Name)
    (ts : List Term) (params args : List Obj) : Prop :=
  TypedLit objects sig A sign pred ts params args ∧ ¬ A (!sign) pred ∧
    (SatAtom objects (· ∈ s₀) (Env.none.bind params args) pred ts ↔ sign = true)

/-- The axiom holds in `s₀`, and if it may be triggered then only for good. -/
structure OneWayAx (objects : List Obj) (sig : Name → List Name) (A : Bool → Name → Prop) (s₀ : State) (ax : Ax) : Prop where
  guided : Guided objects sig s₀ ax
  closed : A ax.pos ax.pred → ax.op.eff.NoCond ∧ ∀ sign p, ax.op.eff.Touches sign p → A sign p ∧ ¬ A (!sign) p

/-- What is asked of firing on a partial state for a fact that is so in `s₀`. -/
def FireSolo (objects : List Obj) (sig : Name → List Name) (p₀ : PartialState) (A : Bool → Name → Prop) (s₀ : State)
    (fire : Fire PartialState) : Prop :=
  ∀ sign pred (ts : List Term) params args p s, params.length = args.length → (params.map Obj.name).Nodup →
    (∀ t ∈ ts, t.Scoped (params.map Obj.name)) → pred ≠ n!"=" → ¬ IsType objects pred →
    Respects objects (sig pred) (ts.map (Term.value params args)) → A sign pred →
    (Atom.ofObjs pred (ts.map (Term.value params args)) ∈ s₀ ↔ sign = true) → Twin p₀ A s₀ p s →
    fire sign pred params (ts.map Term.obj) args p = .fuel ∨
      ∃ q, fire sign pred params (ts.map Term.obj) args p = .ok q ∧ Twin p₀ A s₀ q s

/-- The same for firing on both. -/
def FirePair (objects : List Obj) (sig : Name → List Name) (p₀ : PartialState) (A : Bool → Name → Prop) (s₀ : State)
    (fire : Fire PartialState) (fire' : Fire State) : Prop :=
  ∀ sign pred (ts : List Term) params args p s, params.length = args.length → (params.map Obj.name).Nodup →
    (∀ t ∈ ts, t.Scoped (params.map Obj.name)) → pred ≠ n!"=" → ¬ IsType objects pred →
    Respects objects (sig pred) (ts.map (Term.value params args)) → A sign pred → Twin p₀ A s₀ p s →
    PairS (Twin p₀ A s₀) (fire sign pred params (ts.map Term.obj) args p)
      (fire' sign pred params (ts.map Term.obj) args s)

theorem singleLits {fire : Fire PartialState} (hf : FireSolo objects sig p₀ A s₀ fire) (s : State) :
    SingleLits objects (SoloLit objects sig A s₀) (fun p => Twin p₀ A s₀ p s) fire := by
  rintro sign pred ts params args p ⟨⟨hlen, hnd, hwf, hty, ha⟩, hna, hT⟩ h
  obtain ⟨b, h1, h2⟩ := evalAtom_sat objects s₀ params args pred ts hlen hwf
  rw [← h2] at hT
  have hb : b = sign := by cases b <;> cases sign <;> simp_all
  subst hb
  simp only [evalAtom, applyFn_terms params args ts (Nat.le_of_eq hlen), Res.bind_ok] at h1
  simp only [applySimple, applyFn_terms params args ts (Nat.le_of_eq hlen), Res.bind_ok]
  cases hk : atomKind (ObjMap.create objects) pred <;> simp only [hk] at h1 ⊢
  · simp only [Res.bind_eq_ok, Res.pure_eq, Res.ok.injEq] at h1
    obtain ⟨o1, ho1, o2, ho2, h3⟩ := h1
    simp only [ho1, ho2, Res.bind_ok, h3, if_true]
    exact Single.ok h
  · simp only [Res.bind_eq_ok, Res.pure_eq, Res.ok.injEq] at h1
    obtain ⟨o1, ho1, h3⟩ := h1
    simp only [ho1, Res.bind_ok, h3, if_true]
    exact Single.ok h
  · obtain ⟨ne, nt⟩ := (atomKind_create objects pred).2.2.1 hk
    have hr := hty ne nt _ ((forall₂_denotes hlen hwf.1 _).2 rfl)
    have hx : Atom.ofObjs pred (ts.map (Term.value params args)) ∈ s₀ ↔ b = true := by
      have : s₀.contains (Atom.ofObjs pred (ts.map (Term.value params args))) = b := by
        simpa [StateLike.contains] using h1
      rw [State.mem_def, this]
    have hs : Atom.ofObjs pred (ts.map (Term.value params args)) ∈ s ↔ b = true := by
      have hw := h.within (Atom.ofObjs pred (ts.map (Term.value params args)))
      by_cases h0 : Atom.ofObjs pred (ts.map (Term.value params args)) ∈ s₀
      · have hb := hx.1 h0
        subst hb
        simp only [iff_true]
        by_contra hc
        exact hna (hw.2 h0 hc)
      · have hb : b = false := by cases b <;> simp_all
        subst hb
        simp only [Bool.false_eq_true, iff_false]
        intro hc
        exact hna (hw.1 hc h0)
    have hf := fun p hp => hf b pred ts params args p s hlen hnd hwf.1 ne nt hr ha hx hp
    generalize Atom.ofObjs pred (ts.map (Term.value params args)) = x at hs
    have eP : (if b = true then StateLike.insert p x else StateLike.erase p x) = stepP b x p := rfl
    rw [eP]
    have hl := h.learn hs
    split
    · exact .inr ⟨(stepP b x p).1, (stepP b x p).2, rfl, hl⟩
    · rcases hf _ hl with e | ⟨q, e, hq⟩
      · exact .inl (by simp [e])
      · exact .inr ⟨(stepP b x p).1, q, by simp [e], hq⟩

theorem pairLits {fire : Fire PartialState} {fire' : Fire State} (hf : FireSolo objects sig p₀ A s₀ fire)
    (hf' : FirePair objects sig p₀ A s₀ fire fire') :
    PairLits objects (TypedLit objects sig A) (Twin p₀ A s₀) fire fire' := by
  rintro sign pred ts params args p s ⟨hlen, hnd, hwf, hty, ha⟩ h
  refine applySimple_pair hlen hwf ha h (fun ne nt p s h => ?_) (fun ne nt hx p s h => ⟨_, ?_, rfl⟩)
  · exact hf' sign pred ts params args p s hlen hnd hwf.1 ne nt (hty ne nt _ ((forall₂_denotes hlen hwf.1 _).2 rfl)) ha h
  · exact hf sign pred ts params args p s hlen hnd hwf.1 ne nt (hty ne nt _ ((forall₂_denotes hlen hwf.1 _).2 rfl)) ha hx h

omit [StrHash] in
mutual
theorem Eff.each_typed : ∀ (e : Eff) (params args : List Obj), params.length = args.length →
    (params.map Obj.name).Nodup → (∀ o ∈ args, o ∈ objects) → e.Formed objects (params.map Obj.name) →
    e.Fresh (params.map Obj.name) → e.Typed objects sig (Env.none.bind params args) → e.CondsClosed objects →
    (∀ pred n, e.Asks pred n → M pred n) → (∀ sign pred, e.Touches sign pred → A sign pred) →
    e.Each objects (TypedLit objects sig A) (AskCond objects M) params args
  | .mk fs adds dels cs, params, args, hlen, hnd, hargs, hf, hfr, ht, hc, hm, hA => by
    simp only [Eff.Formed] at hf
    simp only [Eff.Fresh] at hfr
    simp only [Eff.Typed] at ht
    simp only [Eff.CondsClosed] at hc
    simp only [Eff.Asks] at hm
    simp only [Eff.Touches] at hA
    simp only [Eff.Each]
    refine ⟨FList.each_typed fs params args hlen hnd hargs hf.1 hfr.1 ht.1 hc.1 (fun a b h => hm a b (.inl h))
        (fun a b h => hA a b (.inl h)), fun pred ts h => ?_, fun pred ts h => ?_,
      CList.each_typed cs params args hlen hnd hargs hf.2.2.2 hfr.2 ht.2.2.2 hc.2 (fun a b h => hm a b (.inr h))
        (fun a b h => hA a b (.inr (.inr (.inr h))))⟩
    · exact ⟨hlen, hnd, hf.2.1 _ _ h, ht.2.1 _ _ h, hA _ _ (.inr (.inl ⟨rfl, ts, h⟩))⟩
    · exact ⟨hlen, hnd, hf.2.2.1 _ _ h, ht.2.2.1 _ _ h, hA _ _ (.inr (.inr (.inl ⟨rfl, ts, h⟩)))⟩
theorem FList.each_typed : ∀ (e : FList) (params args : List Obj), params.length = args.length →
    (params.map Obj.name).Nodup → (∀ o ∈ args, o ∈ objects) → e.Formed objects (params.map Obj.name) →
    e.Fresh (params.map Obj.name) → e.Typed objects sig (Env.none.bind params args) → e.CondsClosed objects →
    (∀ pred n, e.Asks pred n → M pred n) → (∀ sign pred, e.Touches sign pred → A sign pred) →
    e.Each objects (TypedLit objects sig A) (AskCond objects M) params args
  | .nil, _, _, _, _, _, _, _, _, _, _, _ => trivial
  | .cons vars e rest, params, args, hlen, hnd, hargs, hf, hfr, ht, hc, hm, hA => by
    simp only [FList.Formed] at hf
    simp only [FList.Fresh] at hfr
    simp only [FList.Typed] at ht
    simp only [FList.CondsClosed] at hc
    simp only [FList.Asks] at hm
    simp only [FList.Touches] at hA
    simp only [FList.Each]
    refine ⟨hf.1, fun os hw => ?_, FList.each_typed rest params args hlen hnd hargs hf.2.2 hfr.2.2 ht.2 hc.2
      (fun a b h => hm a b (.inr h)) (fun a b h => hA a b (.inr h))⟩
    refine Eff.each_typed e _ _ (by simp [hlen, hw.length]) (by simpa using hfr.1) ?_ (by simpa using hf.2.1)
      (by simpa using hfr.2.1) ?_ hc.1 (fun a b h => hm a b (.inl h)) (fun a b h => hA a b (.inl h))
    · intro o ho
      rcases List.mem_append.1 ho with ho | ho
      · exact hargs o ho
      · exact (WellTyped.mem hw ho).1
    · rw [Env.bind_append _ _ _ _ _ hlen]; exact ht.1 os hw
theorem CList.each_typed : ∀ (e : CList) (params args : List Obj), params.length = args.length →
    (params.map Obj.name).Nodup → (∀ o ∈ args, o ∈ objects) → e.Formed objects (params.map Obj.name) →
    e.Fresh (params.map Obj.name) → e.Typed objects sig (Env.none.bind params args) → e.CondsClosed objects →
    (∀ pred n, e.Asks pred n → M pred n) → (∀ sign pred, e.Touches sign pred → A sign pred) →
    e.Each objects (TypedLit objects sig A) (AskCond objects M) params args
  | .nil, _, _, _, _, _, _, _, _, _, _, _ => trivial
  | .cons g e rest, params, args, hlen, hnd, hargs, hf, hfr, ht, hc, hm, hA => by
    simp only [CList.Formed] at hf
    simp only [CList.Fresh] at hfr
    simp only [CList.Typed] at ht
    simp only [CList.CondsClosed] at hc
    simp only [CList.Asks] at hm
    simp only [CList.Touches] at hA
    simp only [CList.Each]
    exact ⟨⟨hlen, hargs, hf.1, hc.1, fun a b h => hm a b (.inl h)⟩,
      Eff.each_typed e params args hlen hnd hargs hf.2.1 hfr.1 ht.1 hc.2.1 (fun a b h => hm a b (.inr (.inl h)))
        (fun a b h => hA a b (.inl h)),
      CList.each_typed rest params args hlen hnd hargs hf.2.2 hfr.2 ht.2 hc.2.2 (fun a b h => hm a b (.inr (.inr h)))
        (fun a b h => hA a b (.inr h))⟩
end

mutual
theorem Eff.each_solo : ∀ (e : Eff) (params args : List Obj), params.length = args.length →
    (params.map Obj.name).Nodup → e.NoCond → e.Formed objects (params.map Obj.name) →
    e.Fresh (params.map Obj.name) → e.Typed objects sig (Env.none.bind params args) →
    e.Says objects (· ∈ s₀) (Env.none.bind params args) →
    (∀ sign pred, e.Touches sign pred → A sign pred ∧ ¬ A (!sign) pred) →
    e.Each objects (SoloLit objects sig A s₀) (fun _ _ _ => True) params args
  | .mk fs adds dels cs, params, args, hlen, hnd, hn, hf, hfr, ht, hs, hA => by
    simp only [Eff.NoCond] at hn
    obtain ⟨hn, rfl⟩ := hn
    simp only [Eff.Formed] at hf
    simp only [Eff.Fresh] at hfr
    simp only [Eff.Typed] at ht
    simp only [Eff.Says] at hs
    simp only [Eff.Touches] at hA
    simp only [Eff.Each]
    refine ⟨FList.each_solo fs params args hlen hnd hn hf.1 hfr.1 ht.1 hs.1
        (fun a b h => hA a b (.inl h)), fun pred ts h => ?_, fun pred ts h => ?_, trivial⟩
    · have hA := hA true pred (.inr (.inl ⟨rfl, ts, h⟩))
      exact ⟨⟨hlen, hnd, hf.2.1 _ _ h, ht.2.1 _ _ h, hA.1⟩, hA.2, by simpa using hs.2.1 _ _ h⟩
    · have hA := hA false pred (.inr (.inr (.inl ⟨rfl, ts, h⟩)))
      exact ⟨⟨hlen, hnd, hf.2.2.1 _ _ h, ht.2.2.1 _ _ h, hA.1⟩, hA.2, by simpa using hs.2.2.1 _ _ h⟩
theorem FList.each_solo : ∀ (e : FList) (params args : List Obj), params.length = args.length →
    (params.map Obj.name).Nodup → e.NoCond → e.Formed objects (params.map Obj.name) →
    e.Fresh (params.map Obj.name) → e.Typed objects sig (Env.none.bind params args) →
    e.Says objects (· ∈ s₀) (Env.none.bind params args) →
    (∀ sign pred, e.Touches sign pred → A sign pred ∧ ¬ A (!sign) pred) →
    e.Each objects (SoloLit objects sig A s₀) (fun _ _ _ => True) params args
  | .nil, _, _, _, _, _, _, _, _, _, _ => trivial
  | .cons vars e rest, params, args, hlen, hnd, hn, hf, hfr, ht, hs, hA => by
    simp only [FList.NoCond] at hn
    simp only [FList.Formed] at hf
    simp only [FList.Fresh] at hfr
    simp only [FList.Typed] at ht
    simp only [FList.Says] at hs
    simp only [FList.Touches] at hA
    simp only [FList.Each]
    refine ⟨hf.1, fun os hw => ?_, FList.each_solo rest params args hlen hnd hn.2 hf.2.2 hfr.2.2 ht.2 hs.2
      (fun a b h => hA a b (.inr h))⟩
    refine Eff.each_solo e _ _ (by simp [hlen, hw.length]) (by simpa using hfr.1) hn.1 (by simpa using hf.2.1)
      (by simpa using hfr.2.1) ?_ ?_ (fun a b h => hA a b (.inl h))
    · rw [Env.bind_append _ _ _ _ _ hlen]; exact ht.1 os hw
    · rw [Env.bind_append _ _ _ _ _ hlen]; exact hs.1 os hw
end

omit [StrHash] in
mutual
theorem Eff.NoCond.asks : ∀ {e : Eff}, e.NoCond → e.CondsClosed objects ∧ ∀ pred n, ¬ e.Asks pred n
  | .mk fs adds dels cs, h => by
    simp only [Eff.NoCond] at h
    obtain ⟨h, rfl⟩ := h
    have := FList.NoCond.asks h
    simp only [Eff.CondsClosed, Eff.Asks, CList.CondsClosed, CList.Asks, or_false, and_true]
    exact this
theorem FList.NoCond.asks : ∀ {e : FList}, e.NoCond → e.CondsClosed objects ∧ ∀ pred n, ¬ e.Asks pred n
  | .nil, _ => by simp [FList.CondsClosed, FList.Asks]
  | .cons vars e rest, h => by
    simp only [FList.NoCond] at h
    have h1 := Eff.NoCond.asks h.1
    have h2 := FList.NoCond.asks h.2
    simp only [FList.CondsClosed, FList.Asks]
    exact ⟨⟨h1.1, h2.1⟩, fun p n => not_or.2 ⟨h1.2 p n, h2.2 p n⟩⟩
end

theorem fireLoop_solo {axs : List Ax} (hax : ∀ ax ∈ axs, OneWayAx objects sig A s₀ ax)
    {run : Ax → List Obj → PartialState → Res (Nat × PartialState)}
    (hrun : ∀ ax ∈ axs, A ax.pos ax.pred → ∀ as, WellTyped objects ax.op.params as →
      Sat objects (· ∈ s₀) (Env.none.bind ax.op.params as) ax.op.pre → ∀ p s, Twin p₀ A s₀ p s →
      Single (fun p => Twin p₀ A s₀ p s) (run ax as p)) :
    FireSolo objects sig p₀ A s₀ (fun sign pred ps es as p => fireLoop run sign pred ps es as axs p) := by
  intro sign pred ts params args p s hlen hnd hs hne hnt hr ha hx hp
  have hl : ts.length = (sig pred).length := by simpa using (List.Forall₂.length_eq hr).symm
  obtain ⟨insts, -, h2, h3⟩ := fireLoop_spec (run := run) (sign := sign) (pred := pred) hlen hnd hs axs (by
    rintro ax hm - rfl
    have hg := (hax ax hm).guided
    obtain ⟨e1, e2, -⟩ := contextOf_ok hg.ctx
    exact ⟨hg.sorted.linear, e2, by rw [hg.sorted.arity, e1, hl]⟩)
  dsimp only
  rw [h2]
  have key : ∀ ax as, (ax, as) ∈ insts → ∀ p s, Twin p₀ A s₀ p s →
      Single (fun p => Twin p₀ A s₀ p s) (run ax as p) := by
    intro ax as hm p s hp
    obtain ⟨h4, h5, h6, h7⟩ := (h3 ax as).1 hm
    have hg := (hax ax h4).guided
    obtain ⟨e1, -, -⟩ := contextOf_ok hg.ctx
    refine hrun ax h4 (by rw [h5, h6]; exact ha) as ?_ ?_ p s hp
    · exact hg.sorted.wide as _ (by rw [e1, h6]; exact hr) h7
    · exact triggered_sat hg.ctx (by rw [h6]; exact hne) (by rw [h6]; exact hnt) h7 (by rw [h6, h5]; exact hx)
  clear h2 h3
  induction insts generalizing p with
  | nil => exact .inr ⟨p, rfl, hp⟩
  | cons i insts ih =>
    obtain ⟨ax, as⟩ := i
    rw [runInsts]
    rcases key ax as (by simp) p s hp with h | ⟨n, q, h, hq⟩
    · exact .inl (by simp [h])
    · simp only [h, Res.bind_ok]
      exact ih q hq (fun a b hm => key a b (by simp [hm]))

theorem fireN_solo {axs : List Ax} (hax : ∀ ax ∈ axs, OneWayAx objects sig A s₀ ax) :
    ∀ n, FireSolo objects sig p₀ A s₀ (fireN (ObjMap.create objects) axs n)
  | 0 => fireLoop_solo hax (fun _ _ _ _ _ _ _ _ _ => .inl rfl)
  | n + 1 => fireLoop_solo hax (fun ax hm ha as hw hs p s hp => by
      have hg := (hax ax hm).guided
      obtain ⟨hnc, hA⟩ := (hax ax hm).closed ha
      exact Eff.apply_single (singleLits (fireN_solo hax n) s) _ _ _ p hnc
        (Eff.each_solo _ _ _ hw.length hg.sorted.linear.nodup hnc hg.sorted.formed.eff hg.sorted.fresh (hg.sorted.eff as hw)
          (hg.holds as hw hs) hA) hp)

theorem fireLoop_both {axs : List Ax} (hax : ∀ ax ∈ axs, OneWayAx objects sig A s₀ ax)
    {run : Ax → List Obj → PartialState → Res (Nat × PartialState)} {run' : Ax → List Obj → State → Res (Nat × State)}
    (hrun : ∀ ax ∈ axs, A ax.pos ax.pred → ∀ as, WellTyped objects ax.op.params as → ∀ p s, Twin p₀ A s₀ p s →
      Pair (Twin p₀ A s₀) (run ax as p) (run' ax as s)) :
    FirePair objects sig p₀ A s₀ (fun sign pred ps es as p => fireLoop run sign pred ps es as axs p)
      (fun sign pred ps es as p => fireLoop run' sign pred ps es as axs p) := by
  intro sign pred ts params args p s hlen hnd hs hne hnt hr ha hp
  have hl : ts.length = (sig pred).length := by simpa using (List.Forall₂.length_eq hr).symm
  refine fireLoop_pair hlen hnd hs axs p s ?_ ?_ hp
  · rintro ax hm - rfl
    have hg := (hax ax hm).guided
    obtain ⟨e1, e2, -⟩ := contextOf_ok hg.ctx
    exact ⟨hg.sorted.linear, e2, by rw [hg.sorted.arity, e1, hl]⟩
  · rintro ax hm rfl rfl as ht p s hp
    have hg := (hax ax hm).guided
    obtain ⟨e1, -, -⟩ := contextOf_ok hg.ctx
    exact hrun ax hm ha as (hg.sorted.wide as _ (by rw [e1]; exact hr) ht) p s hp

theorem fireN_both (hM : Knows objects (· ∈ p₀.pos) (· ∈ p₀.neg) M) {axs : List Ax} (hax : ∀ ax ∈ axs, OneWayAx objects sig A s₀ ax) :
    ∀ n, FirePair objects sig p₀ A s₀ (fireN (ObjMap.create objects) axs n) (fireN (ObjMap.create objects) axs n)
  | 0 => fireLoop_both hax (fun _ _ _ _ _ _ _ _ => .inl rfl)
  | n + 1 => fireLoop_both hax (fun ax hm ha as hw p s hp => by
      have hg := (hax ax hm).guided
      obtain ⟨hnc, hA⟩ := (hax ax hm).closed ha
      have hq := hnc.asks (objects := objects)
      exact Eff.apply_pair (pairLits (fireN_solo hax n) (fireN_both hM hax n)) (pairConds hM) _ _ _ p s
        (Eff.each_typed _ _ _ hw.length hg.sorted.linear.nodup (fun o ho => (WellTyped.mem hw ho).1) hg.sorted.formed.eff
          hg.sorted.fresh (hg.sorted.eff as hw) hq.1 (fun a b h => absurd h (hq.2 a b)) (fun a b h => (hA a b h).1)) hp)

end

end

end Symbolic
