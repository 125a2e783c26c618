import Verif.Lemmas.EffectRel
import Verif.Lemmas.IterRel
import Verif.Lemmas.Frame
import Verif.Spec.Relevant

/-!
# Lemmas: what does not matter does not matter
-/

namespace Symbolic

/-- `Rel s t`: `s` and `t` cannot be told apart by looking at predicates of `R`. -/
structure LookRel {σ : Type} [StateLike σ] (R : Name → Prop) (Rel : σ → σ → Prop) : Prop where
  refl : ∀ s, Rel s s
  symm : ∀ {s t}, Rel s t → Rel t s
  trans : ∀ {s t u}, Rel s t → Rel t u → Rel s u
  contains : ∀ {s t x}, Rel s t → R x.pred → StateLike.contains s x = StateLike.contains t x
  lacks : ∀ {s t x}, Rel s t → R x.pred → StateLike.lacks s x = StateLike.lacks t x
  insert : ∀ {s t x}, Rel s t → R x.pred → (StateLike.insert s x).1 = (StateLike.insert t x).1 ∧
    Rel (StateLike.insert s x).2 (StateLike.insert t x).2
  erase : ∀ {s t x}, Rel s t → R x.pred → (StateLike.erase s x).1 = (StateLike.erase t x).1 ∧
    Rel (StateLike.erase s x).2 (StateLike.erase t x).2
  insertOut : ∀ {s x}, ¬ R x.pred → Rel s (StateLike.insert s x).2
  eraseOut : ∀ {s x}, ¬ R x.pred → Rel s (StateLike.erase s x).2

section
variable {σ : Type} [StateLike σ] {R : Name → Prop} {Rel : σ → σ → Prop}

theorem LookRel.step (L : LookRel R Rel) : StepRel (fun _ p => ¬ R p) (fun _ => Rel) Rel where
  refl := L.refl
  comp := L.trans
  insert _ _ h := L.insertOut h
  erase _ _ h := L.eraseOut h
  fire := L.trans
  toR h := h
  reflR := L.refl
  transR := L.trans

/-! ## Formulas -/

mutual
theorem LookRel.eval (L : LookRel R Rel) {s t : σ} (h : Rel s t) (m : ObjMap) : ∀ (g : Goal) (params args : List Obj),
    (∀ p n, g.Mentions p n → R p) → g.eval m params s args = g.eval m params t args
  | .atom pred ts, params, args, hg => by
    have hp : R pred := hg pred _ ⟨rfl, rfl⟩
    have hc : ∀ os, StateLike.contains s (Atom.ofObjs pred os) = StateLike.contains t (Atom.ofObjs pred os) :=
      fun os => L.contains h hp
    simp only [Goal.eval, evalAtom, hc]
  | .conj gs, params, args, hg => by
    simp only [Goal.eval]
    exact LookRel.evalAll L h m gs params args (by simpa only [Goal.Mentions] using hg)
  | .disj gs, params, args, hg => by
    simp only [Goal.eval]
    exact LookRel.evalAny L h m gs params args (by simpa only [Goal.Mentions] using hg)
  | .neg g, params, args, hg => by
    have hg : ∀ p n, g.Mentions p n → R p := by simpa only [Goal.Mentions] using hg
    simp only [Goal.eval, LookRel.eval L h m g params args hg]
    cases g with
    | atom pred ts =>
      have hc : ∀ os, StateLike.lacks s (Atom.ofObjs pred os) = StateLike.lacks t (Atom.ofObjs pred os) :=
        fun os => L.lacks h (hg pred _ ⟨rfl, rfl⟩)
      simp only [evalNeg, hc]
    | _ => rfl
  | .all vars g, params, args, hg => by
    have hg : ∀ p n, g.Mentions p n → R p := by simpa only [Goal.Mentions] using hg
    simp only [Goal.eval, fun os => LookRel.eval L h m g (params ++ vars) (args ++ os) hg]
  | .ex vars g, params, args, hg => by
    have hg : ∀ p n, g.Mentions p n → R p := by simpa only [Goal.Mentions] using hg
    simp only [Goal.eval, fun os => LookRel.eval L h m g (params ++ vars) (args ++ os) hg]
  | .other, params, args, hg => by simp only [Goal.eval]
theorem LookRel.evalAll (L : LookRel R Rel) {s t : σ} (h : Rel s t) (m : ObjMap) : ∀ (gs : List Goal) (params args : List Obj),
    (∀ p n, Goal.MentionsL gs p n → R p) → Goal.evalAll gs m params s args = Goal.evalAll gs m params t args
  | [], params, args, hg => by simp only [Goal.evalAll]
  | g :: gs, params, args, hg => by
    simp only [Goal.MentionsL] at hg
    simp only [Goal.evalAll, LookRel.eval L h m g params args (fun p n h => hg p n (.inl h)),
      LookRel.evalAll L h m gs params args (fun p n h => hg p n (.inr h))]
theorem LookRel.evalAny (L : LookRel R Rel) {s t : σ} (h : Rel s t) (m : ObjMap) : ∀ (gs : List Goal) (params args : List Obj),
    (∀ p n, Goal.MentionsL gs p n → R p) → Goal.evalAny gs m params s args = Goal.evalAny gs m params t args
  | [], params, args, hg => by simp only [Goal.evalAny]
  | g :: gs, params, args, hg => by
    simp only [Goal.MentionsL] at hg
    simp only [Goal.evalAny, LookRel.eval L h m g params args (fun p n h => hg p n (.inl h)),
      LookRel.evalAny L h m gs params args (fun p n h => hg p n (.inr h))]
end

/-! ## Effects -/

/-- Fired axioms keep the relation, and those fired by predicates that do not matter change nothing that matters. -/
structure FireTwo (R : Name → Prop) (Rel : σ → σ → Prop) (fire fire' : Fire σ) : Prop where
  out : FireRel (fun _ p => ¬ R p) Rel fire
  out' : FireRel (fun _ p => ¬ R p) Rel fire'
  both : ∀ sign pred ps es as s t s' t', R pred → Rel s t → fire sign pred ps es as s = .ok s' →
    fire' sign pred ps es as t = .ok t' → Rel s' t'

variable {m : ObjMap} {fire fire' : Fire σ}

theorem LookRel.apart (L : LookRel R Rel) {s t s' t' : σ} (h : Rel s t) (h1 : Rel s s') (h2 : Rel t t') : Rel s' t' :=
  L.trans (L.symm h1) (L.trans h h2)

theorem applySimple_two (L : LookRel R Rel) (F : FireTwo R Rel fire fire') {sign : Bool} {pred : Name} {ts : List Term}
    {params args : List Obj} {s t : σ} {r r' : Nat × σ} (h : Rel s t) (e : applySimple m fire sign pred ts params args s = .ok r)
    (e' : applySimple m fire' sign pred ts params args t = .ok r') : Rel r.2 r'.2 := by
  by_cases hp : R pred
  · simp only [applySimple, Res.bind_eq_ok] at e e'
    obtain ⟨os, h0, e⟩ := e
    obtain ⟨os', h0', e'⟩ := e'
    rw [h0, Res.ok.injEq] at h0'
    subst h0'
    cases hk : atomKind m pred <;> simp only [hk, Res.bind_eq_ok] at e e'
    · obtain ⟨a, -, b, -, e⟩ := e
      obtain ⟨a', -, b', -, e'⟩ := e'
      split at e <;> split at e' <;> simp only [Res.pure_eq, Res.ok.injEq, reduceCtorEq] at e e'
      subst e; subst e'; exact h
    · obtain ⟨a, -, e⟩ := e
      obtain ⟨a', -, e'⟩ := e'
      split at e <;> split at e' <;> simp only [Res.pure_eq, Res.ok.injEq, reduceCtorEq] at e e'
      subst e; subst e'; exact h
    · have key : ∀ {q q' : Nat × σ}, q.1 = q'.1 ∧ Rel q.2 q'.2 →
          (if q.1 = 0 then pure q else (do
            let s' ← fire sign pred params (ts.map Term.obj) args q.2
            pure (q.1, s')) : Res (Nat × σ)) = .ok r →
          (if q'.1 = 0 then pure q' else (do
            let s' ← fire' sign pred params (ts.map Term.obj) args q'.2
            pure (q'.1, s')) : Res (Nat × σ)) = .ok r' →
          Rel r.2 r'.2 := by
        rintro q q' ⟨h1, h2⟩ ea eb
        rw [← h1] at eb
        split at ea
        · rename_i h3
          rw [if_pos h3] at eb
          simp only [Res.pure_eq, Res.ok.injEq] at ea eb
          rw [← ea, ← eb]; exact h2
        · rename_i h3
          rw [if_neg h3] at eb
          simp only [Res.bind_eq_ok, Res.pure_eq, Res.ok.injEq] at ea eb
          obtain ⟨s', ea, e1⟩ := ea
          obtain ⟨t', eb, e2⟩ := eb
          rw [← e1, ← e2]
          exact F.both _ _ _ _ _ _ _ _ _ hp h2 ea eb
      cases sign
      · exact key (L.erase h hp) e e'
      · exact key (L.insert h hp) e e'
  · exact L.apart h (applySimple_rel L.step F.out hp e) (applySimple_rel L.step F.out' hp e')

theorem applySimples_two (L : LookRel R Rel) (F : FireTwo R Rel fire fire') {sign : Bool} {params args : List Obj} :
    ∀ {l : List (Name × List Term)} {s t : σ} {r r' : Nat × σ}, Rel s t → applySimples m fire sign params args l s = .ok r →
    applySimples m fire' sign params args l t = .ok r' → Rel r.2 r'.2
  | [], s, t, r, r', h, e, e' => by
    simp only [applySimples, Res.ok.injEq] at e e'
    subst e; subst e'; exact h
  | (pred, ts) :: l, s, t, r, r', h, e, e' => by
    simp only [applySimples, Res.bind_eq_ok, Res.pure_eq, Res.ok.injEq] at e e'
    obtain ⟨q, e1, p, e2, rfl⟩ := e
    obtain ⟨q', e1', p', e2', rfl⟩ := e'
    exact applySimples_two L F (r := p) (r' := p') (applySimple_two L F h e1 e1') e2 e2'

omit [StateLike σ] in
theorem loopEff_two {f g : List Obj → σ → Res (Nat × σ)}
    (hf : ∀ os s t r r', Rel s t → f os s = .ok r → g os t = .ok r' → Rel r.2 r'.2) :
    ∀ {l : List (List Obj)} {s t : σ} {r r' : Nat × σ}, Rel s t → loopEff f l s = .ok r → loopEff g l t = .ok r' → Rel r.2 r'.2
  | [], s, t, r, r', h, e, e' => by
    simp only [loopEff, Res.ok.injEq] at e e'
    subst e; subst e'; exact h
  | os :: l, s, t, r, r', h, e, e' => by
    simp only [loopEff, Res.bind_eq_ok, Res.pure_eq, Res.ok.injEq] at e e'
    obtain ⟨q, e1, p, e2, rfl⟩ := e
    obtain ⟨q', e1', p', e2', rfl⟩ := e'
    exact loopEff_two hf (r := p) (r' := p') (hf _ _ _ _ _ h e1 e1') e2 e2'

mutual
theorem Eff.apply_two (L : LookRel R Rel) (F : FireTwo R Rel fire fire') : ∀ (e : Eff) (params args : List Obj) (s t : σ)
    (r r' : Nat × σ), e.Relevant R → Rel s t → e.apply m fire params args s = .ok r → e.apply m fire' params args t = .ok r' →
    Rel r.2 r'.2
  | .mk fs adds dels cs, params, args, s, t, r, r', hr, h, e, e' => by
    simp only [Eff.Relevant] at hr
    simp only [Eff.apply, Res.bind_eq_ok, Res.pure_eq, Res.ok.injEq] at e e'
    obtain ⟨r1, h1, r2, h2, r3, h3, r4, h4, rfl⟩ := e
    obtain ⟨r1', h1', r2', h2', r3', h3', r4', h4', rfl⟩ := e'
    exact CList.apply_two L F cs _ _ _ _ r4 r4' hr.2 (applySimples_two L F (applySimples_two L F
      (FList.apply_two L F fs _ _ _ _ _ _ hr.1 h h1 h1') h2 h2') h3 h3') h4 h4'
theorem FList.apply_two (L : LookRel R Rel) (F : FireTwo R Rel fire fire') : ∀ (e : FList) (params args : List Obj) (s t : σ)
    (r r' : Nat × σ), e.Relevant R → Rel s t → e.apply m fire params args s = .ok r → e.apply m fire' params args t = .ok r' →
    Rel r.2 r'.2
  | .nil, params, args, s, t, r, r', hr, h, e, e' => by
    simp only [FList.apply, Res.ok.injEq] at e e'
    subst e; subst e'; exact h
  | .cons vars x rest, params, args, s, t, r, r', hr, h, e, e' => by
    simp only [FList.Relevant] at hr
    simp only [FList.apply, Res.bind_eq_ok, Res.pure_eq, Res.ok.injEq] at e e'
    obtain ⟨l, h0, r1, h1, r2, h2, rfl⟩ := e
    obtain ⟨l', h0', r1', h1', r2', h2', rfl⟩ := e'
    rw [h0, Res.ok.injEq] at h0'
    subst h0'
    exact FList.apply_two L F rest _ _ _ _ r2 r2' hr.2
      (loopEff_two (fun os s t r r' h e e' => Eff.apply_two L F x (params ++ vars) (args ++ os) s t r r' hr.1 h e e') h h1 h1') h2 h2'
theorem CList.apply_two (L : LookRel R Rel) (F : FireTwo R Rel fire fire') : ∀ (e : CList) (params args : List Obj) (s t : σ)
    (r r' : Nat × σ), e.Relevant R → Rel s t → e.apply m fire params args s = .ok r → e.apply m fire' params args t = .ok r' →
    Rel r.2 r'.2
  | .nil, params, args, s, t, r, r', hr, h, e, e' => by
    simp only [CList.apply, Res.ok.injEq] at e e'
    subst e; subst e'; exact h
  | .cons g x rest, params, args, s, t, r, r', hr, h, e, e' => by
    simp only [CList.Relevant] at hr
    simp only [CList.apply, Res.bind_eq_ok, Res.pure_eq, Res.ok.injEq] at e e'
    obtain ⟨b, h0, r1, h1, r2, h2, rfl⟩ := e
    obtain ⟨b', h0', r1', h1', r2', h2', rfl⟩ := e'
    refine CList.apply_two L F rest _ _ _ _ r2 r2' hr.2.2 ?_ h2 h2'
    by_cases hx : x.TouchesIn R
    · rw [LookRel.eval L h m g params args (hr.1 hx), h0', Res.ok.injEq] at h0
      subst h0
      cases b'
      · simp only [Bool.false_eq_true, if_false, Res.ok.injEq] at h1 h1'
        subst h1; subst h1'; exact h
      · exact Eff.apply_two L F x _ _ s t _ _ hr.2.1 h h1 h1'
    · have hn : ∀ sign p, x.Touches sign p → ¬ R p := fun sign p h1 h2 => hx ⟨sign, p, h1, h2⟩
      refine L.apart h ?_ ?_
      · cases b
        · simp only [Bool.false_eq_true, if_false, Res.ok.injEq] at h1
          subst h1; exact L.refl _
        · exact Eff.apply_rel L.step F.out x _ _ s _ hn h1
      · cases b'
        · simp only [Bool.false_eq_true, if_false, Res.ok.injEq] at h1'
          subst h1'; exact L.refl _
        · exact Eff.apply_rel L.step F.out' x _ _ t _ hn h1'
end

omit [StateLike σ] in
theorem fireLoop_two {run run' : Ax → List Obj → σ → Res (Nat × σ)} {sign : Bool} {pred : Name} {params effParams args : List Obj} :
    ∀ {axs : List Ax} {s t s' t' : σ}, (∀ ax ∈ axs, ∀ as s t r r', Rel s t → run ax as s = .ok r → run' ax as t = .ok r' →
      Rel r.2 r'.2) → Rel s t → fireLoop run sign pred params effParams args axs s = .ok s' →
    fireLoop run' sign pred params effParams args axs t = .ok t' → Rel s' t'
  | [], s, t, s', t', _, h, e, e' => by
    simp only [fireLoop, Res.ok.injEq] at e e'
    subst e; subst e'; exact h
  | ax :: rest, s, t, s', t', hr, h, e, e' => by
    have ih := fun s t => fireLoop_two (sign := sign) (pred := pred) (params := params) (effParams := effParams)
      (args := args) (s := s) (t := t) (s' := s') (t' := t') (axs := rest) (run := run) (run' := run') (fun a ha => hr a (by simp [ha]))
    simp only [fireLoop] at e e'
    split at e
    · rename_i hc
      rw [if_pos hc] at e'
      simp only [Res.bind_eq_ok] at e e'
      obtain ⟨mt, h0, e⟩ := e
      obtain ⟨mt', h0', e'⟩ := e'
      rw [h0, Res.ok.injEq] at h0'
      subst h0'
      cases mt with
      | none => exact ih s t h e e'
      | some mt =>
        simp only [Res.bind_eq_ok] at e e'
        obtain ⟨as, h1, e⟩ := e
        obtain ⟨as', h1', e'⟩ := e'
        rw [h1, Res.ok.injEq] at h1'
        subst h1'
        cases as with
        | none => exact ih s t h e e'
        | some as =>
          simp only [Res.bind_eq_ok] at e e'
          obtain ⟨r, h2, e⟩ := e
          obtain ⟨r', h2', e'⟩ := e'
          exact ih _ _ (hr ax (by simp) _ _ _ _ _ h h2 h2') e e'
    · rename_i hc
      rw [if_neg hc] at e'
      exact ih s t h e e'

theorem fireN_two (L : LookRel R Rel) {axs : List Ax} (hA : ∀ ax ∈ axs, ax.op.eff.Relevant R ∧ (ax.op.eff.TouchesIn R → R ax.pred)) :
    ∀ n n', FireTwo R Rel (fireN (σ := σ) m axs n) (fireN m axs n') := by
  have out : ∀ n, FireRel (fun _ p => ¬ R p) Rel (fireN (σ := σ) m axs n) :=
    fireN_rel L.step fun ax hax hp sign p ht hR => hp ((hA ax hax).2 ⟨sign, p, ht, hR⟩)
  intro n
  induction n with
  | zero =>
    refine fun n' => ⟨out _, out _, fun sign pred ps es as s t s' t' _ h e e' => ?_⟩
    simp only [fireN] at e
    cases n' with
    | zero => exact fireLoop_two (fun ax hax as s t r r' h e e' => by simp at e) h e e'
    | succ n' => exact fireLoop_two (fun ax hax as s t r r' h e e' => by simp at e) h e e'
  | succ n ih =>
    refine fun n' => ⟨out _, out _, fun sign pred ps es as s t s' t' _ h e e' => ?_⟩
    cases n' with
    | zero =>
      simp only [fireN] at e'
      exact fireLoop_two (fun ax hax as s t r r' h e e' => by simp at e') h e e'
    | succ n' =>
      simp only [fireN] at e e'
      exact fireLoop_two (fun ax hax as s t r r' h e e' => Eff.apply_two L (ih n') ax.op.eff ax.op.params as s t r r'
        (hA ax hax).1 h e e') h e e'

theorem Op.apply_two (L : LookRel R Rel) {axs : List Ax}
    (hA : ∀ ax ∈ axs, ax.op.eff.Relevant R ∧ (ax.op.eff.TouchesIn R → R ax.pred)) {op : Op} (ho : op.eff.Relevant R)
    {fuel fuel' : Nat} {args : List Obj} {s t : σ} {r r' : Nat × σ} (h : Rel s t) (e : op.apply m axs fuel args s = .ok r)
    (e' : op.apply m axs fuel' args t = .ok r') : Rel r.2 r'.2 :=
  Eff.apply_two L (fireN_two L hA fuel fuel') op.eff _ _ _ _ _ _ ho h e e'

end

/-! ## States and PartialStates -/

section
variable [StrHash] {R : Name → Prop}

theorem SameOn.contains {s t : State} (h : SameOn R (· ∈ s) (· ∈ t)) {x : Atom} (hx : R x.pred) : s.contains x = t.contains x := by
  rw [Bool.eq_iff_iff]
  exact h x hx

theorem SameOn.insert {s t : State} (h : SameOn R (· ∈ s) (· ∈ t)) {x : Atom} (hx : R x.pred) :
    (s.insert x).1 = (t.insert x).1 ∧ SameOn R (· ∈ (s.insert x).2) (· ∈ (t.insert x).2) := by
  have h1 : x ∈ s ↔ x ∈ t := h x hx
  refine ⟨by rw [State.insert_flag, State.insert_flag]; simp [h1], fun y hy => ?_⟩
  have h2 : y ∈ s ↔ y ∈ t := h y hy
  simp [h2]

theorem SameOn.erase {s t : State} (h : SameOn R (· ∈ s) (· ∈ t)) {x : Atom} (hx : R x.pred) :
    (s.erase x).1 = (t.erase x).1 ∧ SameOn R (· ∈ (s.erase x).2) (· ∈ (t.erase x).2) := by
  have h1 : x ∈ s ↔ x ∈ t := h x hx
  refine ⟨by rw [State.erase_flag, State.erase_flag]; simp [h1], fun y hy => ?_⟩
  have h2 : y ∈ s ↔ y ∈ t := h y hy
  simp [h2]

theorem SameOn.insertOut (s : State) {x : Atom} (hx : ¬ R x.pred) : SameOn R (· ∈ s) (· ∈ (s.insert x).2) := by
  intro y hy
  have : y ≠ x := by rintro rfl; exact hx hy
  simp [this]

theorem SameOn.eraseOut (s : State) {x : Atom} (hx : ¬ R x.pred) : SameOn R (· ∈ s) (· ∈ (s.erase x).2) := by
  intro y hy
  have : y ≠ x := by rintro rfl; exact hx hy
  simp [this]

omit [StrHash] in
theorem SameOn.refl (S : Atom → Prop) : SameOn R S S := fun _ _ => Iff.rfl
omit [StrHash] in
theorem SameOn.symm {S T : Atom → Prop} (h : SameOn R S T) : SameOn R T S := fun x hx => (h x hx).symm
omit [StrHash] in
theorem SameOn.trans {S T U : Atom → Prop} (h : SameOn R S T) (h' : SameOn R T U) : SameOn R S U :=
  fun x hx => (h x hx).trans (h' x hx)

theorem lookState (R : Name → Prop) : LookRel (σ := State) R (fun s t => SameOn R (· ∈ s) (· ∈ t)) where
  refl _ := .refl _
  symm := .symm
  trans := .trans
  contains h hx := congrArg Res.ok (h.contains hx)
  lacks h hx := congrArg (fun b => Res.ok (!b)) (h.contains hx)
  insert h hx := ⟨congrArg (fun b : Bool => if b then 1 else 0) (h.insert hx).1, (h.insert hx).2⟩
  erase h hx := ⟨congrArg (fun b : Bool => if b then 1 else 0) (h.erase hx).1, (h.erase hx).2⟩
  insertOut {s _} hx := SameOn.insertOut s hx
  eraseOut {s _} hx := SameOn.eraseOut s hx

theorem lookPartial (R : Name → Prop) :
    LookRel (σ := PartialState) R (fun s t => SameOn R (· ∈ s.pos) (· ∈ t.pos) ∧ SameOn R (· ∈ s.neg) (· ∈ t.neg)) where
  refl _ := ⟨.refl _, .refl _⟩
  symm h := ⟨h.1.symm, h.2.symm⟩
  trans h h' := ⟨h.1.trans h'.1, h.2.trans h'.2⟩
  contains h hx := by simp only [StateLike.contains, PartialState.contains, h.1.contains hx, h.2.contains hx]
  lacks h hx := by simp only [StateLike.lacks, PartialState.doesNotContain, h.1.contains hx, h.2.contains hx]
  insert h hx := ⟨by simp only [StateLike.insert, PartialState.insert, (h.1.insert hx).1, (h.2.erase hx).1],
    (h.1.insert hx).2, (h.2.erase hx).2⟩
  erase h hx := ⟨by simp only [StateLike.erase, PartialState.erase, (h.1.erase hx).1, (h.2.insert hx).1],
    (h.1.erase hx).2, (h.2.insert hx).2⟩
  insertOut {s _} hx := ⟨SameOn.insertOut s.pos hx, SameOn.eraseOut s.neg hx⟩
  eraseOut {s _} hx := ⟨SameOn.eraseOut s.pos hx, SameOn.insertOut s.neg hx⟩

/-! ## Derived predicates -/

theorem drvPass_same {m : ObjMap} {d : Drv} (hd : R d.head → ∀ p n, d.body.Mentions p n → R p) : ∀ (l : List (List Obj)),
    KeepsRel (fun s t => SameOn R (· ∈ s) (· ∈ t)) (drvPass m d l) (drvPass m d l)
  | [], s, t, r, r', h, e, e' => by
    simp only [drvPass, Res.ok.injEq] at e e'
    subst e; subst e'; exact h
  | as :: l, s, t, r, r', h, e, e' => by
    simp only [drvPass, Res.bind_eq_ok, Res.pure_eq, Res.ok.injEq] at e e'
    obtain ⟨b, h1, q, h2, rfl⟩ := e
    obtain ⟨b', h1', q', h2', rfl⟩ := e'
    refine drvPass_same hd l _ _ q q' ?_ h2 h2'
    by_cases hR : R d.head
    · rw [(lookState R).eval h m d.body _ _ (hd hR), h1', Res.ok.injEq] at h1
      subst h1
      cases b'
      · exact (h.erase hR).2
      · exact (h.insert hR).2
    · have out : ∀ (b : Bool) (s : State), SameOn R (· ∈ s)
          (· ∈ (if b then s.insert (Atom.ofObjs d.head as) else s.erase (Atom.ofObjs d.head as)).2) := by
        intro b s
        cases b
        · exact SameOn.eraseOut s hR
        · exact SameOn.insertOut s hR
      exact (out b s).symm.trans (h.trans (out b' t))

theorem drvsFix_same {m : ObjMap} {ds : List Drv} (hd : ∀ d ∈ ds, R d.head → ∀ p n, d.body.Mentions p n → R p)
    {fuel fuel' k k' : Nat} {s t : State} {r r' : Bool × State} (h : SameOn R (· ∈ s) (· ∈ t))
    (e : drvsFix m fuel ds k s = .ok r) (e' : drvsFix m fuel' ds k' t = .ok r') : SameOn R (· ∈ r.2) (· ∈ r'.2) :=
  drvsFix_keeps (Rel := fun s t => SameOn R (· ∈ s) (· ∈ t)) (fun d hm l _ => drvPass_same (hd d hm) l) h e e'

end

end Symbolic
