import Verif.Lemmas.Relevant

/-!
# Lemmas: what does not matter does not matter, with shared buffers

Buffers are owned by effects. Effects on predicates that matter read and write only buffers of such effects.
-/

namespace Symbolic

section
variable {R : Name → Prop}

/-- The buffers of effects on predicates of `R` hold the same. -/
def StoreSame (R : Name → Prop) (st st' : Store) : Prop := ∀ l : Loc, R l.pred → st l = st' l

theorem StoreSame.refl (st : Store) : StoreSame R st st := fun _ _ => rfl
theorem StoreSame.symm {st st' : Store} (h : StoreSame R st st') : StoreSame R st' st := fun l hl => (h l hl).symm
theorem StoreSame.trans {a b c : Store} (h : StoreSame R a b) (h' : StoreSame R b c) : StoreSame R a c :=
  fun l hl => (h l hl).trans (h' l hl)

theorem StoreSame.set {st st' : Store} (h : StoreSame R st st') (l : Loc) (v : List Obj) : StoreSame R (st.set l v) (st'.set l v) := by
  intro l' hl'
  simp only [Store.set]
  split
  · rfl
  · exact h l' hl'

theorem StoreSame.setOut (st : Store) {l : Loc} (hl : ¬ R l.pred) (v : List Obj) : StoreSame R st (st.set l v) := by
  intro l' hl'
  simp only [Store.set]
  split
  · rename_i e; exact absurd hl' (e ▸ hl)
  · rfl

/-- Not a buffer of an effect on a predicate that does not matter. -/
def GoodRef (R : Name → Prop) : Ref → Prop
  | .val _ => True
  | .buf l => R l.pred

theorem GoodRef.read {st st' : Store} (h : StoreSame R st st') : ∀ {r : Ref}, GoodRef R r → r.read st = r.read st'
  | .val _, _ => rfl
  | .buf l, hr => h l hr

/-- The computation leaves the buffers that matter as they are and returns values that satisfy `Q`. -/
def RunOut (R : Name → Prop) (Q : α → Prop) (x : BufM α) : Prop :=
  ∀ st a, (x st).1 = .ok a → Q a ∧ StoreSame R st (x st).2

/-- Both computations, started with the same buffers that matter, leave the same, and return values related by `Q`. -/
def RunTwo (R : Name → Prop) (Q : α → β → Prop) (x : BufM α) (y : BufM β) : Prop :=
  ∀ st st' a b, StoreSame R st st' → (x st).1 = .ok a → (y st').1 = .ok b → Q a b ∧ StoreSame R (x st).2 (y st').2

theorem BufM.bind_ok {x : BufM α} {f : α → BufM β} {st : Store} {b : β} (h : ((x >>= f) st).1 = .ok b) :
    ∃ a, (x st).1 = .ok a ∧ (f a (x st).2).1 = .ok b ∧ ((x >>= f) st).2 = (f a (x st).2).2 := by
  rw [BufM.bind_run] at h ⊢
  cases hx : x st with
  | mk r st' =>
    rw [hx] at h
    cases r with
    | ok a => exact ⟨a, rfl, h, rfl⟩
    | exc e => simp at h
    | ub => simp at h
    | fuel => simp at h

theorem RunOut.pure {a : α} {Q : α → Prop} (h : Q a) : RunOut R Q (Pure.pure a : BufM α) :=
  fun st b hb => by rw [BufM.pure_run] at hb ⊢; cases hb; exact ⟨h, .refl _⟩

theorem RunOut.bind {x : BufM α} {f : α → BufM β} {Q : α → Prop} {Q' : β → Prop} (h : RunOut R Q x)
    (hf : ∀ a, Q a → RunOut R Q' (f a)) : RunOut R Q' (x >>= f) := by
  intro st b hb
  obtain ⟨a, h1, h2, h3⟩ := BufM.bind_ok hb
  obtain ⟨h4, h5⟩ := h st a h1
  obtain ⟨h6, h7⟩ := hf a h4 _ b h2
  rw [h3]
  exact ⟨h6, h5.trans h7⟩

theorem RunOut.lift (r : Res α) : RunOut R (fun _ => True) (BufM.lift r) := fun _ _ _ => ⟨trivial, .refl _⟩
theorem RunOut.throw {Q : α → Prop} (e : Exc) : RunOut R Q (BufM.lift (.exc e)) := fun _ _ h => by simp [BufM.lift] at h
theorem RunOut.read (r : Ref) : RunOut R (fun _ => True) (BufM.read r) := fun _ _ _ => ⟨trivial, .refl _⟩

theorem RunTwo.pure {a : α} {b : β} {Q : α → β → Prop} (h : Q a b) : RunTwo R Q (Pure.pure a : BufM α) (Pure.pure b : BufM β) :=
  fun st st' a' b' hs ha hb => by
    rw [BufM.pure_run] at ha hb ⊢
    rw [BufM.pure_run]
    cases ha; cases hb
    exact ⟨h, hs⟩

theorem RunTwo.bind {α β γ δ : Type} {x : BufM α} {y : BufM β} {f : α → BufM γ} {g : β → BufM δ} {Q : α → β → Prop}
    {Q' : γ → δ → Prop} (h : RunTwo R Q x y) (hf : ∀ a b, Q a b → RunTwo R Q' (f a) (g b)) : RunTwo R Q' (x >>= f) (y >>= g) := by
  intro st st' c d hs hc hd
  obtain ⟨a, h1, h2, h3⟩ := BufM.bind_ok hc
  obtain ⟨b, h1', h2', h3'⟩ := BufM.bind_ok hd
  obtain ⟨h4, h5⟩ := h st st' a b hs h1 h1'
  rw [h3, h3']
  exact hf a b h4 _ _ c d h5 h2 h2'

theorem RunTwo.lift (r : Res α) : RunTwo R (· = ·) (BufM.lift r) (BufM.lift r) := fun st st' a b hs ha hb => by
  simp only [BufM.lift] at ha hb ⊢
  rw [ha, Res.ok.injEq] at hb
  exact ⟨hb, hs⟩

theorem RunTwo.throw {Q : α → β → Prop} (e : Exc) (y : BufM β) : RunTwo R Q (BufM.lift (.exc e)) y := fun _ _ _ _ _ h => by
  simp [BufM.lift] at h

theorem RunTwo.fuel {Q : α → β → Prop} (y : BufM β) : RunTwo R Q (BufM.lift .fuel) y := fun _ _ _ _ _ h => by simp [BufM.lift] at h
theorem RunTwo.fuel' {Q : α → β → Prop} (x : BufM α) : RunTwo R Q x (BufM.lift .fuel) := fun _ _ _ _ _ _ h => by simp [BufM.lift] at h

theorem RunTwo.read {r : Ref} (hr : GoodRef R r) : RunTwo R (· = ·) (BufM.read r) (BufM.read r) := fun st st' a b hs ha hb => by
  simp only [BufM.read, Res.ok.injEq] at ha hb ⊢
  exact ⟨by rw [← ha, ← hb]; exact hr.read hs, hs⟩

theorem RunOut.two {x : BufM α} {y : BufM β} {Q : α → Prop} {Q' : β → Prop} (hx : RunOut R Q x) (hy : RunOut R Q' y) :
    RunTwo R (fun a b => Q a ∧ Q' b) x y := fun st st' a b hs ha hb =>
  ⟨⟨(hx st a ha).1, (hy st' b hb).1⟩, (hx st a ha).2.symm.trans (hs.trans (hy st' b hb).2)⟩

theorem RunTwo.weaken {x : BufM α} {y : BufM β} {Q Q' : α → β → Prop} (h : RunTwo R Q x y) (hq : ∀ a b, Q a b → Q' a b) :
    RunTwo R Q' x y := fun st st' a b hs ha hb => ⟨hq a b (h st st' a b hs ha hb).1, (h st st' a b hs ha hb).2⟩

theorem assignLoop_out (r : Ref) {l : Loc} (hl : ¬ R l.pred) : ∀ idx, RunOut R (fun _ => True) (assignLoop r l idx)
  | [], st, a, _ => ⟨trivial, .refl _⟩
  | (i, j) :: idx, st, a, h => by
    rw [assignLoop] at h ⊢
    cases hx : Res.index (r.read st) j with
    | ok o =>
      simp only [hx] at h ⊢
      split at h
      · rename_i hi
        rw [if_pos hi]
        exact ⟨trivial, (StoreSame.setOut st hl _).trans (assignLoop_out r hl idx _ a h).2⟩
      · simp at h
    | exc e => simp [hx] at h
    | ub => simp [hx] at h
    | fuel => simp [hx] at h

theorem assignLoop_two {r : Ref} (hr : GoodRef R r) {l : Loc} (hl : R l.pred) : ∀ idx,
    RunTwo R (· = ·) (assignLoop r l idx) (assignLoop r l idx)
  | [], st, st', a, b, hs, _, _ => ⟨rfl, hs⟩
  | (i, j) :: idx, st, st', a, b, hs, h, h' => by
    rw [assignLoop] at h h' ⊢
    rw [assignLoop]
    rw [← hr.read hs, ← hs l hl] at h' ⊢
    cases hx : Res.index (r.read st) j with
    | ok o =>
      simp only [hx] at h h' ⊢
      split at h
      · rename_i hi
        rw [if_pos hi] at h' ⊢
        rw [if_pos hi]
        exact ⟨trivial, (assignLoop_two hr hl idx _ _ a b (hs.set _ _) h h').2⟩
      · simp at h
    | exc e => simp [hx] at h
    | ub => simp [hx] at h
    | fuel => simp [hx] at h

end

section
variable {σ : Type} [StateLike σ] {R : Name → Prop} {Rel : σ → σ → Prop}

/-! ## Effects that do not matter -/

def FireOutB (R : Name → Prop) (Rel : σ → σ → Prop) (fire : FireB σ) : Prop :=
  ∀ l r s, ¬ R l.pred → RunOut R (Rel s) (fire l r s)

theorem runSimple_out (L : LookRel R Rel) {m : ObjMap} {fire : FireB σ} (hf : FireOutB R Rel fire) {l : Loc} (hl : ¬ R l.pred)
    (r : Ref) (s : σ) : RunOut R (fun a => Rel s a.2) (runSimple m fire l r s) := by
  unfold runSimple
  refine (assignLoop_out r hl _).bind fun _ _ => (RunOut.read _).bind fun os _ => ?_
  cases atomKind m l.pred
  · refine (RunOut.lift _).bind fun a _ => (RunOut.lift _).bind fun b _ => ?_
    split
    · exact .pure (L.refl s)
    · exact .throw _
  · refine (RunOut.lift _).bind fun a _ => ?_
    split
    · exact .pure (L.refl s)
    · exact .throw _
  · dsimp only
    have hq : Rel s (if l.sign = true then StateLike.insert s (Atom.ofObjs l.pred os) else
        StateLike.erase s (Atom.ofObjs l.pred os)).2 := by
      split
      · exact L.insertOut hl
      · exact L.eraseOut hl
    generalize (if l.sign = true then StateLike.insert s (Atom.ofObjs l.pred os) else
        StateLike.erase s (Atom.ofObjs l.pred os)) = q at hq ⊢
    split
    · exact .pure hq
    · exact (hf l r _ hl).bind fun s' h => .pure (L.trans hq h)

theorem runSimples_out (L : LookRel R Rel) {m : ObjMap} {fire : FireB σ} (hf : FireOutB R Rel fire) {op : Nat}
    {path : List Nat} {sign : Bool} {params : List Obj} {r : Ref} : ∀ {l : List (Name × List Term)} {k : Nat} {s : σ},
    (∀ p, ListsPred l p → ¬ R p) → RunOut R (fun a => Rel s a.2) (runSimples m fire op path sign params r k l s)
  | [], k, s, _ => by rw [runSimples]; exact .pure (L.refl s)
  | (pred, ts) :: l, k, s, hA => by
    rw [runSimples]
    exact (runSimple_out L hf (hA pred ⟨ts, by simp⟩) r s).bind fun a ha =>
      (runSimples_out L hf (fun p ⟨ts', hm⟩ => hA p ⟨ts', by simp [hm]⟩)).bind fun b hb => .pure (L.trans ha hb)

theorem runLoop_out (L : LookRel R Rel) {f : List Obj → σ → BufM (Nat × σ)} (hf : ∀ os s, RunOut R (fun a => Rel s a.2) (f os s)) :
    ∀ (l : List (List Obj)) (s : σ), RunOut R (fun a => Rel s a.2) (runLoop f l s)
  | [], s => by rw [runLoop]; exact .pure (L.refl s)
  | os :: l, s => by
    rw [runLoop]
    exact (hf os s).bind fun a ha => (runLoop_out L hf l a.2).bind fun b hb => .pure (L.trans ha hb)

mutual
theorem Eff.run_out (L : LookRel R Rel) {m : ObjMap} {fire : FireB σ} (hf : FireOutB R Rel fire) (op : Nat) :
    ∀ (e : Eff) (path : List Nat) (params : List Obj) (r : Ref) (s : σ), (∀ sign p, e.Touches sign p → ¬ R p) →
    RunOut R (fun a => Rel s a.2) (e.run m fire op path params r s)
  | .mk fs adds dels cs, path, params, r, s, hA => by
    rw [Eff.run]
    refine (FList.run_out L hf op fs path 0 params r s (fun sg p ht => hA sg p (by simp [Eff.Touches, ht]))).bind fun a ha => ?_
    refine (runSimples_out L hf (fun p hl => hA true p (by simp [Eff.Touches, hl]))).bind fun b hb => ?_
    refine (runSimples_out L hf (fun p hl => hA false p (by simp [Eff.Touches, hl]))).bind fun c hc => ?_
    refine (CList.run_out L hf op cs path 0 params r c.2 (fun sg p ht => hA sg p (by simp [Eff.Touches, ht]))).bind
      fun d hd => .pure ?_
    exact L.trans (L.trans ha hb) (L.trans hc hd)
theorem FList.run_out (L : LookRel R Rel) {m : ObjMap} {fire : FireB σ} (hf : FireOutB R Rel fire) (op : Nat) :
    ∀ (e : FList) (path : List Nat) (j : Nat) (params : List Obj) (r : Ref) (s : σ), (∀ sign p, e.Touches sign p → ¬ R p) →
    RunOut R (fun a => Rel s a.2) (e.run m fire op path j params r s)
  | .nil, path, j, params, r, s, _ => by rw [FList.run]; exact .pure (L.refl s)
  | .cons vars e rest, path, j, params, r, s, hA => by
    rw [FList.run]
    refine (RunOut.lift _).bind fun l _ => ?_
    refine (runLoop_out L (fun os s => (RunOut.read _).bind fun args _ => Eff.run_out L hf op e _ _ _ s
      (fun sg p ht => hA sg p (by simp [FList.Touches, ht]))) l s).bind fun a ha => ?_
    exact (FList.run_out L hf op rest path (j + 1) params r a.2
      (fun sg p ht => hA sg p (by simp [FList.Touches, ht]))).bind fun b hb => .pure (L.trans ha hb)
theorem CList.run_out (L : LookRel R Rel) {m : ObjMap} {fire : FireB σ} (hf : FireOutB R Rel fire) (op : Nat) :
    ∀ (e : CList) (path : List Nat) (j : Nat) (params : List Obj) (r : Ref) (s : σ), (∀ sign p, e.Touches sign p → ¬ R p) →
    RunOut R (fun a => Rel s a.2) (e.run m fire op path j params r s)
  | .nil, path, j, params, r, s, _ => by rw [CList.run]; exact .pure (L.refl s)
  | .cons g e rest, path, j, params, r, s, hA => by
    rw [CList.run]
    refine (RunOut.read _).bind fun args _ => (RunOut.lift _).bind fun b _ => ?_
    refine RunOut.bind (Q := fun a => Rel s a.2) ?_ fun a ha => (CList.run_out L hf op rest path (j + 1) params r a.2
      (fun sg p ht => hA sg p (by simp [CList.Touches, ht]))).bind fun b hb => .pure (L.trans ha hb)
    split
    · exact Eff.run_out L hf op e _ _ _ s (fun sg p ht => hA sg p (by simp [CList.Touches, ht]))
    · exact .pure (L.refl s)
end

theorem runFire_out (L : LookRel R Rel) {run : Nat → Ax → Ref → σ → BufM (Nat × σ)} {l : Loc} (hl : ¬ R l.pred) {r : Ref} :
    ∀ (axs : List Ax) (k : Nat) (s : σ), (∀ ax ∈ axs, ax.pred = l.pred → ∀ k r s, RunOut R (fun a => Rel s a.2) (run k ax r s)) →
    RunOut R (Rel s) (runFire run l r k axs s)
  | [], k, s, _ => by rw [runFire]; exact .pure (L.refl s)
  | ax :: axs, k, s, hr => by
    have ih := fun s => runFire_out L hl (r := r) axs (k + 1) s (fun a ha => hr a (by simp [ha]))
    rw [runFire]
    split
    · rename_i hc
      refine (RunOut.lift _).bind fun mt _ => ?_
      cases mt with
      | none => exact ih s
      | some mt =>
        refine (RunOut.read _).bind fun args _ => (RunOut.lift _).bind fun b _ => ?_
        split
        · refine RunOut.bind (Q := fun a => Rel s a.2) ((assignLoop_out r (by exact hl) _).bind fun _ _ =>
            hr ax (by simp) hc.2 _ _ s) fun q hq => ?_
          exact fun st a ha => ⟨L.trans hq (ih q.2 st a ha).1, (ih q.2 st a ha).2⟩
        · exact ih s
    · exact ih s

theorem fireB_out (L : LookRel R Rel) {m : ObjMap} {axs : List Ax} (hA : ∀ ax ∈ axs, ax.op.eff.TouchesIn R → R ax.pred) :
    ∀ n, FireOutB R Rel (fireB (σ := σ) m axs n)
  | 0 => fun l r s hl => runFire_out L hl axs 0 s fun _ _ _ _ _ _ st a h => by simp [BufM.lift] at h
  | n + 1 => fun l r s hl => runFire_out L hl axs 0 s fun ax hax h2 k r s =>
    Eff.run_out L (fireB_out L hA n) k ax.op.eff [] ax.op.params r s
      fun sign p ht hR => hl (h2 ▸ hA ax hax ⟨sign, p, ht, hR⟩)

/-! ## Effects that matter -/

structure FireTwoB (R : Name → Prop) (Rel : σ → σ → Prop) (fire fire' : FireB σ) : Prop where
  out : FireOutB R Rel fire
  out' : FireOutB R Rel fire'
  both : ∀ l r s t, R l.pred → GoodRef R r → Rel s t → RunTwo R Rel (fire l r s) (fire' l r t)

variable {m : ObjMap} {fire fire' : FireB σ}

theorem RunOut.apart (L : LookRel R Rel) {s t : σ} (h : Rel s t) {x y : BufM (Nat × σ)} (hx : RunOut R (fun a => Rel s a.2) x)
    (hy : RunOut R (fun a => Rel t a.2) y) : RunTwo R (fun a b => Rel a.2 b.2) x y :=
  (hx.two hy).weaken fun _ _ hq => L.apart h hq.1 hq.2

theorem runSimple_two (L : LookRel R Rel) (F : FireTwoB R Rel fire fire') (l : Loc) {r : Ref} (hr : GoodRef R r) {s t : σ}
    (h : Rel s t) : RunTwo R (fun a b => Rel a.2 b.2) (runSimple m fire l r s) (runSimple m fire' l r t) := by
  by_cases hl : R l.pred
  · unfold runSimple
    refine (assignLoop_two hr hl _).bind fun _ _ _ => (RunTwo.read (r := .buf l) hl).bind fun os os' ho => ?_
    subst ho
    cases atomKind m l.pred
    · refine (RunTwo.lift _).bind fun a a' ha => (RunTwo.lift _).bind fun b b' hb => ?_
      subst ha; subst hb
      split
      · exact .pure h
      · exact .throw _ _
    · refine (RunTwo.lift _).bind fun a a' ha => ?_
      subst ha
      split
      · exact .pure h
      · exact .throw _ _
    · dsimp only
      have hq : (if l.sign = true then StateLike.insert s (Atom.ofObjs l.pred os) else
          StateLike.erase s (Atom.ofObjs l.pred os)).1 = (if l.sign = true then StateLike.insert t (Atom.ofObjs l.pred os) else
          StateLike.erase t (Atom.ofObjs l.pred os)).1 ∧
          Rel (if l.sign = true then StateLike.insert s (Atom.ofObjs l.pred os) else
          StateLike.erase s (Atom.ofObjs l.pred os)).2 (if l.sign = true then StateLike.insert t (Atom.ofObjs l.pred os) else
          StateLike.erase t (Atom.ofObjs l.pred os)).2 := by
        split
        · exact L.insert h hl
        · exact L.erase h hl
      generalize (if l.sign = true then StateLike.insert s (Atom.ofObjs l.pred os) else
          StateLike.erase s (Atom.ofObjs l.pred os)) = q at hq ⊢
      generalize (if l.sign = true then StateLike.insert t (Atom.ofObjs l.pred os) else
          StateLike.erase t (Atom.ofObjs l.pred os)) = q' at hq ⊢
      rw [← hq.1]
      split
      · exact .pure hq.2
      · exact (F.both l r _ _ hl hr hq.2).bind fun s' t' h' => .pure h'
  · exact (runSimple_out L F.out hl r s).apart L h (runSimple_out L F.out' hl r t)

theorem runSimples_two (L : LookRel R Rel) (F : FireTwoB R Rel fire fire') {op : Nat} {path : List Nat} {sign : Bool}
    {params : List Obj} {r : Ref} (hr : GoodRef R r) : ∀ {l : List (Name × List Term)} {k : Nat} {s t : σ}, Rel s t →
    RunTwo R (fun a b => Rel a.2 b.2) (runSimples m fire op path sign params r k l s) (runSimples m fire' op path sign params r k l t)
  | [], k, s, t, h => by rw [runSimples, runSimples]; exact .pure h
  | (pred, ts) :: l, k, s, t, h => by
    rw [runSimples, runSimples]
    exact (runSimple_two L F _ hr h).bind fun a b hab => (runSimples_two L F hr hab).bind fun a b hab => .pure hab

omit [StateLike σ] in
theorem runLoop_two {f g : List Obj → σ → BufM (Nat × σ)}
    (hf : ∀ os s t, Rel s t → RunTwo R (fun a b => Rel a.2 b.2) (f os s) (g os t)) : ∀ (l : List (List Obj)) (s t : σ), Rel s t →
    RunTwo R (fun a b => Rel a.2 b.2) (runLoop f l s) (runLoop g l t)
  | [], s, t, h => by rw [runLoop, runLoop]; exact .pure h
  | os :: l, s, t, h => by
    rw [runLoop, runLoop]
    exact (hf os s t h).bind fun a b hab => (runLoop_two hf l a.2 b.2 hab).bind fun a b hab => .pure hab

mutual
theorem Eff.run_two (L : LookRel R Rel) (F : FireTwoB R Rel fire fire') (op : Nat) : ∀ (e : Eff) (path : List Nat)
    (params : List Obj) (r : Ref) (s t : σ), e.Relevant R → GoodRef R r → Rel s t →
    RunTwo R (fun a b => Rel a.2 b.2) (e.run m fire op path params r s) (e.run m fire' op path params r t)
  | .mk fs adds dels cs, path, params, r, s, t, hA, hr, h => by
    simp only [Eff.Relevant] at hA
    rw [Eff.run, Eff.run]
    refine (FList.run_two L F op fs path 0 params r s t hA.1 hr h).bind fun a a' ha => ?_
    refine (runSimples_two L F hr ha).bind fun b b' hb => ?_
    refine (runSimples_two L F hr hb).bind fun c c' hc => ?_
    exact (CList.run_two L F op cs path 0 params r c.2 c'.2 hA.2 hr hc).bind fun d d' hd => .pure hd
theorem FList.run_two (L : LookRel R Rel) (F : FireTwoB R Rel fire fire') (op : Nat) : ∀ (e : FList) (path : List Nat) (j : Nat)
    (params : List Obj) (r : Ref) (s t : σ), e.Relevant R → GoodRef R r → Rel s t →
    RunTwo R (fun a b => Rel a.2 b.2) (e.run m fire op path j params r s) (e.run m fire' op path j params r t)
  | .nil, path, j, params, r, s, t, _, _, h => by rw [FList.run, FList.run]; exact .pure h
  | .cons vars e rest, path, j, params, r, s, t, hA, hr, h => by
    simp only [FList.Relevant] at hA
    rw [FList.run, FList.run]
    refine (RunTwo.lift _).bind fun l l' hl => ?_
    subst hl
    refine (runLoop_two (fun os s t h => (RunTwo.read hr).bind fun args args' ha => ?_) l s t h).bind fun a a' ha =>
      (FList.run_two L F op rest path (j + 1) params r a.2 a'.2 hA.2 hr ha).bind fun b b' hb => .pure hb
    subst ha
    exact Eff.run_two L F op e _ _ _ s t hA.1 trivial h
theorem CList.run_two (L : LookRel R Rel) (F : FireTwoB R Rel fire fire') (op : Nat) : ∀ (e : CList) (path : List Nat) (j : Nat)
    (params : List Obj) (r : Ref) (s t : σ), e.Relevant R → GoodRef R r → Rel s t →
    RunTwo R (fun a b => Rel a.2 b.2) (e.run m fire op path j params r s) (e.run m fire' op path j params r t)
  | .nil, path, j, params, r, s, t, _, _, h => by rw [CList.run, CList.run]; exact .pure h
  | .cons g e rest, path, j, params, r, s, t, hA, hr, h => by
    simp only [CList.Relevant] at hA
    rw [CList.run, CList.run]
    refine (RunTwo.read hr).bind fun args args' ha => ?_
    subst ha
    have tail : ∀ a a' : Nat × σ, Rel a.2 a'.2 → RunTwo R (fun a b => Rel a.2 b.2)
        (CList.run m fire op rest path (j + 1) params r a.2 >>= fun q' => pure (max a.1 q'.1, q'.2))
        (CList.run m fire' op rest path (j + 1) params r a'.2 >>= fun q' => pure (max a'.1 q'.1, q'.2)) := fun a a' ha =>
      (CList.run_two L F op rest path (j + 1) params r a.2 a'.2 hA.2.2 hr ha).bind fun b b' hb => .pure hb
    by_cases hx : e.TouchesIn R
    · rw [LookRel.eval L h m g params args (hA.1 hx)]
      refine (RunTwo.lift _).bind fun b b' hb => ?_
      subst hb
      refine RunTwo.bind (Q := fun a b => Rel a.2 b.2) ?_ tail
      split
      · exact Eff.run_two L F op e _ _ _ s t hA.2.1 hr h
      · exact .pure h
    · have hn : ∀ sign p, e.Touches sign p → ¬ R p := fun sign p h1 h2 => hx ⟨sign, p, h1, h2⟩
      refine ((RunOut.lift _).two (RunOut.lift _)).bind fun b b' _ => ?_
      refine RunTwo.bind (Q := fun a b => Rel a.2 b.2) (RunOut.apart L h ?_ ?_) tail
      · split
        · exact Eff.run_out L F.out op e _ _ _ s hn
        · exact .pure (L.refl s)
      · split
        · exact Eff.run_out L F.out' op e _ _ _ t hn
        · exact .pure (L.refl t)
end

omit [StateLike σ] in
theorem runFire_two {run run' : Nat → Ax → Ref → σ → BufM (Nat × σ)} {l : Loc} (hl : R l.pred) {r : Ref} (hg : GoodRef R r) :
    ∀ (axs : List Ax) (k : Nat) (s t : σ), (∀ ax ∈ axs, ∀ k r s t, GoodRef R r → Rel s t →
      RunTwo R (fun a b => Rel a.2 b.2) (run k ax r s) (run' k ax r t)) → Rel s t →
    RunTwo R Rel (runFire run l r k axs s) (runFire run' l r k axs t)
  | [], k, s, t, _, h => by rw [runFire, runFire]; exact .pure h
  | ax :: axs, k, s, t, hr, h => by
    have ih := fun s t => runFire_two hl hg axs (k + 1) s t (fun a ha => hr a (by simp [ha]))
    rw [runFire, runFire]
    split
    · refine (RunTwo.lift _).bind fun mt mt' hm => ?_
      subst hm
      cases mt with
      | none => exact ih s t h
      | some mt =>
        refine (RunTwo.read hg).bind fun args args' ha => ?_
        subst ha
        refine (RunTwo.lift _).bind fun b b' hb => ?_
        subst hb
        dsimp only
        split
        · refine RunTwo.bind (Q := fun a b => Rel a.2 b.2) ((assignLoop_two hg (by exact hl) _).bind fun _ _ _ =>
            hr ax (by simp) _ _ s t (by exact hl) h) fun q q' hq => ih q.2 q'.2 hq
        · exact ih s t h
    · exact ih s t h

theorem fireB_two (L : LookRel R Rel) {axs : List Ax} (hA : ∀ ax ∈ axs, ax.op.eff.Relevant R ∧ (ax.op.eff.TouchesIn R → R ax.pred)) :
    ∀ n n', FireTwoB R Rel (fireB (σ := σ) m axs n) (fireB m axs n') := by
  have out := fireB_out (m := m) L (axs := axs) fun ax hax => (hA ax hax).2
  intro n
  induction n with
  | zero =>
    refine fun n' => ⟨out _, out _, fun l r s t hl hr h => ?_⟩
    cases n' with
    | zero => exact runFire_two hl hr axs 0 s t (fun _ _ _ _ _ _ _ _ => .fuel _) h
    | succ n' => exact runFire_two hl hr axs 0 s t (fun _ _ _ _ _ _ _ _ => .fuel _) h
  | succ n ih =>
    refine fun n' => ⟨out _, out _, fun l r s t hl hr h => ?_⟩
    cases n' with
    | zero => exact runFire_two hl hr axs 0 s t (fun _ _ _ _ _ _ _ _ => .fuel' _) h
    | succ n' =>
      exact runFire_two hl hr axs 0 s t (fun ax hax k r s t hr h =>
        Eff.run_two L (ih n') k ax.op.eff [] ax.op.params r s t (hA ax hax).1 hr h) h

theorem Op.run_two (L : LookRel R Rel) {axs : List Ax}
    (hA : ∀ ax ∈ axs, ax.op.eff.Relevant R ∧ (ax.op.eff.TouchesIn R → R ax.pred)) {op : Op} (ho : op.eff.Relevant R)
    (fuel fuel' id : Nat) (args : List Obj) {s t : σ} (h : Rel s t) :
    RunTwo R (fun a b => Rel a.2 b.2) (op.run m axs fuel id args s) (op.run m axs fuel' id args t) :=
  Eff.run_two L (fireB_two L hA fuel fuel') id op.eff [] op.params (.val args) s t ho trivial h

end

end Symbolic
