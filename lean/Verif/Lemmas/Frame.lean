import Verif.Lemmas.EffectRel
import Verif.Lemmas.ActionBuf
import Verif.Lemmas.Fire
import Verif.Spec.Frame
import Verif.Model.Pddl

/-!
Only what may be written changes.
-/

namespace Symbolic

theorem ChangesWithin.refl (A : Bool → Atom → Prop) (s : Atom → Prop) : ChangesWithin A s s :=
  fun _ => ⟨fun h h' => absurd h h', fun h h' => absurd h h'⟩

theorem ChangesWithin.trans {A : Bool → Atom → Prop} {s t u : Atom → Prop} (h : ChangesWithin A s t)
    (h' : ChangesWithin A t u) : ChangesWithin A s u := fun x => by
  constructor
  · intro hu hs
    by_cases ht : t x
    · exact (h x).1 ht hs
    · exact (h' x).1 hu ht
  · intro hs hu
    by_cases ht : t x
    · exact (h' x).2 ht hu
    · exact (h x).2 hs ht

theorem ChangesWithin.mono {A B : Bool → Atom → Prop} {s t : Atom → Prop} (h : ChangesWithin A s t)
    (hab : ∀ sign x, A sign x → B sign x) : ChangesWithin B s t :=
  fun x => ⟨fun h1 h2 => hab _ _ ((h x).1 h1 h2), fun h1 h2 => hab _ _ ((h x).2 h1 h2)⟩

section
variable [StrHash]

theorem stepOp_within {A : Bool → Atom → Prop} {sign : Bool} {x : Atom} (h : A sign x) (s : State) :
    ChangesWithin A (· ∈ s) (· ∈ (stepOp sign x s).2) := by
  intro y
  have hm := mem_stepOp (sign := sign) (x := x) (y := y) (s := s)
  by_cases hy : y = x
  · rw [if_pos hy] at hm
    subst hy
    cases sign
    · exact ⟨fun h1 _ => by simp [hm] at h1, fun _ _ => h⟩
    · exact ⟨fun _ _ => h, fun _ h2 => by simp [hm] at h2⟩
  · rw [if_neg hy] at hm
    exact ⟨fun h1 h2 => absurd (hm.1 h1) h2, fun h1 h2 => absurd (hm.2 h1) h2⟩

theorem within_rel (A : Bool → Name → Prop) : StepRel (σ := State) A
    (fun _ s t => ChangesWithin (fun sign x => A sign x.pred) (· ∈ s) (· ∈ t))
    (fun s t => ChangesWithin (fun sign x => A sign x.pred) (· ∈ s) (· ∈ t)) where
  refl _ := .refl _ _
  comp h1 h2 := h1.trans h2
  insert s _ h := stepOp_within (sign := true) h s
  erase s _ h := stepOp_within (sign := false) h s
  fire h1 h2 := h1.trans h2
  toR h := h
  reflR _ := .refl _ _
  transR h1 h2 := h1.trans h2

/-! ## Derived predicates -/

/-- Well-typed instances of the heads. -/
abbrev DerivedAtom (objects : List Obj) (ds : List Drv) (_ : Bool) (x : Atom) : Prop := IsDerived objects ds x

theorem drvPass_within {objects : List Obj} {ds : List Drv} {d : Drv} (hd : d ∈ ds) :
    ∀ {l : List (List Obj)} {s : State} {r : Bool × State}, (∀ os ∈ l, WellTyped objects d.params os) →
    drvPass (ObjMap.create objects) d l s = .ok r → ChangesWithin (DerivedAtom objects ds) (· ∈ s) (· ∈ r.2)
  | [], s, r, _, h => by simp only [drvPass, Res.ok.injEq] at h; subst h; exact .refl _ _
  | os :: l, s, r, hl, h => by
    simp only [drvPass, Res.bind_eq_ok, Res.pure_eq, Res.ok.injEq] at h
    obtain ⟨b, -, r', h2, rfl⟩ := h
    refine ChangesWithin.trans ?_ (drvPass_within hd (r := r') (fun o ho => hl o (by simp [ho])) h2)
    have hx : ∀ sign, DerivedAtom objects ds sign (Atom.ofObjs d.head os) := fun _ => ⟨d, hd, os, hl os (by simp), rfl⟩
    cases b
    · exact stepOp_within (sign := false) (hx _) s
    · exact stepOp_within (sign := true) (hx _) s

theorem drvFix_within {objects : List Obj} {ds : List Drv} {d : Drv} (hd : d ∈ ds) {l : List (List Obj)}
    (hl : ∀ os ∈ l, WellTyped objects d.params os) : ∀ {k : Nat} {s : State} {r : Bool × State},
    drvFix (ObjMap.create objects) d l k s = .ok r → ChangesWithin (DerivedAtom objects ds) (· ∈ s) (· ∈ r.2)
  | 0, s, r, h => by simp [drvFix] at h
  | k + 1, s, r, h => by
    simp only [drvFix, Res.bind_eq_ok] at h
    obtain ⟨r1, h1, h2⟩ := h
    have := drvPass_within hd hl h1
    split at h2
    · simp only [Res.bind_eq_ok, Res.pure_eq, Res.ok.injEq] at h2
      obtain ⟨r2, h2, rfl⟩ := h2
      exact this.trans (drvFix_within hd hl (r := r2) h2)
    · simp only [Res.pure_eq, Res.ok.injEq] at h2; subst h2; exact this

theorem drvsPass_within {objects : List Obj} {ds : List Drv} {fuel : Nat} : ∀ {l : List Drv} {s : State} {r : Bool × State},
    (∀ d ∈ l, d ∈ ds) → drvsPass (ObjMap.create objects) fuel l s = .ok r →
    ChangesWithin (DerivedAtom objects ds) (· ∈ s) (· ∈ r.2)
  | [], s, r, _, h => by simp only [drvsPass, Res.ok.injEq] at h; subst h; exact .refl _ _
  | d :: l, s, r, hl, h => by
    simp only [drvsPass, Drv.apply, Res.bind_eq_ok, Res.pure_eq, Res.ok.injEq] at h
    obtain ⟨r1, ⟨tuples, h0, h1⟩, r2, h2, rfl⟩ := h
    exact (drvFix_within (hl d (by simp)) (fun os ho => gen_mem h0 ho) h1).trans
      (drvsPass_within (r := r2) (fun d' h => hl d' (by simp [h])) h2)

theorem drvsFix_within {objects : List Obj} {ds : List Drv} {fuel : Nat} : ∀ {k : Nat} {s : State} {r : Bool × State},
    drvsFix (ObjMap.create objects) fuel ds k s = .ok r → ChangesWithin (DerivedAtom objects ds) (· ∈ s) (· ∈ r.2)
  | 0, s, r, h => by simp [drvsFix] at h
  | k + 1, s, r, h => by
    simp only [drvsFix, Res.bind_eq_ok] at h
    obtain ⟨r1, h1, h2⟩ := h
    have := drvsPass_within (ds := ds) (fun _ h => h) h1
    split at h2
    · simp only [Res.bind_eq_ok, Res.pure_eq, Res.ok.injEq] at h2
      obtain ⟨r2, h2, rfl⟩ := h2
      exact this.trans (drvsFix_within (r := r2) h2)
    · simp only [Res.pure_eq, Res.ok.injEq] at h2; subst h2; exact this

end

/-! ## With buffers -/

/-- A value the computation returns satisfies `Q`, whatever the buffers hold. -/
def Ret (x : BufM α) (Q : α → Prop) : Prop := ∀ st a, (x st).1 = .ok a → Q a

theorem Ret.pure {a : α} {Q : α → Prop} (h : Q a) : Ret (Pure.pure a : BufM α) Q :=
  fun st b hb => by rw [BufM.pure_run] at hb; cases hb; exact h

theorem Ret.bind {x : BufM α} {f : α → BufM β} {Q : α → Prop} {R : β → Prop} (h : Ret x Q)
    (hf : ∀ a, Q a → Ret (f a) R) : Ret (x >>= f) R := by
  intro st b hb
  rw [BufM.bind_run] at hb
  have h1 := h st
  cases hx : x st with
  | mk r st' =>
    rw [hx] at h1 hb
    cases r with
    | ok a => exact hf a (h1 a rfl) st' b hb
    | exc e => simp at hb
    | ub => simp at hb
    | fuel => simp at hb

theorem Ret.any (x : BufM α) : Ret x (fun _ => True) := fun _ _ _ => trivial

section
variable {σ : Type} [StateLike σ] {A : Bool → Name → Prop} {Q : Nat → σ → σ → Prop} {R : σ → σ → Prop}

def FireRelB (A : Bool → Name → Prop) (R : σ → σ → Prop) (fire : FireB σ) : Prop :=
  ∀ l r s, A l.sign l.pred → Ret (fire l r s) (R s)

theorem runSimple_rel (hs : StepRel A Q R) {m : ObjMap} {fire : FireB σ} (hf : FireRelB A R fire) {l : Loc}
    (hA : A l.sign l.pred) (r : Ref) (s : σ) : Ret (runSimple m fire l r s) (fun a => Q a.1 s a.2) := by
  unfold runSimple
  refine (Ret.any _).bind fun _ _ => (Ret.any _).bind fun os _ => ?_
  have throw : Ret (BufM.lift (.exc .runtimeError) : BufM (Nat × σ)) (fun a => Q a.1 s a.2) := fun st a h => by
    simp [BufM.lift] at h
  have same : Ret (Pure.pure (0, s) : BufM (Nat × σ)) (fun a => Q a.1 s a.2) := .pure (hs.refl s)
  cases atomKind m l.pred
  · refine (Ret.any _).bind fun a _ => (Ret.any _).bind fun b _ => ?_
    split
    · exact same
    · exact throw
  · refine (Ret.any _).bind fun a _ => ?_
    split
    · exact same
    · exact throw
  · dsimp only
    have hq : Q (if l.sign = true then StateLike.insert s (Atom.ofObjs l.pred os) else
        StateLike.erase s (Atom.ofObjs l.pred os)).1 s (if l.sign = true then StateLike.insert s (Atom.ofObjs l.pred os) else
        StateLike.erase s (Atom.ofObjs l.pred os)).2 := by
      cases hsg : l.sign
      · exact hs.erase s (Atom.ofObjs l.pred os) (hsg ▸ hA)
      · exact hs.insert s (Atom.ofObjs l.pred os) (hsg ▸ hA)
    generalize (if l.sign = true then StateLike.insert s (Atom.ofObjs l.pred os) else
        StateLike.erase s (Atom.ofObjs l.pred os)) = q at hq ⊢
    split
    · exact .pure hq
    · exact (hf l r _ hA).bind fun s' h => .pure (hs.fire hq h)

theorem runSimples_rel (hs : StepRel A Q R) {m : ObjMap} {fire : FireB σ} (hf : FireRelB A R fire) {op : Nat}
    {path : List Nat} {sign : Bool} {params : List Obj} {r : Ref} : ∀ {l : List (Name × List Term)} {k : Nat} {s : σ},
    (∀ p, ListsPred l p → A sign p) → Ret (runSimples m fire op path sign params r k l s) (fun a => Q a.1 s a.2)
  | [], k, s, _ => by rw [runSimples]; exact .pure (hs.refl s)
  | (pred, ts) :: l, k, s, hA => by
    rw [runSimples]
    exact (runSimple_rel hs hf (hA pred ⟨ts, by simp⟩) r s).bind fun a ha =>
      (runSimples_rel hs hf (fun p ⟨ts', hm⟩ => hA p ⟨ts', by simp [hm]⟩)).bind fun b hb => .pure (hs.comp ha hb)

theorem runLoop_rel (hs : StepRel A Q R) {f : List Obj → σ → BufM (Nat × σ)}
    (hf : ∀ os s, Ret (f os s) (fun a => Q a.1 s a.2)) : ∀ (l : List (List Obj)) (s : σ),
    Ret (runLoop f l s) (fun a => Q a.1 s a.2)
  | [], s => by rw [runLoop]; exact .pure (hs.refl s)
  | os :: l, s => by
    rw [runLoop]
    exact (hf os s).bind fun a ha => (runLoop_rel hs hf l a.2).bind fun b hb => .pure (hs.comp ha hb)

mutual
theorem Eff.run_rel (hs : StepRel A Q R) {m : ObjMap} {fire : FireB σ} (hf : FireRelB A R fire) (op : Nat) :
    ∀ (e : Eff) (path : List Nat) (params : List Obj) (r : Ref) (s : σ), (∀ sign p, e.Touches sign p → A sign p) →
    Ret (e.run m fire op path params r s) (fun a => Q a.1 s a.2)
  | .mk fs adds dels cs, path, params, r, s, hA => by
    rw [Eff.run]
    refine (FList.run_rel hs hf op fs path 0 params r s (fun sg p ht => hA sg p (by simp [Eff.Touches, ht]))).bind fun a ha => ?_
    refine (runSimples_rel hs hf (fun p hl => hA true p (by simp [Eff.Touches, hl]))).bind fun b hb => ?_
    refine (runSimples_rel hs hf (fun p hl => hA false p (by simp [Eff.Touches, hl]))).bind fun c hc => ?_
    refine (CList.run_rel hs hf op cs path 0 params r c.2 (fun sg p ht => hA sg p (by simp [Eff.Touches, ht]))).bind
      fun d hd => .pure ?_
    exact hs.comp (hs.comp ha hb) (hs.comp hc hd)
theorem FList.run_rel (hs : StepRel A Q R) {m : ObjMap} {fire : FireB σ} (hf : FireRelB A R fire) (op : Nat) :
    ∀ (e : FList) (path : List Nat) (j : Nat) (params : List Obj) (r : Ref) (s : σ), (∀ sign p, e.Touches sign p → A sign p) →
    Ret (e.run m fire op path j params r s) (fun a => Q a.1 s a.2)
  | .nil, path, j, params, r, s, _ => by rw [FList.run]; exact .pure (hs.refl s)
  | .cons vars e rest, path, j, params, r, s, hA => by
    rw [FList.run]
    refine (Ret.any _).bind fun l _ => ?_
    refine (runLoop_rel hs (fun os s => (Ret.any _).bind fun args _ => Eff.run_rel hs hf op e _ _ _ s
      (fun sg p ht => hA sg p (by simp [FList.Touches, ht]))) l s).bind fun a ha => ?_
    exact (FList.run_rel hs hf op rest path (j + 1) params r a.2
      (fun sg p ht => hA sg p (by simp [FList.Touches, ht]))).bind fun b hb => .pure (hs.comp ha hb)
theorem CList.run_rel (hs : StepRel A Q R) {m : ObjMap} {fire : FireB σ} (hf : FireRelB A R fire) (op : Nat) :
    ∀ (e : CList) (path : List Nat) (j : Nat) (params : List Obj) (r : Ref) (s : σ), (∀ sign p, e.Touches sign p → A sign p) →
    Ret (e.run m fire op path j params r s) (fun a => Q a.1 s a.2)
  | .nil, path, j, params, r, s, _ => by rw [CList.run]; exact .pure (hs.refl s)
  | .cons g e rest, path, j, params, r, s, hA => by
    rw [CList.run]
    refine (Ret.any _).bind fun args _ => (Ret.any _).bind fun b _ => ?_
    refine Ret.bind (Q := fun a => Q a.1 s a.2) ?_ fun a ha => (CList.run_rel hs hf op rest path (j + 1) params r a.2
      (fun sg p ht => hA sg p (by simp [CList.Touches, ht]))).bind fun b hb => .pure (hs.comp ha hb)
    split
    · exact Eff.run_rel hs hf op e _ _ _ s (fun sg p ht => hA sg p (by simp [CList.Touches, ht]))
    · exact .pure (hs.refl s)
end

omit [StateLike σ] in
theorem runFire_rel {run : Nat → Ax → Ref → σ → BufM (Nat × σ)} (hrefl : ∀ s, R s s)
    (htrans : ∀ {s t u}, R s t → R t u → R s u) {l : Loc} {r : Ref} : ∀ (axs : List Ax) (k : Nat) (s : σ),
    (∀ ax ∈ axs, ax.pos = l.sign → ax.pred = l.pred → ∀ k r s, Ret (run k ax r s) (fun a => R s a.2)) →
    Ret (runFire run l r k axs s) (R s)
  | [], k, s, _ => by rw [runFire]; exact .pure (hrefl s)
  | ax :: axs, k, s, hr => by
    have ih := fun s => runFire_rel (r := r) hrefl htrans axs (k + 1) s (fun a ha => hr a (by simp [ha]))
    rw [runFire]
    split
    · rename_i hc
      refine (Ret.any _).bind fun mt _ => ?_
      cases mt with
      | none => exact ih s
      | some mt =>
        refine (Ret.any _).bind fun args _ => (Ret.any _).bind fun b _ => ?_
        split
        · refine Ret.bind (Q := fun a => R s a.2) ((Ret.any _).bind fun _ _ => hr ax (by simp) hc.1 hc.2 _ _ s)
            fun q hq => ?_
          exact fun st a ha => htrans hq (ih q.2 st a ha)
        · exact ih s
    · exact ih s

theorem fireB_rel (hs : StepRel A Q R) {m : ObjMap} {axs : List Ax}
    (hA : ∀ ax ∈ axs, A ax.pos ax.pred → ∀ sign p, ax.op.eff.Touches sign p → A sign p) :
    ∀ n, FireRelB A R (fireB (σ := σ) m axs n)
  | 0 => fun l r s _ => runFire_rel hs.reflR hs.transR axs 0 s fun _ _ _ _ _ _ _ st a h => by simp [BufM.lift] at h
  | n + 1 => fun l r s hsp => runFire_rel hs.reflR hs.transR axs 0 s fun ax hax h1 h2 k r s st a h =>
    hs.toR (Eff.run_rel hs (fireB_rel hs hA n) k ax.op.eff [] ax.op.params r s (hA ax hax (by rw [h1, h2]; exact hsp)) st a h)

theorem Op.run_rel (hs : StepRel A Q R) {m : ObjMap} {axs : List Ax}
    (hA : ∀ ax ∈ axs, A ax.pos ax.pred → ∀ sign p, ax.op.eff.Touches sign p → A sign p) {op : Op}
    (hop : ∀ sign p, op.eff.Touches sign p → A sign p) (fuel id : Nat) (args : List Obj) (s : σ) :
    Ret (op.run m axs fuel id args s) (fun a => Q a.1 s a.2) :=
  Eff.run_rel hs (fireB_rel hs hA fuel) id op.eff [] op.params (.val args) s hop

end

end Symbolic
