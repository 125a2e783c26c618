import Verif.Lemmas.Derived

/-!
# Lemmas: relations kept by passes that are repeated until nothing changes
-/

namespace Symbolic

section
variable [StrHash]

/-- Repeating `f` until nothing changes. -/
inductive Iter (f : State → Res (Bool × State)) : State → State → Prop
  | stop {s : State} : f s = .ok (false, s) → Iter f s s
  | more {s s₁ r : State} : f s = .ok (true, s₁) → Iter f s₁ r → Iter f s r

/-- `f` and `g` keep the relation. -/
def KeepsRel (Rel : State → State → Prop) (f g : State → Res (Bool × State)) : Prop :=
  ∀ s s' r r', Rel s s' → f s = .ok r → g s' = .ok r' → Rel r.2 r'.2

theorem KeepsRel.iter {Rel : State → State → Prop} {f g : State → Res (Bool × State)} (hf : KeepsRel Rel f g) {s r : State}
    (h : Iter f s r) : ∀ {s' r' : State}, Iter g s' r' → Rel s s' → Rel r r' := by
  induction h with
  | @stop s h =>
    intro s' r' h' hb
    induction h' with
    | stop => exact hb
    | more h1 _ ih => exact ih (hf _ _ _ _ hb h h1)
  | @more s s₁ r h _ ih =>
    intro s' r' h' hb
    cases h' with
    | stop h1 => exact ih (.stop h1) (hf _ _ _ _ hb h h1)
    | more h1 h2 => exact ih h2 (hf _ _ _ _ hb h h1)

variable {m : ObjMap}

theorem drvPass_idle {d : Drv} : ∀ {l : List (List Obj)} {s q : State}, drvPass m d l s = .ok (false, q) → q = s
  | [], s, q, h => by
    simp only [drvPass, Res.ok.injEq, Prod.mk.injEq] at h
    exact h.2.symm
  | as :: l, s, q, h => by
    simp only [drvPass, Res.bind_eq_ok] at h
    obtain ⟨b, hb, r, h1, h2⟩ := h
    simp only [Res.pure_eq, Res.ok.injEq, Prod.mk.injEq, Bool.or_eq_false_iff] at h2
    obtain ⟨⟨h2, h3⟩, rfl⟩ := h2
    have h4 := drvStep_same (b := b) (x := Atom.ofObjs d.head as) (s := s) h2
    obtain ⟨v, q⟩ := r
    obtain rfl : v = false := h3
    rw [drvPass_idle h1]
    exact h4

theorem drvFix_iter {d : Drv} {l : List (List Obj)} : ∀ {k : Nat} {s : State} {r : Bool × State},
    drvFix m d l k s = .ok r → Iter (drvPass m d l) s r.2 ∧ (r.1 = false → r.2 = s)
  | 0, s, r, h => by simp [drvFix] at h
  | k + 1, s, r, h => by
    simp only [drvFix, Res.bind_eq_ok] at h
    obtain ⟨⟨v, q⟩, h1, h2⟩ := h
    cases v
    · simp only [Bool.false_eq_true, if_false, Res.pure_eq, Res.ok.injEq] at h2
      subst h2
      obtain rfl := drvPass_idle h1
      exact ⟨.stop h1, fun _ => rfl⟩
    · simp only [if_true, Res.bind_eq_ok, Res.pure_eq, Res.ok.injEq] at h2
      obtain ⟨r', h3, rfl⟩ := h2
      exact ⟨.more h1 (drvFix_iter (r := r') h3).1, by simp⟩

theorem drvsPass_idle {fuel : Nat} : ∀ {ds : List Drv} {s q : State}, drvsPass m fuel ds s = .ok (false, q) → q = s
  | [], s, q, h => by
    simp only [drvsPass, Res.ok.injEq, Prod.mk.injEq] at h
    exact h.2.symm
  | d :: ds, s, q, h => by
    simp only [drvsPass, Drv.apply, Res.bind_eq_ok, Res.pure_eq, Res.ok.injEq, Prod.mk.injEq, Bool.or_eq_false_iff] at h
    obtain ⟨r, ⟨l, -, h1⟩, ⟨v, q'⟩, h2, ⟨h3, h4⟩, rfl⟩ := h
    obtain rfl : v = false := h4
    rw [drvsPass_idle h2]
    exact (drvFix_iter h1).2 h3

theorem drvsFix_iter {ds : List Drv} {fuel : Nat} : ∀ {k : Nat} {s : State} {r : Bool × State},
    drvsFix m fuel ds k s = .ok r → Iter (drvsPass m fuel ds) s r.2
  | 0, s, r, h => by simp [drvsFix] at h
  | k + 1, s, r, h => by
    simp only [drvsFix, Res.bind_eq_ok] at h
    obtain ⟨⟨v, q⟩, h1, h2⟩ := h
    cases v
    · simp only [Bool.false_eq_true, if_false, Res.pure_eq, Res.ok.injEq] at h2
      subst h2
      obtain rfl := drvsPass_idle h1
      exact .stop h1
    · simp only [if_true, Res.bind_eq_ok, Res.pure_eq, Res.ok.injEq] at h2
      obtain ⟨r', h3, rfl⟩ := h2
      exact .more h1 (drvsFix_iter (r := r') h3)

/-- Single passes over the rule keep the relation. -/
def Drv.Keeps (m : ObjMap) (Rel : State → State → Prop) (d : Drv) : Prop :=
  ∀ l, genLoop (paramTypes m d.params) = .ok l → KeepsRel Rel (drvPass m d l) (drvPass m d l)

theorem drvsPass_keeps {Rel : State → State → Prop} : ∀ {ds : List Drv}, (∀ d ∈ ds, d.Keeps m Rel) → ∀ {fuel fuel' : Nat},
    KeepsRel Rel (drvsPass m fuel ds) (drvsPass m fuel' ds)
  | [], _, _, _, s, s', r, r', h, e, e' => by
    simp only [drvsPass, Res.ok.injEq] at e e'
    subst e; subst e'
    exact h
  | d :: ds, hb, fuel, fuel', s, s', r, r', h, e, e' => by
    simp only [drvsPass, Drv.apply, Res.bind_eq_ok, Res.pure_eq, Res.ok.injEq] at e e'
    obtain ⟨q, ⟨l, e0, e⟩, p, e1, rfl⟩ := e
    obtain ⟨q', ⟨l', e0', e'⟩, p', e1', rfl⟩ := e'
    rw [e0, Res.ok.injEq] at e0'
    subst e0'
    exact drvsPass_keeps (fun d' h => hb d' (by simp [h])) q.2 q'.2 p p'
      ((hb d (by simp) l e0).iter (drvFix_iter e).1 (drvFix_iter e').1 h) e1 e1'

/-- What single passes over each rule keep, computing derived predicates anew keeps. -/
theorem drvsFix_keeps {Rel : State → State → Prop} {ds : List Drv} (hb : ∀ d ∈ ds, d.Keeps m Rel) {fuel fuel' k k' : Nat}
    {s s' : State} {r r' : Bool × State} (h : Rel s s') (e : drvsFix m fuel ds k s = .ok r)
    (e' : drvsFix m fuel' ds k' s' = .ok r') : Rel r.2 r'.2 :=
  (drvsPass_keeps hb).iter (drvsFix_iter e) (drvsFix_iter e') h

end

end Symbolic
