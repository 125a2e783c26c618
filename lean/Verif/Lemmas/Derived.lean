import Verif.Model.Axiom
import Verif.Spec.Derived
import Verif.Lemmas.Formula
import Verif.Lemmas.State

/-!
Lemmas on derived predicates: one pass, the loops, stability, termination.
-/

namespace Symbolic

/-! ## Satisfaction and polarity -/

theorem satAtom_mono {objects : List Obj} {S T : Atom → Prop} {env : Env} {pred : Name} {ts : List Term}
    (h : ∀ x : Atom, x.pred = pred → S x → T x) (hs : SatAtom objects S env pred ts) :
    SatAtom objects T env pred ts := by
  rcases hs with hs | hs | ⟨h1, h2, os, h3, h4⟩
  · exact Or.inl hs
  · exact Or.inr (Or.inl hs)
  · exact Or.inr (Or.inr ⟨h1, h2, os, h3, h _ rfl h4⟩)

mutual
theorem sat_mono (objects : List Obj) : ∀ (g : Goal) (S T : Atom → Prop) (up dn : Name → Prop) (env : Env),
    g.Polar up dn → (∀ x : Atom, up x.pred → S x → T x) → (∀ x : Atom, dn x.pred → T x → S x) →
    Sat objects S env g → Sat objects T env g
  | .atom pred ts, S, T, up, dn, env, hp, hu, hd, h => by
    simp only [Sat] at h ⊢
    simp only [Goal.Polar] at hp
    exact satAtom_mono (fun x hx => hu x (hx ▸ hp)) h
  | .conj gs, S, T, up, dn, env, hp, hu, hd, h => by
    simp only [Sat] at h ⊢
    exact satAll_mono objects gs S T up dn env (by simpa only [Goal.Polar] using hp) hu hd h
  | .disj gs, S, T, up, dn, env, hp, hu, hd, h => by
    simp only [Sat] at h ⊢
    exact satAny_mono objects gs S T up dn env (by simpa only [Goal.Polar] using hp) hu hd h
  | .neg g, S, T, up, dn, env, hp, hu, hd, h => by
    simp only [Sat] at h ⊢
    exact fun h' => h (sat_mono objects g T S dn up env (by simpa only [Goal.Polar] using hp) hd hu h')
  | .all vars g, S, T, up, dn, env, hp, hu, hd, h => by
    simp only [Sat] at h ⊢
    exact fun os ho => sat_mono objects g S T up dn _ (by simpa only [Goal.Polar] using hp) hu hd (h os ho)
  | .ex vars g, S, T, up, dn, env, hp, hu, hd, h => by
    simp only [Sat] at h ⊢
    obtain ⟨os, ho, h⟩ := h
    exact ⟨os, ho, sat_mono objects g S T up dn _ (by simpa only [Goal.Polar] using hp) hu hd h⟩
  | .other, S, T, up, dn, env, hp, hu, hd, h => by simp only [Sat] at h
theorem satAll_mono (objects : List Obj) : ∀ (gs : List Goal) (S T : Atom → Prop) (up dn : Name → Prop) (env : Env),
    Goal.PolarL up dn gs → (∀ x : Atom, up x.pred → S x → T x) → (∀ x : Atom, dn x.pred → T x → S x) →
    SatAll objects S env gs → SatAll objects T env gs
  | [], S, T, up, dn, env, hp, hu, hd, h => by simp only [SatAll]
  | g :: gs, S, T, up, dn, env, hp, hu, hd, h => by
    simp only [SatAll] at h ⊢
    simp only [Goal.PolarL] at hp
    exact ⟨sat_mono objects g S T up dn env hp.1 hu hd h.1, satAll_mono objects gs S T up dn env hp.2 hu hd h.2⟩
theorem satAny_mono (objects : List Obj) : ∀ (gs : List Goal) (S T : Atom → Prop) (up dn : Name → Prop) (env : Env),
    Goal.PolarL up dn gs → (∀ x : Atom, up x.pred → S x → T x) → (∀ x : Atom, dn x.pred → T x → S x) →
    SatAny objects S env gs → SatAny objects T env gs
  | [], S, T, up, dn, env, hp, hu, hd, h => by simp only [SatAny] at h
  | g :: gs, S, T, up, dn, env, hp, hu, hd, h => by
    simp only [SatAny] at h ⊢
    simp only [Goal.PolarL] at hp
    exact h.imp (sat_mono objects g S T up dn env hp.1 hu hd) (satAny_mono objects gs S T up dn env hp.2 hu hd)
end

mutual
theorem polar_of_mentions : ∀ (g : Goal) (up dn : Name → Prop), (∀ p n, g.Mentions p n → up p ∧ dn p) → g.Polar up dn
  | .atom pred ts, up, dn, h => by simp only [Goal.Polar]; exact (h pred ts.length (by simp [Goal.Mentions])).1
  | .conj gs, up, dn, h => by
    simp only [Goal.Polar]; exact polarL_of_mentions gs up dn (fun p n hm => h p n (by simpa only [Goal.Mentions] using hm))
  | .disj gs, up, dn, h => by
    simp only [Goal.Polar]; exact polarL_of_mentions gs up dn (fun p n hm => h p n (by simpa only [Goal.Mentions] using hm))
  | .neg g, up, dn, h => by
    simp only [Goal.Polar]
    exact polar_of_mentions g dn up (fun p n hm => (h p n (by simpa only [Goal.Mentions] using hm)).symm)
  | .all vars g, up, dn, h => by
    simp only [Goal.Polar]; exact polar_of_mentions g up dn (fun p n hm => h p n (by simpa only [Goal.Mentions] using hm))
  | .ex vars g, up, dn, h => by
    simp only [Goal.Polar]; exact polar_of_mentions g up dn (fun p n hm => h p n (by simpa only [Goal.Mentions] using hm))
  | .other, up, dn, h => by simp only [Goal.Polar]
theorem polarL_of_mentions : ∀ (gs : List Goal) (up dn : Name → Prop),
    (∀ p n, Goal.MentionsL gs p n → up p ∧ dn p) → Goal.PolarL up dn gs
  | [], up, dn, h => by simp only [Goal.PolarL]
  | g :: gs, up, dn, h => by
    simp only [Goal.PolarL]
    exact ⟨polar_of_mentions g up dn (fun p n hm => h p n (by simp only [Goal.MentionsL]; exact Or.inl hm)),
      polarL_of_mentions gs up dn (fun p n hm => h p n (by simp only [Goal.MentionsL]; exact Or.inr hm))⟩
end

/-- Satisfaction only depends on the mentioned predicates. -/
theorem sat_congr {objects : List Obj} {g : Goal} {S T : Atom → Prop} {env : Env}
    (h : ∀ x : Atom, (∃ n, g.Mentions x.pred n) → (S x ↔ T x)) : Sat objects S env g ↔ Sat objects T env g := by
  have hp : g.Polar (fun p => ∃ n, g.Mentions p n) (fun p => ∃ n, g.Mentions p n) :=
    polar_of_mentions g _ _ (fun p n hm => ⟨⟨n, hm⟩, ⟨n, hm⟩⟩)
  exact ⟨sat_mono objects g S T _ _ env hp (fun x hx => (h x hx).1) (fun x hx => (h x hx).2),
    sat_mono objects g T S _ _ env hp (fun x hx => (h x hx).2) (fun x hx => (h x hx).1)⟩

theorem wellTyped_length {objects params os : List Obj} (h : WellTyped objects params os) :
    params.length = os.length := List.Forall₂.length_eq h

theorem Drv.atom_eq (d : Drv) (os : List Obj) : Atom.ofObjs d.head os = d.atom os := rfl

/-! ## One pass -/

variable [StrHash]

theorem Drv.eval_holds {objects : List Obj} {d : Drv} (hd : d.WF objects) (s : State) {os : List Obj}
    (ho : WellTyped objects d.params os) :
    ∃ b, d.body.eval (ObjMap.create objects) d.params s os = .ok b ∧ (b = true ↔ d.Holds objects (· ∈ s) os) :=
  eval_sat objects s d.body d.params os (wellTyped_length ho) hd.body

/-- The modification for one argument list. -/
def drvStep (b : Bool) (x : Atom) (s : State) : Bool × State := if b then s.insert x else s.erase x

theorem drvStep_mem {b : Bool} {x y : Atom} {s : State} :
    y ∈ (drvStep b x s).2 ↔ (if y = x then b = true else y ∈ s) := by
  unfold drvStep
  cases b <;> by_cases h : y = x <;> simp [h]

theorem drvStep_flag {b : Bool} {x : Atom} {s : State} : (drvStep b x s).1 = false ↔ (x ∈ s ↔ b = true) := by
  unfold drvStep
  cases b <;> simp [State.insert_flag, State.erase_flag]

theorem drvStep_same {b : Bool} {x : Atom} {s : State} (h : (drvStep b x s).1 = false) : (drvStep b x s).2 = s := by
  ext y
  rw [drvStep_mem]
  split
  · rename_i e; subst e; exact (drvStep_flag.1 h).symm
  · rfl

theorem drvPass_cons {m : ObjMap} {d : Drv} {as : List Obj} {rest : List (List Obj)} {s : State} {b : Bool}
    (h : d.body.eval m d.params s as = .ok b) :
    drvPass m d (as :: rest) s =
      (do let r' ← drvPass m d rest (drvStep b (d.atom as) s).2
          pure ((drvStep b (d.atom as) s).1 || r'.1, r'.2)) := by
  simp only [drvPass, h, Res.bind_ok, drvStep, Drv.atom_eq]

section
variable {objects : List Obj}

/-- A pass returns, and only touches head atoms. -/
theorem drvPass_total {d : Drv} (hd : d.WF objects) : ∀ (l : List (List Obj)) (s : State),
    (∀ os ∈ l, WellTyped objects d.params os) →
    ∃ b s', drvPass (ObjMap.create objects) d l s = .ok (b, s') ∧
      (∀ x, (∀ os ∈ l, x ≠ d.atom os) → (x ∈ s' ↔ x ∈ s)) ∧
      (b = false ↔ ∀ os ∈ l, (d.atom os ∈ s ↔ d.Holds objects (· ∈ s) os)) ∧
      (b = false → s' = s)
  | [], s, _ => ⟨false, s, rfl, by simp, by simp, by simp⟩
  | os :: l, s, hl => by
    obtain ⟨b, h1, h2⟩ := d.eval_holds hd s (hl os (by simp))
    obtain ⟨b', s', h3, h4, h5, h6⟩ := drvPass_total hd l (drvStep b (d.atom os) s).2 (fun o ho => hl o (by simp [ho]))
    refine ⟨_, _, by rw [drvPass_cons h1, h3]; rfl, ?_, ?_, ?_⟩
    · intro x hx
      rw [h4 x (fun o ho => hx o (by simp [ho])), drvStep_mem, if_neg (hx os (by simp))]
    · simp only [Bool.or_eq_false_iff, List.mem_cons, forall_eq_or_imp]
      constructor
      · rintro ⟨hf, hb⟩
        have hs := drvStep_same hf
        rw [drvStep_flag, h2] at hf
        refine ⟨hf, ?_⟩
        rw [hs] at h5
        exact h5.1 hb
      · rintro ⟨hf, hb⟩
        have hf' : (drvStep b (d.atom os) s).1 = false := by rw [drvStep_flag, h2]; exact hf
        have hs := drvStep_same hf'
        rw [hs] at h5
        exact ⟨hf', h5.2 hb⟩
    · simp only [Bool.or_eq_false_iff]
      rintro ⟨hf, hb⟩
      rw [h6 hb, drvStep_same hf]

/-- Stability of one rule. -/
def Drv.Stable (objects : List Obj) (d : Drv) (s : State) : Prop :=
  ∀ os, WellTyped objects d.params os → (d.atom os ∈ s ↔ d.Holds objects (· ∈ s) os)

/-- A loop of one rule that returned: the rule is stable, only its heads changed, and without report nothing did. -/
theorem drvFix_ok {d : Drv} (hd : d.WF objects) {l : List (List Obj)}
    (hl : ∀ os, os ∈ l ↔ WellTyped objects d.params os) : ∀ (k : Nat) (s : State) (r : Bool × State),
    drvFix (ObjMap.create objects) d l k s = .ok r →
    d.Stable objects r.2 ∧ (∀ x, (∀ os, WellTyped objects d.params os → x ≠ d.atom os) → (x ∈ r.2 ↔ x ∈ s)) ∧
      (r.1 = false → r.2 = s)
  | 0, s, r, h => by simp [drvFix] at h
  | k + 1, s, r, h => by
    obtain ⟨b, s', h1, h2, h3, h4⟩ := drvPass_total hd l s (fun os ho => (hl os).1 ho)
    simp only [drvFix, h1, Res.bind_ok] at h
    cases b with
    | false =>
      simp only [Bool.false_eq_true, if_false, Res.pure_eq, Res.ok.injEq] at h
      subst h
      have := h4 rfl
      subst this
      exact ⟨fun os ho => h3.1 rfl os ((hl os).2 ho), by simp, by simp⟩
    | true =>
      simp only [if_true, Res.bind_eq_ok, Res.pure_eq, Res.ok.injEq] at h
      obtain ⟨r', h5, rfl⟩ := h
      obtain ⟨h6, h7, -⟩ := drvFix_ok hd hl k s' r' h5
      refine ⟨h6, ?_, by simp⟩
      intro x hx
      rw [h7 x hx]
      exact h2 x (fun os ho => hx os ((hl os).1 ho))

theorem drvFix_stable {d : Drv} (hd : d.WF objects) {l : List (List Obj)}
    (hl : ∀ os, os ∈ l ↔ WellTyped objects d.params os) {k : Nat} {s : State} (h : d.Stable objects s) :
    drvFix (ObjMap.create objects) d l (k + 1) s = .ok (false, s) := by
  obtain ⟨b, s', h1, -, h3, h4⟩ := drvPass_total hd l s (fun os ho => (hl os).1 ho)
  have hb : b = false := h3.2 (fun os ho => h os ((hl os).1 ho))
  subst hb
  rw [h4 rfl] at h1
  simp [drvFix, h1]

theorem Drv.apply_ok {d : Drv} (hd : d.WF objects) {fuel : Nat} {s : State} {r : Bool × State}
    (h : d.apply (ObjMap.create objects) fuel s = .ok r) :
    d.Stable objects r.2 ∧ (∀ x, (∀ os, WellTyped objects d.params os → x ≠ d.atom os) → (x ∈ r.2 ↔ x ∈ s)) ∧
      (r.1 = false → r.2 = s) := by
  obtain ⟨l, h1, h2⟩ := gen_create objects d.params hd.params
  simp only [Drv.apply, h1, Res.bind_ok] at h
  exact drvFix_ok hd h2 _ _ _ h

theorem Drv.apply_stable {d : Drv} (hd : d.WF objects) {fuel : Nat} {s : State} (h : d.Stable objects s) :
    d.apply (ObjMap.create objects) (fuel + 1) s = .ok (false, s) := by
  obtain ⟨l, h1, h2⟩ := gen_create objects d.params hd.params
  simp only [Drv.apply, h1, Res.bind_ok]
  exact drvFix_stable hd h2 h

/-! ## All rules -/

theorem drvsPass_ok {fuel : Nat} : ∀ (ds : List Drv) (s : State) (r : Bool × State), (∀ d ∈ ds, d.WF objects) →
    drvsPass (ObjMap.create objects) fuel ds s = .ok r →
    (∀ x, ¬ IsDerived objects ds x → (x ∈ r.2 ↔ x ∈ s)) ∧
      (r.1 = false → r.2 = s ∧ ∀ d ∈ ds, d.Stable objects s)
  | [], s, r, _, h => by
    simp only [drvsPass, Res.ok.injEq] at h
    subst h
    simp
  | d :: ds, s, r, hd, h => by
    simp only [drvsPass, Res.bind_eq_ok, Res.pure_eq, Res.ok.injEq] at h
    obtain ⟨r1, h1, r2, h2, rfl⟩ := h
    obtain ⟨h3, h4, h5⟩ := Drv.apply_ok (hd d (by simp)) h1
    obtain ⟨h6, h7⟩ := drvsPass_ok ds r1.2 r2 (fun d' hd' => hd d' (by simp [hd'])) h2
    refine ⟨?_, ?_⟩
    · intro x hx
      rw [h6 x (fun ⟨d', hd', os, ho⟩ => hx ⟨d', by simp [hd'], os, ho⟩)]
      exact h4 x (fun os ho he => hx ⟨d, by simp, os, ho, he⟩)
    · simp only [Bool.or_eq_false_iff]
      rintro ⟨hb1, hb2⟩
      obtain ⟨h8, h9⟩ := h7 hb2
      have h10 := h5 hb1
      rw [h10] at h3 h8 h9
      refine ⟨h8, ?_⟩
      intro d' hd'
      rcases List.mem_cons.1 hd' with rfl | hd'
      · exact h3
      · exact h9 d' hd'

theorem drvsPass_stable {fuel : Nat} : ∀ (ds : List Drv) (s : State), (∀ d ∈ ds, d.WF objects) →
    (∀ d ∈ ds, d.Stable objects s) → drvsPass (ObjMap.create objects) (fuel + 1) ds s = .ok (false, s)
  | [], s, _, _ => rfl
  | d :: ds, s, hd, hs => by
    simp [drvsPass, Drv.apply_stable (hd d (by simp)) (hs d (by simp)),
      drvsPass_stable ds s (fun d' h => hd d' (by simp [h])) (fun d' h => hs d' (by simp [h]))]

theorem drvsFix_ok {ds : List Drv} (hd : ∀ d ∈ ds, d.WF objects) {fuel : Nat} : ∀ (k : Nat) (s : State) (r : Bool × State),
    drvsFix (ObjMap.create objects) fuel ds k s = .ok r →
    (∀ d ∈ ds, d.Stable objects r.2) ∧ (∀ x, ¬ IsDerived objects ds x → (x ∈ r.2 ↔ x ∈ s)) ∧ (r.1 = false → r.2 = s)
  | 0, s, r, h => by simp [drvsFix] at h
  | k + 1, s, r, h => by
    simp only [drvsFix, Res.bind_eq_ok] at h
    obtain ⟨r1, h1, h2⟩ := h
    obtain ⟨h3, h4⟩ := drvsPass_ok ds s r1 hd h1
    cases hb : r1.1 with
    | false =>
      simp only [hb, Bool.false_eq_true, if_false, Res.pure_eq, Res.ok.injEq] at h2
      subst h2
      obtain ⟨h5, h6⟩ := h4 hb
      rw [h5]
      exact ⟨h6, by simp, by simp⟩
    | true =>
      simp only [hb, if_true, Res.bind_eq_ok, Res.pure_eq, Res.ok.injEq] at h2
      obtain ⟨r2, h5, rfl⟩ := h2
      obtain ⟨h6, h7, -⟩ := drvsFix_ok hd k r1.2 r2 h5
      exact ⟨h6, fun x hx => by rw [h7 x hx]; exact h3 x hx, by simp⟩

theorem drvsFix_stable {ds : List Drv} (hd : ∀ d ∈ ds, d.WF objects) {fuel k : Nat} {s : State}
    (hs : ∀ d ∈ ds, d.Stable objects s) :
    drvsFix (ObjMap.create objects) (fuel + 1) ds (k + 1) s = .ok (false, s) := by
  simp [drvsFix, drvsPass_stable ds s hd hs]

end

end Symbolic
