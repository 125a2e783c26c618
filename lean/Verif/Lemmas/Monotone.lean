import Verif.Lemmas.KeepAxioms
import Verif.Lemmas.CascadeCompare
import Verif.Lemmas.IterRel
import Verif.Spec.Monotone

/-!
# Lemmas: domains without deletes are monotone
-/

namespace Symbolic

variable {neg : Name → Prop} {S T : Atom → Prop} {objects : List Obj}

theorem SubState.refl (S : Atom → Prop) : SubState neg S S := ⟨fun _ h => h, fun _ _ h => h⟩

theorem SubState.sat (h : SubState neg S T) {g : Goal} (hg : g.Polar (fun _ => True) neg) {env : Env} (hs : Sat objects S env g) :
    Sat objects T env g :=
  sat_mono objects g S T _ _ env hg (fun x _ => h.sub x) h.same hs

mutual
theorem SubState.makes (h : SubState neg S T) (sign : Bool) : ∀ (e : Eff) (env : Env) (x : Atom), e.CondsPolar neg →
    Makes objects S sign env e x → Makes objects T sign env e x
  | .mk fs adds dels cs, env, x, hc, hm => by
    simp only [Eff.CondsPolar] at hc
    simp only [Makes] at hm ⊢
    rcases hm with hm | hm | hm | hm
    · exact .inl (SubState.makesF h sign fs env x hc.1 hm)
    · exact .inr (.inl hm)
    · exact .inr (.inr (.inl hm))
    · exact .inr (.inr (.inr (SubState.makesC h sign cs env x hc.2 hm)))
theorem SubState.makesF (h : SubState neg S T) (sign : Bool) : ∀ (fs : FList) (env : Env) (x : Atom), fs.CondsPolar neg →
    MakesF objects S sign env fs x → MakesF objects T sign env fs x
  | .nil, env, x, hc, hm => by simp only [MakesF] at hm
  | .cons vars e rest, env, x, hc, hm => by
    simp only [FList.CondsPolar] at hc
    simp only [MakesF] at hm ⊢
    rcases hm with ⟨os, hw, hm⟩ | hm
    · exact .inl ⟨os, hw, SubState.makes h sign e _ x hc.1 hm⟩
    · exact .inr (SubState.makesF h sign rest env x hc.2 hm)
theorem SubState.makesC (h : SubState neg S T) (sign : Bool) : ∀ (cs : CList) (env : Env) (x : Atom), cs.CondsPolar neg →
    MakesC objects S sign env cs x → MakesC objects T sign env cs x
  | .nil, env, x, hc, hm => by simp only [MakesC] at hm
  | .cons g e rest, env, x, hc, hm => by
    simp only [CList.CondsPolar] at hc
    simp only [MakesC] at hm ⊢
    rcases hm with ⟨hs, hm⟩ | hm
    · exact .inl ⟨h.sat hc.1 hs, SubState.makes h sign e env x hc.2.1 hm⟩
    · exact .inr (SubState.makesC h sign rest env x hc.2.2 hm)
end

/-! ## Actions and axioms -/

section
variable [StrHash] {t : Ptree} {P : Pddl} {up : Name → List Name}

omit [StrHash] in
theorem Ptree.DeleteFree.causes (hD : t.DeleteFree neg) {so : Bool → Atom → Prop} {op : Op} (ho : op ∈ t.ops) {args : List Obj}
    {sign : Bool} {x : Atom} (h : t.Causes S so op args sign x) : sign = true ∧ ∃ op' ∈ t.ops, op'.eff.Touches true x.pred := by
  have key : ∃ op' ∈ t.ops, op'.eff.Touches sign x.pred := by
    cases h with
    | own h => exact ⟨op, ho, touches_of_makes _ _ _ _ _ _ h⟩
    | triggered h1 _ _ _ _ h => exact ⟨_, h1, touches_of_makes _ _ _ _ _ _ h⟩
  obtain ⟨op', h1, h2⟩ := key
  cases sign
  · exact absurd h2 (hD.deletes op' h1 _)
  · exact ⟨rfl, op', h1, h2⟩

omit [StrHash] in
theorem Ptree.DeleteFree.free (hD : t.DeleteFree neg) {so : Bool → Atom → Prop} {op : Op} (ho : op ∈ t.ops) {args : List Obj} :
    NoConflict (t.Causes S so op args) :=
  fun _ _ h => absurd (hD.causes ho h).1 (by simp)

omit [StrHash] in
theorem Ptree.DeleteFree.unread (hD : t.DeleteFree neg) {so : Bool → Atom → Prop} {op : Op} (ho : op ∈ t.ops) {args : List Obj} :
    t.NotRead op (t.Causes S so op args) := by
  intro sign x h
  obtain ⟨-, op', h1, h2⟩ := hD.causes ho h
  exact ⟨fun hr => hD.reads op ho _ hr op' h1 h2, fun ax hax _ hr => hD.reads ax hax _ hr op' h1 h2⟩

/-- What is caused in a smaller state is caused in, or part of, a larger one in which the axioms hold. -/
theorem Ptree.DeleteFree.causes_mono (hD : t.DeleteFree neg) (B : P.Built t) (ht : t.TypeChecked up) (hp : t.PlainEffects)
    (h : SubState neg S T) (hA : AxiomsHold (t.constants ++ t.objects) t.ops T) {op : Op} (ho : op ∈ t.ops) {args : List Obj}
    (hw : WellTyped (t.constants ++ t.objects) op.params args) {x : Atom} (hx : t.CausesIn S op args true x) :
    t.CausesIn T op args true x ∨ T x := by
  have hT : t.Causes T (Is S) op args true x := hx.mono ho hw
    (fun ax hax _ as _ sign y hy => h.makes sign ax.eff _ y (hD.conds ax hax) hy) (fun _ _ h => h)
  exact (Ptree.Causes.known ht hp B.contexts ho hw hA hT).imp id fun h => h.2 rfl

/-- Applying an operator is monotone and keeps the axioms. -/
theorem Ptree.DeleteFree.apply (hD : t.DeleteFree neg) (B : P.Built t) (ht : t.TypeChecked up) (hp : t.PlainEffects) {op : Op}
    (ho : op ∈ t.ops) {args : List Obj} (hw : WellTyped (t.constants ++ t.objects) op.params args) {s s' : State}
    (h : SubState neg (· ∈ s) (· ∈ s')) (hA : AxiomsHold (t.constants ++ t.objects) t.ops (· ∈ s')) {fuel fuel' k k' : Nat}
    {r r' : State} (e : op.apply P.omap P.axioms fuel args s = .ok (k, r))
    (e' : op.apply P.omap P.axioms fuel' args s' = .ok (k', r')) :
    SubState neg (· ∈ r) (· ∈ r') ∧ AxiomsHold (t.constants ++ t.objects) t.ops (· ∈ r') := by
  have run : ∀ {s r : State} {fuel k : Nat}, op.apply P.omap P.axioms fuel args s = .ok (k, r) →
      (∀ x, x ∈ r ↔ t.CausesIn (· ∈ s) op args true x ∨ (x ∈ s ∧ ¬ t.CausesIn (· ∈ s) op args false x)) := by
    intro s r fuel k e
    obtain ⟨k', r', e', hm, -⟩ := B.cascade_state ht hp ho hw (s := s) (hD.free ho) (hD.unread ho)
      (Nat.le_max_right fuel (declaredLits (t.constants ++ t.objects) t.preds).length)
    rw [Op.apply_mono P.omap P.axioms op args s (Nat.le_max_left fuel _) (by rw [e]; simp), e, Res.ok.injEq, Prod.mk.injEq] at e'
    obtain ⟨-, rfl⟩ := e'
    exact hm
  have hm := run e
  have hm' := run e'
  refine ⟨⟨fun x hx => ?_, fun x hn hx => ?_⟩, ?_⟩
  · show x ∈ r'
    have no : ¬ t.CausesIn (· ∈ s') op args false x := fun h => absurd (hD.causes ho h).1 (by simp)
    rw [hm']
    rcases (hm x).1 hx with hx | hx
    · rcases hD.causes_mono B ht hp h hA ho hw hx with hx | hx
      · exact .inl hx
      · exact .inr ⟨hx, no⟩
    · exact .inr ⟨h.sub x hx.1, no⟩
  · show x ∈ r
    rw [hm]
    rcases (hm' x).1 hx with hx | hx
    · obtain ⟨-, op', h1, h2⟩ := hD.causes ho hx
      exact absurd hn (hD.adds op' h1 _ h2)
    · exact .inr ⟨h.same x hn hx.1, fun h => absurd (hD.causes ho h).1 (by simp)⟩
  · rw [B.keeps_axioms ht hp (hD.unread ho) (hD.free ho) hm' hA]
    rintro ⟨ax, h1, h2, as, -, -, sign, y, h5, h6⟩
    have h7 := (hD.causes ho h6).1
    have h8 := touches_of_makes _ _ _ _ _ _ h5
    cases sign
    · exact hD.deletes ax h1 _ h8
    · simp at h7

/-! ## Derived predicates -/

theorem drvPass_below {d : Drv} (hd : d.WF objects) (hb : d.body.Polar (fun _ => True) neg) (hh : ¬ neg d.head) :
    ∀ (l : List (List Obj)), (∀ os ∈ l, WellTyped objects d.params os) →
      KeepsRel (fun s s' => SubState neg (· ∈ s) (· ∈ s')) (drvPass (ObjMap.create objects) d l) (drvPass (ObjMap.create objects) d l)
  | [], _, s, s', r, r', h, e, e' => by
    simp only [drvPass, Res.ok.injEq] at e e'
    subst e; subst e'
    exact h
  | as :: l, hl, s, s', r, r', h, e, e' => by
    have hw := hl as (by simp)
    obtain ⟨v, hv, hs⟩ := eval_sat objects s d.body d.params as hw.length hd.body
    obtain ⟨v', hv', hs'⟩ := eval_sat objects s' d.body d.params as hw.length hd.body
    rw [drvPass_cons hv] at e
    rw [drvPass_cons hv'] at e'
    simp only [Res.bind_eq_ok, Res.pure_eq, Res.ok.injEq] at e e'
    obtain ⟨q, e, rfl⟩ := e
    obtain ⟨q', e', rfl⟩ := e'
    refine drvPass_below hd hb hh l (fun os ho => hl os (by simp [ho])) _ _ q q' ?_ e e'
    have hvv : v = true → v' = true := fun hv => hs'.2 (h.sat hb (hs.1 hv))
    have hne : ∀ x : Atom, neg x.pred → x ≠ d.atom as := by
      rintro x hx rfl
      exact hh hx
    refine ⟨fun x hx => ?_, fun x hn hx => ?_⟩
    · have hx : x ∈ (drvStep v (d.atom as) s).2 := hx
      show x ∈ (drvStep v' (d.atom as) s').2
      cases v <;> cases v' <;> simp [drvStep] at hx hvv ⊢
      · exact ⟨hx.1, h.sub x hx.2⟩
      · exact .inr (h.sub x hx.2)
      · exact hx.imp id (h.sub x)
    · have hx : x ∈ (drvStep v' (d.atom as) s').2 := hx
      show x ∈ (drvStep v (d.atom as) s).2
      have := hne x hn
      cases v <;> cases v' <;> simp [drvStep, this] at hx hvv ⊢ <;> exact h.same x hn hx

/-- Computing derived predicates anew is monotone, with recursive rules too. -/
theorem drvsFix_below {ds : List Drv} (hd : ∀ d ∈ ds, d.WF objects)
    (hb : ∀ d ∈ ds, d.body.Polar (fun _ => True) neg ∧ ¬ neg d.head) {fuel fuel' k k' : Nat} {s s' : State} {r r' : Bool × State}
    (h : SubState neg (· ∈ s) (· ∈ s')) (e : drvsFix (ObjMap.create objects) fuel ds k s = .ok r)
    (e' : drvsFix (ObjMap.create objects) fuel' ds k' s' = .ok r') : SubState neg (· ∈ r.2) (· ∈ r'.2) :=
  drvsFix_keeps (Rel := fun s s' => SubState neg (· ∈ s) (· ∈ s'))
    (fun d hm l hl => drvPass_below (hd d hm) (hb d hm).1 (hb d hm).2 l (fun _ ho => gen_mem hl ho)) h e e'

end

end Symbolic
