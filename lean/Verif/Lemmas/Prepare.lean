import Verif.Lemmas.Construct
import Verif.Lemmas.NormalSat

/-!
The argument lists an axiom keeps at construction.
-/

namespace Symbolic

variable [StrHash]

theorem prepareLoop_ok {c : NfCtx} {pre : Goal} {params : List Obj} : ∀ {l kept : List (List Obj)},
    prepareLoop c pre params l = .ok kept →
    ∀ as, as ∈ kept ↔ as ∈ l ∧ ∃ d, pre.dnf c params as = .ok (some d)
  | [], kept, h, as => by
    simp only [prepareLoop, Res.ok.injEq] at h
    subst h; simp
  | bs :: l, kept, h, as => by
    simp only [prepareLoop, Res.bind_eq_ok, Res.pure_eq, Res.ok.injEq] at h
    obtain ⟨d, h1, r, h2, h3⟩ := h
    have ih := prepareLoop_ok h2 as
    match d, h1, h3 with
    | none, h1, h3 =>
      simp only at h3
      subst h3
      rw [ih]
      constructor
      · rintro ⟨h4, h5⟩; exact ⟨by simp [h4], h5⟩
      · rintro ⟨h4, h5⟩
        rcases List.mem_cons.1 h4 with rfl | h4
        · obtain ⟨d, h5⟩ := h5; rw [h1] at h5; simp at h5
        · exact ⟨h4, h5⟩
    | some d, h1, h3 =>
      simp only at h3
      subst h3
      rw [List.mem_cons, ih]
      constructor
      · rintro (rfl | ⟨h4, h5⟩)
        · exact ⟨by simp, d, h1⟩
        · exact ⟨by simp [h4], h5⟩
      · rintro ⟨h4, h5⟩
        rcases List.mem_cons.1 h4 with rfl | h4
        · exact Or.inl rfl
        · exact Or.inr ⟨h4, h5⟩

omit [StrHash] in
theorem contextOf_regular {g : Goal} {r : Bool × Name × List Obj} (h : contextOf g = .ok r) (objects : List Obj) (env : Env) :
    g.Regular objects env := by
  unfold contextOf at h
  split at h
  · simp [Goal.Regular]
  · simp [Goal.Regular]
  · simp at h

/-- The instances of an axiom: a well-typed argument list is kept, or its context holds in no state. -/
theorem Pddl.Built.arguments {P : Pddl} {t : Ptree} (B : P.Built t)
    (hnd : ((t.constants ++ t.objects).map Obj.name).Nodup) {ax : Ax} (hax : ax ∈ P.axioms)
    (hp : ax.op.params ≠ []) (hwf : ax.op.pre.WF (t.constants ++ t.objects) (ax.op.params.map Obj.name))
    (hc : ∀ c, ax.op.pre.HasConst c → c ∈ t.constants ++ t.objects) :
    (∀ as ∈ ax.arguments, WellTyped (t.constants ++ t.objects) ax.op.params as) ∧
    ∀ as, WellTyped (t.constants ++ t.objects) ax.op.params as → as ∉ ax.arguments →
      ∀ S, ¬ Sat (t.constants ++ t.objects) S (Env.none.bind ax.op.params as) ax.op.pre := by
  obtain ⟨-, -, h3, tuples, h4, h5⟩ := B.ax hax
  rw [B.omap] at h4 h5
  have hm := fun as => mem_gen_create (args := as) hp h4
  have hk := prepareLoop_ok h5
  refine ⟨fun as ha => (hm as).1 ((hk as).1 ha).1, ?_⟩
  intro as hw hn S hs
  obtain ⟨r, k1, k2, -⟩ := dnf_sat hnd ax.op.pre ax.op.params as hw.length (fun o ho => (hw.mem ho).1) hwf hc
    (contextOf_regular h3 _ _)
  cases r with
  | none => exact (k2 S).2 hs
  | some d => exact hn ((hk as).2 ⟨(hm as).2 hw, d, k1⟩)

end Symbolic
