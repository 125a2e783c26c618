import Verif.Lemmas.NormalAxioms

/-!
The checked normal form of effects.
-/

namespace Symbolic

variable [StrHash]

theorem CList.dnfA_achieved {objects : List Obj} (hnd : (objects.map Obj.name).Nodup)
    {valid : PartialState → Res Bool} {good : (Atom → Prop) → Prop} (hv : Sound objects valid good) :
    ∀ (e : CList) (params args : List Obj), params.length = args.length → (∀ o ∈ args, o ∈ objects) →
    e.WF objects (params.map Obj.name) → e.Regular objects (Env.none.bind params args) →
    (∀ c, e.HasConst c → c ∈ objects) →
    ∀ ds, e.dnfA valid ⟨objects, ObjMap.create objects, []⟩ params args = .ok ds → (∀ d ∈ ds, GoodDnf objects d) ∧
      (∀ S, (∀ d ∈ ds, DnfTrue objects S (some d)) → AchievedC objects S (Env.none.bind params args) e) ∧
      ∀ S, good S → ((∀ d ∈ ds, DnfTrue objects S (some d)) ↔ AchievedC objects S (Env.none.bind params args) e)
  | .nil, _, _, _, _, _, _, _, ds, h => by
    simp only [CList.dnfA, Res.ok.injEq] at h
    subst h
    simp [AchievedC, MakesC]
  | .cons g e rest, params, args, hlen, hargs, hwf, hnc, hc, ds', h => by
    simp only [CList.WF] at hwf
    simp only [CList.Regular] at hnc
    simp only [CList.HasConst] at hc
    obtain ⟨hre, hcase, hrest⟩ := hnc
    obtain ⟨r, h1, h2, h3⟩ := Eff.dnf_achieved hnd e params args hlen hargs hwf.2.1 hre
      (fun c h => hc c (Or.inr (Or.inl h)))
    have ih := CList.dnfA_achieved hnd hv rest params args hlen hargs hwf.2.2 hrest
      (fun c h => hc c (Or.inr (Or.inr h)))
    have hgr : g.Regular objects (Env.none.bind params args) := by
      rcases hcase with h | ⟨⟨p, ts, rfl⟩, -⟩
      · exact h.1
      · simp [Goal.Regular]
    obtain ⟨rc, g1, g2, g3⟩ := dnf_sat hnd g params args hlen hargs hwf.1 (fun c h => hc c (Or.inl h)) hgr
    -- a normal form that says "if the condition holds, the effect is achieved"
    have hadd : ∀ (d : Dnf) (ds : List Dnf), GoodDnf objects d →
        (∀ S, DnfTrue objects S (some d) →
          (Sat objects S (Env.none.bind params args) g → Achieved objects S (Env.none.bind params args) e)) →
        (∀ S, good S → (DnfTrue objects S (some d) ↔
          (Sat objects S (Env.none.bind params args) g → Achieved objects S (Env.none.bind params args) e))) →
        CList.dnfA valid ⟨objects, ObjMap.create objects, []⟩ rest params args = .ok ds → d :: ds = ds' →
        (∀ x ∈ ds', GoodDnf objects x) ∧
        (∀ S, (∀ x ∈ ds', DnfTrue objects S (some x)) →
          AchievedC objects S (Env.none.bind params args) (.cons g e rest)) ∧
        ∀ S, good S → ((∀ x ∈ ds', DnfTrue objects S (some x)) ↔
          AchievedC objects S (Env.none.bind params args) (.cons g e rest)) := by
      rintro d ds hd hS hS' hds rfl
      obtain ⟨k1, k2, k3⟩ := ih ds hds
      refine ⟨fun x hx => ?_, fun S hx => ?_, fun S hg => ?_⟩
      · rcases List.mem_cons.1 hx with rfl | hx
        · exact hd
        · exact k1 x hx
      · rw [List.forall_mem_cons] at hx
        exact achievedC_cons.2 ⟨hS S hx.1, k2 S hx.2⟩
      · rw [achievedC_cons, ← k3 S hg, ← hS' S hg]
        simp
    have hskip : (∀ S, Sat objects S (Env.none.bind params args) g → Achieved objects S (Env.none.bind params args) e) →
        CList.dnfA valid ⟨objects, ObjMap.create objects, []⟩ rest params args = .ok ds' →
        (∀ x ∈ ds', GoodDnf objects x) ∧
        (∀ S, (∀ x ∈ ds', DnfTrue objects S (some x)) →
          AchievedC objects S (Env.none.bind params args) (.cons g e rest)) ∧
        ∀ S, good S → ((∀ x ∈ ds', DnfTrue objects S (some x)) ↔
          AchievedC objects S (Env.none.bind params args) (.cons g e rest)) := by
      intro h hds
      obtain ⟨k1, k2, k3⟩ := ih ds' hds
      refine ⟨k1, fun S hx => achievedC_cons.2 ⟨h S, k2 S hx⟩, fun S hg => ?_⟩
      rw [achievedC_cons, ← k3 S hg]
      exact ⟨fun hx => ⟨h S, hx⟩, fun hx => hx.2⟩
    simp only [CList.dnfA, g1, Res.bind_ok] at h
    rcases hcase with ⟨-, ⟨S1, hS1⟩, ⟨S0, hS0⟩, ⟨S2, hS2⟩⟩ | ⟨⟨p, ts, rfl⟩, hcase⟩
    · match rc, g2, g3, h with
      | none, g2, _, _ => exact absurd ((g2 S1).2 hS1) (by simp [DnfTrue])
      | some [], g2, _, _ => exact absurd ((g2 S0).1 (Or.inl rfl)) hS0
      | some (c0 :: cond), g2, g3, h =>
        simp only [h1, Res.bind_ok, List.cons_ne_nil, if_false] at h
        obtain ⟨rn, n1, n2, n3⟩ := negateDnf_spec hnd (g3 _ rfl) (List.cons_ne_nil c0 cond)
        simp only [n1, Res.bind_ok] at h
        match rn, n2, n3, h with
        | none, n2, _, _ =>
          exact absurd ((n2 S0).2 (fun h => hS0 ((g2 S0).1 h))) (by simp [DnfTrue])
        | some [], n2, _, _ =>
          exact absurd ((g2 S1).2 hS1) ((n2 S1).1 (Or.inl rfl))
        | some (m0 :: ncond), n2, n3, h =>
          match r, h2, h3, h with
          | none, h2, _, h =>
            simp only [Res.bind_eq_ok, Res.pure_eq, Res.ok.injEq] at h
            obtain ⟨ds, hds, he⟩ := h
            have : ∀ S, DnfTrue objects S (some (m0 :: ncond)) ↔ (Sat objects S (Env.none.bind params args) g →
                Achieved objects S (Env.none.bind params args) e) := by
              intro S
              rw [n2 S, g2 S]
              have := (h2 S).not.1 (by simp [DnfTrue])
              tauto
            exact hadd _ ds (n3 _ rfl) (fun S => (this S).1) (fun S _ => this S) hds he
          | some [], h2, _, _ => exact absurd ((h2 S2).1 (Or.inl rfl)) hS2
          | some (r0 :: rr), h2, h3, h =>
            rw [Res.bind_eq_ok] at h
            obtain ⟨rd, d1, h⟩ := h
            have hck := (disjoinA_spec hnd hv (ds := [m0 :: ncond, r0 :: rr]) (by
              intro d hd
              simp only [List.mem_cons, List.not_mem_nil, or_false] at hd
              rcases hd with rfl | rfl
              · exact n3 _ rfl
              · exact h3 _ rfl) (by simp) (by simp) d1).congr (q := fun S => Sat objects S (Env.none.bind params args) g →
                Achieved objects S (Env.none.bind params args) e) (by
              intro S
              simp only [List.mem_cons, List.not_mem_nil, or_false, exists_eq_or_imp, exists_eq_left]
              rw [n2 S, g2 S, h2 S]
              tauto)
            match rd, hck, h with
            | none, _, h => simp at h
            | some d, hck, h =>
              simp only [Res.bind_eq_ok, Res.pure_eq, Res.ok.injEq] at h
              obtain ⟨ds, hds, he⟩ := h
              exact hadd d ds (hck.lits _ rfl) hck.least hck.exact hds he
    · -- a negated atom whose value does not depend on the state
      have hwa : Goal.WF objects (params.map Obj.name) (.atom p ts) := by simpa [Goal.WF] using hwf.1
      obtain ⟨a, a1, a2, -, a4⟩ := dnfAtom_spec hnd hlen hargs hwa (fun c h => hc c (Or.inl (by
        simpa [Goal.HasConst] using h)))
      have hneg : negateDnf ⟨objects, ObjMap.create objects, []⟩ [⟨State.ofList [a], State.empty⟩] = .ok rc := by
        simp only [Goal.dnf, a1, Res.bind_ok, Res.pure_eq] at g1
        simpa using g1
      obtain ⟨e1, e2⟩ := negateDnf_atom hnd a2 hneg
      have hat : ∀ S, Sat objects S (Env.none.bind params args) (.neg (.atom p ts)) ↔ ¬ AtomTrue objects S a := by
        intro S; rw [a4 S]; simp [Sat]
      rcases hcase with hun | ⟨hval, ⟨S1, hS1⟩⟩
      · have hno : ∀ S, ¬ Sat objects S (Env.none.bind params args) (.neg (.atom p ts)) := fun S h => hun ⟨S, h⟩
        have : rc = none := e1 fun S => by
          have := hno S
          rw [hat S] at this
          exact not_not.1 this
        subst this
        exact hskip (fun S h => absurd h (hno S)) h
      · have hall : ∀ S, Sat objects S (Env.none.bind params args) (.neg (.atom p ts)) := fun S => by
          by_contra h; exact hval ⟨S, h⟩
        have : rc = some [] := e2 fun S => (hat S).1 (hall S)
        subst this
        simp only [h1, Res.bind_ok, if_true] at h
        match r, h2, h3, h with
        | none, h2, _, _ => exact absurd ((h2 S1).2 hS1) (by simp [DnfTrue])
        | some r, h2, h3, h =>
          simp only [Res.bind_eq_ok, Res.pure_eq, Res.ok.injEq] at h
          obtain ⟨ds, hds, he⟩ := h
          have : ∀ S, DnfTrue objects S (some r) ↔ (Sat objects S (Env.none.bind params args) (.neg (.atom p ts)) →
              Achieved objects S (Env.none.bind params args) e) := by
            intro S
            rw [h2 S]
            exact ⟨fun h _ => h, fun h => h (hall S)⟩
          exact hadd r ds (h3 _ rfl) (fun S => (this S).1) (fun S _ => this S) hds he

/-- The checked normal form of a regular effect. -/
theorem Eff.dnfA_achieved {objects : List Obj} (hnd : (objects.map Obj.name).Nodup)
    {valid : PartialState → Res Bool} {good : (Atom → Prop) → Prop} (hv : Sound objects valid good)
    (e : Eff) (params args : List Obj) (hlen : params.length = args.length) (hargs : ∀ o ∈ args, o ∈ objects)
    (hwf : e.WF objects (params.map Obj.name)) (hnc : e.Regular objects (Env.none.bind params args))
    (hc : ∀ c, e.HasConst c → c ∈ objects) {r : Option Dnf}
    (h : e.dnfA valid ⟨objects, ObjMap.create objects, []⟩ params args = .ok r) :
    Checked objects valid good (fun S => Achieved objects S (Env.none.bind params args) e) r := by
  obtain ⟨fs, adds, dels, cs⟩ := e
  simp only [Eff.WF] at hwf
  simp only [Eff.Regular] at hnc
  simp only [Eff.HasConst] at hc
  obtain ⟨hfs, hadds, hdels, hcs⟩ := hwf
  obtain ⟨hnf, hncs⟩ := hnc
  have hach : ∀ S, Achieved objects S (Env.none.bind params args) (.mk fs adds dels cs) ↔
      AchievedF objects S (Env.none.bind params args) fs ∧
      ((∀ x, Lists (Env.none.bind params args) adds x → S x) ∧
      (∀ x, Lists (Env.none.bind params args) dels x → ¬ S x)) ∧
      AchievedC objects S (Env.none.bind params args) cs := by
    intro S
    simp only [Achieved, AchievedF, AchievedC, Makes, true_and, false_and, false_or, Bool.true_eq_false,
      Bool.false_eq_true, or_imp, forall_and]
    tauto
  obtain ⟨r0, h1, h2, h3⟩ := FList.dnf_achieved hnd fs params args hlen hargs hfs hnf (fun c h => hc c (Or.inl h))
  obtain ⟨pos, p1, p2, p3⟩ := dnfSimple_spec hnd hlen hargs adds State.empty hadds
    (fun c p t h h' => hc c (Or.inr (Or.inl ⟨p, t, h, h'⟩))) (by simp)
  obtain ⟨neg, n1, n2, n3⟩ := dnfSimple_spec hnd hlen hargs dels State.empty hdels
    (fun c p t h h' => hc c (Or.inr (Or.inr (Or.inl ⟨p, t, h, h'⟩)))) (by simp)
  simp only [Eff.dnfA, h1, Res.bind_ok] at h
  match r0, h2, h3, h with
  | none, h2, _, h =>
    simp only [Res.pure_eq, Res.ok.injEq] at h
    subst h
    exact Checked.none fun S hS => h2 rfl S ((hach S).1 hS).1
  | some ds, _, h3, h =>
    obtain ⟨j1, j2⟩ := h3 ds rfl
    simp only [p1, n1, Res.bind_ok, Res.bind_eq_ok] at h
    obtain ⟨es, c0, h⟩ := h
    obtain ⟨c1, c2, c3⟩ := CList.dnfA_achieved hnd hv cs params args hlen hargs hcs hncs
      (fun c h => hc c (Or.inr (Or.inr (Or.inr h)))) es c0
    have hct : ∀ S, ConjTrue objects S ⟨pos, neg⟩ ↔ (∀ x, Lists (Env.none.bind params args) adds x → S x) ∧
        (∀ x, Lists (Env.none.bind params args) dels x → ¬ S x) := by
      intro S
      unfold ConjTrue
      refine and_congr ?_ ?_
      · refine forall_congr' fun x => ?_
        rw [p2 x]
        simp only [State.not_mem_empty, false_or]
        constructor
        · intro h hx
          have := p3 x ((p2 x).2 (Or.inr hx))
          exact (atomTrue_plain this.2.1 this.2.2).1 (h hx)
        · intro h hx
          have := p3 x ((p2 x).2 (Or.inr hx))
          exact (atomTrue_plain this.2.1 this.2.2).2 (h hx)
      · refine forall_congr' fun x => ?_
        rw [n2 x]
        simp only [State.not_mem_empty, false_or]
        constructor
        · intro h hx hS
          have := n3 x ((n2 x).2 (Or.inr hx))
          exact h hx ((atomTrue_plain this.2.1 this.2.2).2 hS)
        · intro h hx hS
          have := n3 x ((n2 x).2 (Or.inr hx))
          exact h hx ((atomTrue_plain this.2.1 this.2.2).1 hS)
    have hie : ∀ s : State, s.isEmpty = true ↔ ∀ a, a ∉ s := by
      intro s
      have : s.isEmpty = decide (s.size = 0) := rfl
      rw [this, decide_eq_true_eq, State.size_eq, List.length_eq_zero_iff, List.eq_nil_iff_forall_not_mem]
      simp only [State.mem_elems]
    -- the disjuncts of the quantified and plain effects
    obtain ⟨ds2, hds2, hg2, hS2⟩ : ∃ ds2, (if (!pos.isEmpty || !neg.isEmpty) = true then ds ++ [[⟨pos, neg⟩]] else ds) = ds2 ∧
        (∀ d ∈ ds2, GoodDnf objects d) ∧ ∀ S, (∀ d ∈ ds2, DnfTrue objects S (some d)) ↔
          (∀ d ∈ ds, DnfTrue objects S (some d)) ∧ ConjTrue objects S ⟨pos, neg⟩ := by
      refine ⟨_, rfl, ?_, ?_⟩
      · split
        · rename_i hb
          intro d hd
          rcases List.mem_append.1 hd with hd | hd
          · exact j1 d hd
          · simp only [List.mem_singleton] at hd
            subst hd
            intro c hcm
            simp only [List.mem_singleton] at hcm
            subst hcm
            refine ⟨⟨fun a ha => (p3 a ha).1, fun a ha => (n3 a ha).1⟩, ?_⟩
            rw [Bool.or_eq_true, Bool.not_eq_true', Bool.not_eq_true'] at hb
            rcases hb with h | h
            · left
              by_contra hno
              have := (hie pos).2 (fun a ha => hno ⟨a, ha⟩)
              rw [this] at h; simp at h
            · right
              by_contra hno
              have := (hie neg).2 (fun a ha => hno ⟨a, ha⟩)
              rw [this] at h; simp at h
        · exact j1
      · intro S
        split
        · simp only [List.mem_append, List.mem_singleton, or_imp, forall_and, forall_eq]
          simp [DnfTrue, SomeTrue]
        · rename_i hb
          rw [Bool.not_eq_true, Bool.or_eq_false_iff, Bool.not_eq_false', Bool.not_eq_false', hie, hie] at hb
          have : ConjTrue objects S ⟨pos, neg⟩ := ⟨fun a ha => absurd ha (hb.1 a), fun a ha => absurd ha (hb.2 a)⟩
          simp [this]
    rw [hds2] at h
    have hck := conjoinA_spec hnd hv (ds := ds2 ++ es) (by
      intro d hd
      rcases List.mem_append.1 hd with hd | hd
      · exact hg2 d hd
      · exact c1 d hd) h
    have happ : ∀ S, (∀ d ∈ ds2 ++ es, DnfTrue objects S (some d)) ↔
        (AchievedF objects S (Env.none.bind params args) fs ∧
        ((∀ x, Lists (Env.none.bind params args) adds x → S x) ∧
        (∀ x, Lists (Env.none.bind params args) dels x → ¬ S x))) ∧ ∀ d ∈ es, DnfTrue objects S (some d) := by
      intro S
      rw [← hct S, ← j2 S, ← hS2 S]
      simp only [List.mem_append, or_imp, forall_and]
    refine ⟨fun S hS => ?_, fun S hS => ?_, hck.accepted, hck.lits⟩
    · have := (happ S).1 (hck.least S hS)
      exact (hach S).2 ⟨this.1.1, this.1.2, c2 S this.2⟩
    · rw [hck.exact S hS, happ, hach, c3 S hS]
      tauto

end Symbolic
