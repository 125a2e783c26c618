import Verif.Lemmas.NormalForm

/-!
The normal form of a regular formula means the same as the formula.
-/

namespace Symbolic

variable [StrHash]

omit [StrHash] in
theorem resolve_split {p : Obj} : ∀ (ps as : List Obj) (d : Obj), ps.length = as.length →
    (resolve p ps as d = d ∧ p.name ∉ ps.map Obj.name) ∨ resolve p ps as d ∈ as
  | [], [], d, _ => by simp [resolve]
  | [], _ :: _, _, h => by simp at h
  | _ :: _, [], _, h => by simp at h
  | q :: ps, a :: as, d, h => by
    simp only [resolve]
    have hl : ps.length = as.length := by simpa using h
    by_cases hs : p.same q = true
    · rw [if_pos hs]
      rcases resolve_split (p := p) ps as a hl with ⟨h1, -⟩ | h1
      · right; rw [h1]; simp
      · right; simp [h1]
    · rw [if_neg hs]
      rcases resolve_split (p := p) ps as d hl with ⟨h1, h2⟩ | h1
      · left
        refine ⟨h1, ?_⟩
        have : p.name ≠ q.name := by simpa [Obj.same] using hs
        simp only [List.map_cons, List.mem_cons, not_or]
        exact ⟨this, h2⟩
      · right; simp [h1]

omit [StrHash] in
theorem value_declared {objects params args : List Obj} (hlen : params.length = args.length)
    (hargs : ∀ o ∈ args, o ∈ objects) {t : Term} (ht : t.Scoped (params.map Obj.name))
    (hc : ∀ c, t = .const c → c ∈ objects) : t.value params args ∈ objects := by
  cases t with
  | var v =>
    rcases resolve_split (p := v) params args v hlen with ⟨-, h⟩ | h
    · exact absurd ht h
    · exact hargs _ h
  | const c =>
    have : Term.value params args (.const c) = c := resolve_not_mem c params args c ht
    rw [this]; exact hc c rfl

omit [StrHash] in
/-- The ground atom of a simple formula. -/
theorem dnfAtom_spec {objects params args : List Obj} (hnd : (objects.map Obj.name).Nodup)
    (hlen : params.length = args.length) (hargs : ∀ o ∈ args, o ∈ objects) {pred : Name} {ts : List Term}
    (hwf : Goal.WF objects (params.map Obj.name) (.atom pred ts)) (hc : ∀ c, Term.const c ∈ ts → c ∈ objects) :
    ∃ a, dnfAtom params pred ts args = .ok a ∧ a.Ground objects ∧
      a = ⟨pred, (ts.map (Term.value params args)).map Obj.name⟩ ∧
      ∀ S, AtomTrue objects S a ↔ SatAtom objects S (Env.none.bind params args) pred ts := by
  simp only [Goal.WF] at hwf
  obtain ⟨hs, heq, hty⟩ := hwf
  have hv : ∀ t ∈ ts, t.value params args ∈ objects := fun t ht =>
    value_declared hlen hargs (hs t ht) (fun c h => hc c (h ▸ ht))
  refine ⟨⟨pred, (ts.map (Term.value params args)).map Obj.name⟩, ?_, ?_, rfl, ?_⟩
  · simp [dnfAtom, applyFn_terms params args ts (le_of_eq hlen), Atom.ofObjs]
  · constructor
    · intro n hn
      simp only [List.mem_map, exists_exists_and_eq_and] at hn
      obtain ⟨t, ht, rfl⟩ := hn
      exact List.mem_map.2 ⟨_, hv t ht, rfl⟩
    · intro h; simpa using heq h
    · intro h1 h2; simpa using hty h1 h2
  · intro S
    have hden := fun t ht => denotes_value (params := params) (args := args) hlen (hs t ht)
    unfold AtomTrue SatAtom
    refine or_congr ?_ (or_congr ?_ ?_)
    · refine and_congr_right fun h => ?_
      have := heq h
      match ts, this with
      | [t₁, t₂], _ =>
        constructor
        · rintro ⟨x, hx⟩
          simp only [List.map_cons, List.map_nil, List.cons.injEq, and_true] at hx
          exact ⟨t₁, t₂, _, _, rfl, (hden t₁ (by simp) _).2 rfl, (hden t₂ (by simp) _).2 rfl, hx.1.trans hx.2.symm⟩
        · rintro ⟨u₁, u₂, o₁, o₂, hu, h1, h2, h3⟩
          simp only [List.cons.injEq, and_true] at hu
          obtain ⟨rfl, rfl⟩ := hu
          rw [hden _ (by simp)] at h1 h2
          subst h1; subst h2
          exact ⟨_, by simp [h3]; rfl⟩
    · refine and_congr_right fun h => and_congr_right fun h' => ?_
      have := hty h h'
      match ts, this with
      | [t], _ =>
        have hvt := hv t (by simp)
        constructor
        · rintro ⟨o, ho, hon, hot⟩
          simp only [List.map_cons, List.map_nil, List.cons.injEq, and_true] at hon
          have := name_inj hnd hvt ho hon
          exact ⟨t, o, rfl, (hden t (by simp) o).2 this.symm, hot⟩
        · rintro ⟨u, o, hu, h1, h2⟩
          simp only [List.cons.injEq, and_true] at hu
          subst hu
          rw [hden _ (by simp)] at h1
          subst h1
          exact ⟨_, hvt, by simp, h2⟩
    · refine and_congr_right fun h => and_congr_right fun h' => ?_
      constructor
      · intro hS
        exact ⟨_, (forall₂_denotes hlen hs _).2 rfl, hS⟩
      · rintro ⟨os, ho, hS⟩
        rw [forall₂_denotes hlen hs] at ho
        subst ho
        exact hS

theorem dnfLoop_all {f : List Obj → Res (Option Dnf)} {objects : List Obj}
    {p : (Atom → Prop) → List Obj → Prop} : ∀ {l : List (List Obj)}
    (_ : ∀ os ∈ l, ∃ r, f os = .ok r ∧ (∀ S, DnfTrue objects S r ↔ p S os) ∧ ∀ d, r = some d → GoodDnf objects d),
    ∃ r, dnfLoop true f l = .ok r ∧ (r = none → ∀ S, ¬ ∀ os ∈ l, p S os) ∧
      ∀ ds, r = some ds → (∀ d ∈ ds, GoodDnf objects d) ∧
        ∀ S, (∀ d ∈ ds, DnfTrue objects S (some d)) ↔ ∀ os ∈ l, p S os
  | [], _ => ⟨some [], rfl, by simp, by rintro ds h; cases h; simp⟩
  | os :: l, h => by
    obtain ⟨r, h1, h2, h3⟩ := h os (by simp)
    obtain ⟨r', k1, k2, k3⟩ := dnfLoop_all (l := l) (fun os ho => h os (by simp [ho]))
    unfold dnfLoop
    simp only [h1, Res.bind_ok]
    match r, h2, h3 with
    | none, h2, _ =>
      refine ⟨none, by simp, ?_, by simp⟩
      intro _ S hall
      exact ((h2 S).2 (hall os (by simp))).elim
    | some d, h2, h3 =>
      simp only [k1, Res.bind_ok, Res.pure_eq]
      match r', k2, k3 with
      | none, k2, _ =>
        refine ⟨none, rfl, ?_, by simp⟩
        intro _ S hall
        exact k2 rfl S (fun os ho => hall os (by simp [ho]))
      | some ds, _, k3 =>
        refine ⟨some (d :: ds), rfl, by simp, ?_⟩
        rintro ds' hds
        cases hds
        obtain ⟨j1, j2⟩ := k3 ds rfl
        refine ⟨?_, ?_⟩
        · intro d' hd'
          rcases List.mem_cons.1 hd' with rfl | hd'
          · exact h3 _ rfl
          · exact j1 d' hd'
        · intro S
          rw [List.forall_mem_cons, List.forall_mem_cons, h2 S, j2 S]

theorem dnfLoop_ex {f : List Obj → Res (Option Dnf)} {objects : List Obj}
    {p : (Atom → Prop) → List Obj → Prop} : ∀ {l : List (List Obj)}
    (_ : ∀ os ∈ l, ∃ r, f os = .ok r ∧ (∀ S, DnfTrue objects S r ↔ p S os) ∧ ∀ d, r = some d → GoodDnf objects d),
    ∃ ds, dnfLoop false f l = .ok (some ds) ∧ (∀ d ∈ ds, GoodDnf objects d) ∧
      (∀ S, (∃ d ∈ ds, DnfTrue objects S (some d)) ↔ ∃ os ∈ l, p S os) ∧
      ∀ d ∈ ds, ∃ os ∈ l, ∀ S, DnfTrue objects S (some d) ↔ p S os
  | [], _ => ⟨[], rfl, by simp⟩
  | os :: l, h => by
    obtain ⟨r, h1, h2, h3⟩ := h os (by simp)
    obtain ⟨ds, k1, k2, k3, k4⟩ := dnfLoop_ex (l := l) (fun os ho => h os (by simp [ho]))
    unfold dnfLoop
    simp only [h1, Res.bind_ok, k1]
    match r, h2, h3 with
    | none, h2, _ =>
      refine ⟨ds, by simp, k2, ?_, fun d hd => ?_⟩
      · intro S
        rw [k3 S]
        simp only [List.mem_cons, exists_eq_or_imp, ← h2 S, DnfTrue, false_or]
      · obtain ⟨os', ho, hh⟩ := k4 d hd
        exact ⟨os', by simp [ho], hh⟩
    | some d, h2, h3 =>
      refine ⟨d :: ds, by simp, ?_, ?_, ?_⟩
      · intro d' hd'
        rcases List.mem_cons.1 hd' with rfl | hd'
        · exact h3 _ rfl
        · exact k2 d' hd'
      · intro S
        simp only [List.mem_cons, exists_eq_or_imp, h2 S, k3 S]
      · intro d' hd'
        rcases List.mem_cons.1 hd' with rfl | hd'
        · exact ⟨os, by simp, h2⟩
        · obtain ⟨os', ho, hh⟩ := k4 d' hd'
          exact ⟨os', by simp [ho], hh⟩

omit [StrHash] in
theorem args_append_mem {objects vars args os : List Obj} (hargs : ∀ o ∈ args, o ∈ objects)
    (hos : WellTyped objects vars os) : ∀ o ∈ args ++ os, o ∈ objects := by
  intro o ho
  rcases List.mem_append.1 ho with h | h
  · exact hargs o h
  · exact (hos.mem h).1

/-- Negating the normal form of an atom or of a formula that is false somewhere. -/
theorem negate_result {objects : List Obj} (hnd : (objects.map Obj.name).Nodup) {r : Option Dnf}
    {p : (Atom → Prop) → Prop} (h1 : ∀ S, DnfTrue objects S r ↔ p S) (h2 : ∀ d, r = some d → GoodDnf objects d)
    (h3 : r ≠ some []) {c : NfCtx} (hc : c = ⟨objects, ObjMap.create objects, []⟩) :
    ∃ r', (match r with | none => pure (some []) | some d => negateDnf c d : Res (Option Dnf)) = .ok r' ∧
      (∀ S, DnfTrue objects S r' ↔ ¬ p S) ∧ ∀ d, r' = some d → GoodDnf objects d := by
  subst hc
  match r, h1, h2, h3 with
  | none, h1, _, _ =>
    refine ⟨some [], rfl, ?_, ?_⟩
    · intro S
      rw [← h1 S]; simp [DnfTrue]
    · rintro d h; cases h; intro c hc; simp at hc
  | some d, h1, h2, h3 =>
    obtain ⟨r', k1, k2, k3⟩ := negateDnf_spec hnd (h2 d rfl) (fun h => h3 (by rw [h]))
    refine ⟨r', k1, ?_, k3⟩
    intro S
    rw [k2, h1]

mutual
/-- The normal form of a regular formula is computed without exceptions and has the formula's meaning. -/
theorem dnf_sat {objects : List Obj} (hnd : (objects.map Obj.name).Nodup) : ∀ (g : Goal) (params args : List Obj),
    params.length = args.length → (∀ o ∈ args, o ∈ objects) → Goal.WF objects (params.map Obj.name) g →
    (∀ c, g.HasConst c → c ∈ objects) → Goal.Regular objects (Env.none.bind params args) g →
    ∃ r, g.dnf ⟨objects, ObjMap.create objects, []⟩ params args = .ok r ∧
      (∀ S, DnfTrue objects S r ↔ Sat objects S (Env.none.bind params args) g) ∧
      ∀ l, r = some l → GoodDnf objects l
  | .atom pred ts, params, args, hlen, hargs, hwf, hc, _ => by
    obtain ⟨a, h1, h2, -, h4⟩ := dnfAtom_spec hnd hlen hargs hwf (fun c h => hc c (by simpa [Goal.HasConst] using h))
    refine ⟨some [⟨State.ofList [a], State.empty⟩], by simp [Goal.dnf, h1], ?_, ?_⟩
    · intro S
      simp [DnfTrue, SomeTrue, ConjTrue, Sat, h4]
    · rintro l h; cases h
      intro c hcm
      simp only [List.mem_singleton] at hcm
      subst hcm
      exact ⟨⟨by simpa using h2, by simp⟩, Or.inl ⟨a, by simp⟩⟩
  | .conj gs, params, args, hlen, hargs, hwf, hc, hr => by
    obtain ⟨r, h1, h2, h3⟩ := dnfAll_sat hnd gs params args hlen hargs (by simpa [Goal.WF] using hwf)
      (by simpa [Goal.HasConst] using hc) (by simpa [Goal.Regular] using hr)
    simp only [Goal.dnf, h1, Res.bind_ok]
    match r, h2, h3 with
    | none, h2, _ =>
      refine ⟨none, rfl, ?_, by simp⟩
      intro S
      simp only [DnfTrue, Sat, false_iff]
      exact h2 rfl S
    | some ds, _, h3 =>
      obtain ⟨j1, j2⟩ := h3 ds rfl
      obtain ⟨r, k1, k2, k3⟩ := conjoin_spec hnd j1
      refine ⟨r, k1, ?_, k3⟩
      intro S
      rw [k2, j2]; simp [Sat]
  | .disj gs, params, args, hlen, hargs, hwf, hc, hr => by
    simp only [Goal.Regular] at hr
    obtain ⟨ds, h1, h2, h3, h4, h5⟩ := dnfAny_sat hnd gs params args hlen hargs (by simpa [Goal.WF] using hwf)
      (by simpa [Goal.HasConst] using hc) hr.1 hr.2.2
    obtain ⟨r, k1, k2, k3⟩ := disjoin_spec hnd h2 (h5 hr.2.1) h4
    refine ⟨r, by simp [Goal.dnf, h1, k1], ?_, k3⟩
    intro S
    rw [k2, h3]; simp [Sat]
  | .neg g, params, args, hlen, hargs, hwf, hc, hr => by
    have hreg : Goal.Regular objects (Env.none.bind params args) g ∧
        ((∃ pred ts, g = .atom pred ts) ∨ Refutable objects (Env.none.bind params args) g) := by
      cases g with
      | atom pred ts => exact ⟨by simp [Goal.Regular], Or.inl ⟨_, _, rfl⟩⟩
      | _ => simp only [Goal.Regular] at hr ⊢; exact ⟨hr.1, Or.inr hr.2⟩
    obtain ⟨r, h1, h2, h3⟩ := dnf_sat hnd g params args hlen hargs (by simpa [Goal.WF] using hwf)
      (by simpa [Goal.HasConst] using hc) hreg.1
    have hne : r ≠ some [] := by
      rintro rfl
      rcases hreg.2 with ⟨pred, ts, rfl⟩ | ⟨S, hS⟩
      · simp only [Goal.dnf] at h1
        cases hd : dnfAtom params pred ts args <;> simp [hd] at h1
      · exact hS ((h2 S).1 (Or.inl rfl))
    obtain ⟨r', k1, k2, k3⟩ := negate_result hnd h2 h3 hne rfl
    refine ⟨r', ?_, ?_, k3⟩
    · simp only [Goal.dnf, h1, Res.bind_ok]
      exact k1
    · intro S
      rw [k2]; simp [Sat]
  | .all vars g, params, args, hlen, hargs, hwf, hc, hr => by
    simp only [Goal.WF] at hwf
    simp only [Goal.Regular] at hr
    obtain ⟨l, hl, hm⟩ := gen_create objects vars hwf.1
    have hstep : ∀ os ∈ l, ∃ r, g.dnf ⟨objects, ObjMap.create objects, []⟩ (params ++ vars) (args ++ os) = .ok r ∧
        (∀ S, DnfTrue objects S r ↔ Sat objects S ((Env.none.bind params args).bind vars os) g) ∧
        ∀ l, r = some l → GoodDnf objects l := by
      intro os ho
      have ho' := (hm os).1 ho
      rw [← Env.bind_append Env.none params args vars os hlen]
      exact dnf_sat hnd g (params ++ vars) (args ++ os) (by simp [hlen, ho'.length]) (args_append_mem hargs ho')
        (by simpa using hwf.2) (by simpa [Goal.HasConst] using hc)
        (by rw [Env.bind_append Env.none params args vars os hlen]; exact hr os ho')
    obtain ⟨r, h1, h2, h3⟩ := dnfLoop_all hstep
    simp only [Goal.dnf, hl, Res.bind_ok, h1]
    have hiff : ∀ S, (∀ os ∈ l, Sat objects S ((Env.none.bind params args).bind vars os) g) ↔
        Sat objects S (Env.none.bind params args) (.all vars g) := by
      intro S; simp [Sat, hm]
    match r, h2, h3 with
    | none, h2, _ =>
      refine ⟨none, rfl, ?_, by simp⟩
      intro S
      simp only [DnfTrue, false_iff]
      rw [← hiff S]
      exact h2 rfl S
    | some ds, _, h3 =>
      obtain ⟨j1, j2⟩ := h3 ds rfl
      obtain ⟨r, k1, k2, k3⟩ := conjoin_spec hnd j1
      refine ⟨r, k1, ?_, k3⟩
      intro S
      rw [k2, j2, hiff]
  | .ex vars g, params, args, hlen, hargs, hwf, hc, hr => by
    simp only [Goal.WF] at hwf
    simp only [Goal.Regular] at hr
    obtain ⟨l, hl, hm⟩ := gen_create objects vars hwf.1
    have hstep : ∀ os ∈ l, ∃ r, g.dnf ⟨objects, ObjMap.create objects, []⟩ (params ++ vars) (args ++ os) = .ok r ∧
        (∀ S, DnfTrue objects S r ↔ Sat objects S ((Env.none.bind params args).bind vars os) g) ∧
        ∀ l, r = some l → GoodDnf objects l := by
      intro os ho
      have ho' := (hm os).1 ho
      rw [← Env.bind_append Env.none params args vars os hlen]
      exact dnf_sat hnd g (params ++ vars) (args ++ os) (by simp [hlen, ho'.length]) (args_append_mem hargs ho')
        (by simpa using hwf.2) (by simpa [Goal.HasConst] using hc)
        (by rw [Env.bind_append Env.none params args vars os hlen]; exact (hr.1 os ho').1)
    obtain ⟨ds, h1, h2, h3, h4⟩ := dnfLoop_ex hstep
    have hne : ∀ d ∈ ds, d ≠ [] := by
      rintro d hd rfl
      obtain ⟨os, ho, hh⟩ := h4 _ hd
      obtain ⟨S, hS⟩ := (hr.1 os ((hm os).1 ho)).2
      exact hS ((hh S).1 (Or.inl rfl))
    have h0 : ds ≠ [] := by
      rintro rfl
      obtain ⟨os, ho, S, hS⟩ := hr.2
      obtain ⟨d, hd, -⟩ := (h3 S).2 ⟨os, (hm os).2 ho, hS⟩
      simp at hd
    obtain ⟨r, k1, k2, k3⟩ := disjoin_spec hnd h2 h0 hne
    refine ⟨r, by simp only [Goal.dnf, hl, Res.bind_ok, h1, k1], ?_, k3⟩
    intro S
    rw [k2, h3]; simp [Sat, hm]
  | .other, _, _, _, _, hwf, _, _ => by simp [Goal.WF] at hwf

theorem dnfAll_sat {objects : List Obj} (hnd : (objects.map Obj.name).Nodup) :
    ∀ (gs : List Goal) (params args : List Obj),
    params.length = args.length → (∀ o ∈ args, o ∈ objects) → Goal.WFs objects (params.map Obj.name) gs →
    (∀ c, Goal.HasConstL gs c → c ∈ objects) → Goal.Regulars objects (Env.none.bind params args) gs →
    ∃ r, Goal.dnfAll ⟨objects, ObjMap.create objects, []⟩ gs params args = .ok r ∧
      (r = none → ∀ S, ¬ SatAll objects S (Env.none.bind params args) gs) ∧
      ∀ ds, r = some ds → (∀ d ∈ ds, GoodDnf objects d) ∧
        ∀ S, (∀ d ∈ ds, DnfTrue objects S (some d)) ↔ SatAll objects S (Env.none.bind params args) gs
  | [], _, _, _, _, _, _, _ => ⟨some [], by simp [Goal.dnfAll], by simp, by rintro ds h; cases h; simp [SatAll]⟩
  | g :: gs, params, args, hlen, hargs, hwf, hc, hr => by
    simp only [Goal.WFs] at hwf
    simp only [Goal.Regulars] at hr
    simp only [Goal.HasConstL] at hc
    obtain ⟨r, h1, h2, h3⟩ := dnf_sat hnd g params args hlen hargs hwf.1 (fun c h => hc c (Or.inl h)) hr.1
    obtain ⟨r', k1, k2, k3⟩ := dnfAll_sat hnd gs params args hlen hargs hwf.2 (fun c h => hc c (Or.inr h)) hr.2
    simp only [Goal.dnfAll, h1, Res.bind_ok]
    match r, h2, h3 with
    | none, h2, _ =>
      refine ⟨none, rfl, ?_, by simp⟩
      intro _ S hS
      simp only [SatAll] at hS
      exact ((h2 S).2 hS.1).elim
    | some d, h2, h3 =>
      simp only [k1, Res.bind_ok, Res.pure_eq]
      match r', k2, k3 with
      | none, k2, _ =>
        refine ⟨none, rfl, ?_, by simp⟩
        intro _ S hS
        simp only [SatAll] at hS
        exact k2 rfl S hS.2
      | some ds, _, k3 =>
        refine ⟨some (d :: ds), rfl, by simp, ?_⟩
        rintro ds' hds
        cases hds
        obtain ⟨j1, j2⟩ := k3 ds rfl
        refine ⟨?_, ?_⟩
        · intro d' hd'
          rcases List.mem_cons.1 hd' with rfl | hd'
          · exact h3 _ rfl
          · exact j1 d' hd'
        · intro S
          rw [List.forall_mem_cons, h2 S, j2 S]
          simp [SatAll]

theorem dnfAny_sat {objects : List Obj} (hnd : (objects.map Obj.name).Nodup) :
    ∀ (gs : List Goal) (params args : List Obj),
    params.length = args.length → (∀ o ∈ args, o ∈ objects) → Goal.WFs objects (params.map Obj.name) gs →
    (∀ c, Goal.HasConstL gs c → c ∈ objects) → Goal.Regulars objects (Env.none.bind params args) gs →
    Goal.AllRefutable objects (Env.none.bind params args) gs →
    ∃ ds, Goal.dnfAny ⟨objects, ObjMap.create objects, []⟩ gs params args = .ok ds ∧
      (∀ d ∈ ds, GoodDnf objects d) ∧
      (∀ S, (∃ d ∈ ds, DnfTrue objects S (some d)) ↔ SatAny objects S (Env.none.bind params args) gs) ∧
      (∀ d ∈ ds, d ≠ []) ∧ (Goal.AnySatisfiable objects (Env.none.bind params args) gs → ds ≠ [])
  | [], _, _, _, _, _, _, _, _ => by
    refine ⟨[], by simp [Goal.dnfAny], by simp, by simp [SatAny], by simp, by simp [Goal.AnySatisfiable]⟩
  | g :: gs, params, args, hlen, hargs, hwf, hc, hr, hf => by
    simp only [Goal.WFs] at hwf
    simp only [Goal.Regulars] at hr
    simp only [Goal.HasConstL] at hc
    simp only [Goal.AllRefutable] at hf
    obtain ⟨r, h1, h2, h3⟩ := dnf_sat hnd g params args hlen hargs hwf.1 (fun c h => hc c (Or.inl h)) hr.1
    obtain ⟨ds, k1, k2, k3, k4, k5⟩ := dnfAny_sat hnd gs params args hlen hargs hwf.2 (fun c h => hc c (Or.inr h)) hr.2 hf.2
    have hne : r ≠ some [] := by
      rintro rfl
      obtain ⟨S, hS⟩ := hf.1
      exact hS ((h2 S).1 (Or.inl rfl))
    simp only [Goal.dnfAny, h1, Res.bind_ok, k1, Res.pure_eq]
    match r, h2, h3, hne with
    | none, h2, _, _ =>
      refine ⟨ds, rfl, k2, ?_, k4, ?_⟩
      · intro S
        rw [k3 S]
        simp only [SatAny, ← h2 S, DnfTrue, false_or]
      · intro ha
        simp only [Goal.AnySatisfiable] at ha
        rcases ha with ⟨S, hS⟩ | ha
        · exact ((h2 S).2 hS).elim
        · exact k5 ha
    | some d, h2, h3, hne =>
      refine ⟨d :: ds, rfl, ?_, ?_, ?_, by simp⟩
      · intro d' hd'
        rcases List.mem_cons.1 hd' with rfl | hd'
        · exact h3 _ rfl
        · exact k2 d' hd'
      · intro S
        simp only [List.mem_cons, exists_eq_or_imp, h2 S, k3 S, SatAny]
      · intro d' hd'
        rcases List.mem_cons.1 hd' with rfl | hd'
        · rintro rfl; exact hne rfl
        · exact k4 d' hd'
end

end Symbolic
