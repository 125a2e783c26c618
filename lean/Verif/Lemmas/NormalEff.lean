import Verif.Lemmas.NormalSat

/-!
The normal form of a regular effect says that it has been achieved.
-/

namespace Symbolic

variable [StrHash]

omit [StrHash] in
theorem atomTrue_plain {objects : List Obj} {S : Atom → Prop} {a : Atom} (h1 : a.pred ≠ n!"=")
    (h2 : ¬ IsType objects a.pred) : AtomTrue objects S a ↔ S a := by
  simp [AtomTrue, h1, h2]

theorem dnfSimple_spec {objects params args : List Obj} (hnd : (objects.map Obj.name).Nodup)
    (hlen : params.length = args.length) (hargs : ∀ o ∈ args, o ∈ objects) :
    ∀ (l : List (Name × List Term)) (s : State), WFLits objects (params.map Obj.name) l →
      (∀ c pred ts, (pred, ts) ∈ l → Term.const c ∈ ts → c ∈ objects) →
      (∀ a ∈ s, a.Ground objects ∧ a.pred ≠ n!"=" ∧ ¬ IsType objects a.pred) →
      ∃ s', dnfSimple params args l s = .ok s' ∧
        (∀ a, a ∈ s' ↔ a ∈ s ∨ Lists (Env.none.bind params args) l a) ∧
        (∀ a ∈ s', a.Ground objects ∧ a.pred ≠ n!"=" ∧ ¬ IsType objects a.pred)
  | [], s, _, _, hs => ⟨s, rfl, by simp [Lists], hs⟩
  | (pred, ts) :: rest, s, hwf, hc, hs => by
    have h0 := hwf pred ts (by simp)
    obtain ⟨a, h1, h2, h3, -⟩ := dnfAtom_spec hnd hlen hargs (pred := pred) (ts := ts)
      (by simp only [Goal.WF]; exact ⟨h0.1, fun h => absurd h h0.2.1, fun _ h => absurd h h0.2.2⟩)
      (fun c h => hc c pred ts (by simp) h)
    obtain ⟨s', k1, k2, k3⟩ := dnfSimple_spec hnd hlen hargs rest (s.insert a).2
      (fun p t h => hwf p t (by simp [h])) (fun c p t h => hc c p t (by simp [h])) (by
        intro b hb
        rcases State.mem_insert.1 hb with rfl | hb
        · subst h3; exact ⟨h2, h0.2⟩
        · exact hs b hb)
    refine ⟨s', by simp [dnfSimple, h1, k1], ?_, k3⟩
    intro b
    rw [k2, State.mem_insert]
    have : Lists (Env.none.bind params args) ((pred, ts) :: rest) b ↔
        b = a ∨ Lists (Env.none.bind params args) rest b := by
      constructor
      · rintro ⟨p, t, os, hm, ho, rfl⟩
        rcases List.mem_cons.1 hm with he | hm
        · cases he
          rw [forall₂_denotes hlen h0.1] at ho
          left; rw [h3, ho]
        · exact Or.inr ⟨p, t, os, hm, ho, rfl⟩
      · rintro (rfl | ⟨p, t, os, hm, ho, rfl⟩)
        · exact ⟨pred, ts, _, by simp, (forall₂_denotes hlen h0.1 _).2 rfl, h3⟩
        · exact ⟨p, t, os, by simp [hm], ho, rfl⟩
    rw [this]
    tauto

/-- The literals of the universal effects are true in `S`. -/
def AchievedF (objects : List Obj) (S : Atom → Prop) (env : Env) (e : FList) : Prop :=
  (∀ x, MakesF objects S true env e x → S x) ∧ ∀ x, MakesF objects S false env e x → ¬ S x

/-- The literals of the conditional effects whose condition is true in `S` are true in `S`. -/
def AchievedC (objects : List Obj) (S : Atom → Prop) (env : Env) (e : CList) : Prop :=
  (∀ x, MakesC objects S true env e x → S x) ∧ ∀ x, MakesC objects S false env e x → ¬ S x

omit [StrHash] in
theorem achievedC_cons {objects : List Obj} {S : Atom → Prop} {env : Env} {g : Goal} {e : Eff} {rest : CList} :
    AchievedC objects S env (.cons g e rest) ↔
      (Sat objects S env g → Achieved objects S env e) ∧ AchievedC objects S env rest := by
  simp only [AchievedC, Achieved, MakesC]
  constructor
  · rintro ⟨h1, h2⟩
    exact ⟨fun hg => ⟨fun x hx => h1 x (Or.inl ⟨hg, hx⟩), fun x hx => h2 x (Or.inl ⟨hg, hx⟩)⟩,
      fun x hx => h1 x (Or.inr hx), fun x hx => h2 x (Or.inr hx)⟩
  · rintro ⟨h1, h2, h3⟩
    refine ⟨?_, ?_⟩
    · rintro x (⟨hg, hx⟩ | hx)
      · exact (h1 hg).1 x hx
      · exact h2 x hx
    · rintro x (⟨hg, hx⟩ | hx)
      · exact (h1 hg).2 x hx
      · exact h3 x hx

omit [StrHash] in
mutual
theorem Eff.NoCond.regular {objects : List Obj} : ∀ (e : Eff) (env : Env), e.NoCond → e.Regular objects env
  | .mk fs _ _ cs, env, h => by
    simp only [Eff.NoCond] at h
    obtain ⟨h1, rfl⟩ := h
    simp only [Eff.Regular, CList.Regular, and_true]
    exact FList.NoCond.regular fs env h1
theorem FList.NoCond.regular {objects : List Obj} : ∀ (e : FList) (env : Env), e.NoCond → e.Regular objects env
  | .nil, _, _ => by simp [FList.Regular]
  | .cons vars e rest, env, h => by
    simp only [FList.NoCond] at h
    simp only [FList.Regular]
    exact ⟨fun os _ => Eff.NoCond.regular e _ h.1, FList.NoCond.regular rest env h.2⟩
end

omit [StrHash] in
theorem static_of_const {objects : List Obj} {a : Atom} (h : (∀ S, AtomTrue objects S a) ∨ ∀ S, ¬ AtomTrue objects S a) :
    a.pred = n!"=" ∨ (a.pred ≠ n!"=" ∧ IsType objects a.pred) := by
  by_contra hno
  have h1 : a.pred ≠ n!"=" := fun e => hno (Or.inl e)
  have h2 : ¬ IsType objects a.pred := fun e => hno (Or.inr ⟨h1, e⟩)
  rcases h with h | h
  · exact (atomTrue_plain h1 h2).1 (h fun _ => False)
  · exact h (fun _ => True) ((atomTrue_plain h1 h2).2 trivial)

theorem evaluateConj_static {objects : List Obj} {c : PartialState} {a : Atom}
    (hn : c.neg.elems = [a]) (hp : c.pos.elems = []) (hg : a.Ground objects)
    (hs : a.pred = n!"=" ∨ (a.pred ≠ n!"=" ∧ IsType objects a.pred)) :
    evaluateConj ⟨objects, ObjMap.create objects, []⟩ c ≠ .ok none := by
  have hsz : c.size = 1 := by
    simp [PartialState.size, State.size_eq, hn, hp]
  have hie : c.neg.isEmpty = false := by
    have : c.neg.isEmpty = decide (c.neg.size = 0) := rfl
    rw [this, State.size_eq, hn]; rfl
  unfold evaluateConj
  simp only [hsz, if_true, evaluateSingle, hie, hn, Res.index,
    List.getElem?_cons_zero, Res.bind_ok, Bool.false_eq_true, if_false]
  rcases hg.evaluateEquals with ⟨he, h1⟩ | ⟨he, b, h1, h2⟩
  · simp only [h1, Res.bind_ok, Option.map_none, Res.pure_eq]
    rcases hs with hs | ⟨-, hs⟩
    · exact absurd hs he
    · have hl := hg.type he hs
      have hm : (ObjMap.create objects).has a.pred = true := (ObjMap.has_create objects _).2 hs
      rcases a with ⟨p, args⟩
      match args, hl with
      | [x], _ => simp [Symbolic.evaluateType, hm, Res.index]
  · simp [h1]

/-- The normal form of a negated ground atom that is always false, or always true. -/
theorem negateDnf_atom {objects : List Obj} (hnd : (objects.map Obj.name).Nodup) {a : Atom} (hg : a.Ground objects)
    {r : Option Dnf} (hr : negateDnf ⟨objects, ObjMap.create objects, []⟩ [⟨State.ofList [a], State.empty⟩] = .ok r) :
    ((∀ S, AtomTrue objects S a) → r = none) ∧ ((∀ S, ¬ AtomTrue objects S a) → r = some []) := by
  have hone : ∀ s : State, (∀ x, x ∈ s ↔ x = a) → s.elems = [a] := by
    intro s h
    have hp : s.elems.Perm [a] := (List.perm_ext_iff_of_nodup s.elems_nodup (by simp)).2 (by
      intro x; rw [State.mem_elems, h]; simp)
    exact List.perm_singleton.1 hp
  have hnone : ∀ s : State, (∀ x, x ∉ s) → s.elems = [] := by
    intro s h
    exact List.eq_nil_iff_forall_not_mem.2 fun x hx => h x (State.mem_elems.1 hx)
  have hel : (State.ofList [a]).elems = [a] := hone _ (by simp)
  have hee : State.empty.elems = [] := hnone _ (by simp)
  set c1 : PartialState := ⟨State.empty, State.ofList [a]⟩ with hc1
  have hds : ([⟨State.ofList [a], State.empty⟩] : Dnf).map (fun conj =>
      (conj.neg.elems.map (fun a => (⟨State.ofList [a], State.empty⟩ : PartialState))) ++
      (conj.pos.elems.map (fun a => ⟨State.empty, State.ofList [a]⟩))) = [[c1]] := by
    simp [hel, hee, hc1]
  have hf : ([[c1]] : List Dnf).filter (fun d => decide (d ≠ [])) = [[c1]] := by simp
  have hctor : Comb.ctor [[c1]] = .ok [[c1]] := by simp [Comb.ctor]
  have hcar : cartesian [[c1]] = [[c1]] := by simp [cartesian]
  rw [negateDnf, hds, conjoin, hf, hctor] at hr
  simp only [Res.bind_ok, comb_forward_ok PartialState.empty (options := [[c1]]) (by simp), List.cons_ne_nil,
    if_false, hcar, List.map_cons, List.map_nil] at hr
  set c2 := unionConj [c1] with hc2
  have hmp : ∀ x, x ∉ c2.pos := by
    intro x; rw [(mem_unionConj [c1] x).1]; simp [hc1]
  have hmn : ∀ x, x ∈ c2.neg ↔ x = a := by
    intro x; rw [(mem_unionConj [c1] x).2]; simp [hc1]
  have hct : ∀ S, ConjTrue objects S c2 ↔ ¬ AtomTrue objects S a := by
    intro S
    simp [ConjTrue, hmp, hmn]
  have hst : ((∀ S, AtomTrue objects S a) ∨ ∀ S, ¬ AtomTrue objects S a) →
      evaluateConj ⟨objects, ObjMap.create objects, []⟩ c2 ≠ .ok none := fun h =>
    evaluateConj_static (hone _ hmn) (hnone _ hmp) hg (static_of_const h)
  obtain ⟨e, h1, h2, h3, -⟩ := evaluateConj_spec hnd (c := c2)
    ⟨fun x hx => absurd hx (hmp x), fun x hx => by rw [(hmn x).1 hx]; exact hg⟩
  simp only [simplify, simplifyLoop, h1, Res.bind_ok, List.cons_ne_nil, if_false] at hr
  refine ⟨fun h => ?_, fun h => ?_⟩
  · match e, h1, h2, h3, hr with
    | none, h1, _, _, _ => exact absurd h1 (hst (Or.inl h))
    | some true, _, h2, _, _ => exact absurd (h fun _ => True) ((hct _).1 (h2 rfl _))
    | some false, _, _, _, hr => simpa using hr.symm
  · match e, h1, h2, h3, hr with
    | none, h1, _, _, _ => exact absurd h1 (hst (Or.inr h))
    | some false, _, _, h3, _ => exact absurd ((hct _).2 (h fun _ => True)) (h3 rfl _)
    | some true, _, _, _, hr => simpa using hr.symm

mutual
theorem Eff.dnf_achieved {objects : List Obj} (hnd : (objects.map Obj.name).Nodup) :
    ∀ (e : Eff) (params args : List Obj), params.length = args.length → (∀ o ∈ args, o ∈ objects) →
    e.WF objects (params.map Obj.name) → e.Regular objects (Env.none.bind params args) →
    (∀ c, e.HasConst c → c ∈ objects) →
    ∃ r, e.dnf ⟨objects, ObjMap.create objects, []⟩ params args = .ok r ∧
      (∀ S, DnfTrue objects S r ↔ Achieved objects S (Env.none.bind params args) e) ∧
      ∀ l, r = some l → GoodDnf objects l
  | .mk fs adds dels cs, params, args, hlen, hargs, hwf, hnc, hc => by
    simp only [Eff.WF] at hwf
    simp only [Eff.Regular] at hnc
    simp only [Eff.HasConst] at hc
    obtain ⟨hfs, hadds, hdels, hcs⟩ := hwf
    obtain ⟨hnf, hncs⟩ := hnc
    have hach : ∀ S, Achieved objects S (Env.none.bind params args) (.mk fs adds dels cs) ↔
        AchievedF objects S (Env.none.bind params args) fs ∧
        ((∀ x, Lists (Env.none.bind params args) adds x → S x) ∧
        (∀ x, Lists (Env.none.bind params args) dels x → ¬ S x)) ∧
        AchievedC objects S (Env.none.bind params args) cs := by
      intro S
      simp only [Achieved, AchievedF, AchievedC, Makes, true_and, false_and, false_or, Bool.true_eq_false,
        Bool.false_eq_true, or_imp, forall_and]
      tauto
    obtain ⟨r, h1, h2, h3⟩ := FList.dnf_achieved hnd fs params args hlen hargs hfs hnf (fun c h => hc c (Or.inl h))
    obtain ⟨pos, p1, p2, p3⟩ := dnfSimple_spec hnd hlen hargs adds State.empty hadds
      (fun c p t h h' => hc c (Or.inr (Or.inl ⟨p, t, h, h'⟩))) (by simp)
    obtain ⟨neg, n1, n2, n3⟩ := dnfSimple_spec hnd hlen hargs dels State.empty hdels
      (fun c p t h h' => hc c (Or.inr (Or.inr (Or.inl ⟨p, t, h, h'⟩)))) (by simp)
    obtain ⟨es, c1, c2, c3⟩ := CList.dnf_achieved hnd cs params args hlen hargs hcs hncs
      (fun c h => hc c (Or.inr (Or.inr (Or.inr h))))
    simp only [Eff.dnf, h1, Res.bind_ok]
    match r, h2, h3 with
    | none, h2, _ =>
      refine ⟨none, rfl, ?_, by simp⟩
      intro S
      simp only [DnfTrue, false_iff]
      intro h
      exact h2 rfl S ((hach S).1 h).1
    | some ds, _, h3 =>
      obtain ⟨j1, j2⟩ := h3 ds rfl
      simp only [p1, n1, Res.bind_ok, c1]
      have hct : ∀ S, ConjTrue objects S ⟨pos, neg⟩ ↔ (∀ x, Lists (Env.none.bind params args) adds x → S x) ∧
          (∀ x, Lists (Env.none.bind params args) dels x → ¬ S x) := by
        intro S
        unfold ConjTrue
        refine and_congr ?_ ?_
        · refine forall_congr' fun x => ?_
          rw [p2 x]
          simp only [State.not_mem_empty, false_or]
          constructor
          · intro h hx
            have := p3 x ((p2 x).2 (Or.inr hx))
            exact (atomTrue_plain this.2.1 this.2.2).1 (h hx)
          · intro h hx
            have := p3 x ((p2 x).2 (Or.inr hx))
            exact (atomTrue_plain this.2.1 this.2.2).2 (h hx)
        · refine forall_congr' fun x => ?_
          rw [n2 x]
          simp only [State.not_mem_empty, false_or]
          constructor
          · intro h hx hS
            have := n3 x ((n2 x).2 (Or.inr hx))
            exact h hx ((atomTrue_plain this.2.1 this.2.2).2 hS)
          · intro h hx hS
            have := n3 x ((n2 x).2 (Or.inr hx))
            exact h hx ((atomTrue_plain this.2.1 this.2.2).1 hS)
      have hie : ∀ s : State, s.isEmpty = true ↔ ∀ a, a ∉ s := by
        intro s
        have : s.isEmpty = decide (s.size = 0) := rfl
        rw [this, decide_eq_true_eq, State.size_eq, List.length_eq_zero_iff, List.eq_nil_iff_forall_not_mem]
        simp only [State.mem_elems]
      set b := (!pos.isEmpty || !neg.isEmpty) with hb
      cases hbv : b with
      | true =>
        simp only [if_true]
        obtain ⟨r, k1, k2, k3⟩ := conjoin_spec hnd (ds := ds ++ [[⟨pos, neg⟩]] ++ es) (by
          intro d hd
          rcases List.mem_append.1 hd with hd | hd
          swap
          · exact c2 d hd
          rcases List.mem_append.1 hd with hd | hd
          · exact j1 d hd
          · simp only [List.mem_singleton] at hd
            subst hd
            intro c hcm
            simp only [List.mem_singleton] at hcm
            subst hcm
            refine ⟨⟨fun a ha => (p3 a ha).1, fun a ha => (n3 a ha).1⟩, ?_⟩
            rw [hbv] at hb
            have hb' := hb.symm
            rw [Bool.or_eq_true, Bool.not_eq_true', Bool.not_eq_true'] at hb'
            rcases hb' with h | h
            · left
              by_contra hno
              have := (hie pos).2 (fun a ha => hno ⟨a, ha⟩)
              rw [this] at h; simp at h
            · right
              by_contra hno
              have := (hie neg).2 (fun a ha => hno ⟨a, ha⟩)
              rw [this] at h; simp at h)
        refine ⟨r, k1, ?_, k3⟩
        intro S
        rw [k2, hach, ← hct S, ← j2 S, ← c3 S]
        simp only [List.mem_append, List.mem_singleton, or_imp, forall_and, forall_eq]
        simp [DnfTrue, SomeTrue, and_assoc]
      | false =>
        simp only [Bool.false_eq_true, if_false]
        obtain ⟨r, k1, k2, k3⟩ := conjoin_spec hnd (ds := ds ++ es) (by
          intro d hd
          rcases List.mem_append.1 hd with hd | hd
          · exact j1 d hd
          · exact c2 d hd)
        refine ⟨r, k1, ?_, k3⟩
        intro S
        rw [k2, hach, ← hct S, ← j2 S, ← c3 S]
        rw [hbv] at hb
        have hb' := hb.symm
        rw [Bool.or_eq_false_iff, Bool.not_eq_false', Bool.not_eq_false', hie, hie] at hb'
        have : ConjTrue objects S ⟨pos, neg⟩ := ⟨fun a ha => absurd ha (hb'.1 a), fun a ha => absurd ha (hb'.2 a)⟩
        simp only [this, List.mem_append, or_imp, forall_and, true_and]

theorem FList.dnf_achieved {objects : List Obj} (hnd : (objects.map Obj.name).Nodup) :
    ∀ (e : FList) (params args : List Obj), params.length = args.length → (∀ o ∈ args, o ∈ objects) →
    e.WF objects (params.map Obj.name) → e.Regular objects (Env.none.bind params args) →
    (∀ c, e.HasConst c → c ∈ objects) →
    ∃ r, e.dnf ⟨objects, ObjMap.create objects, []⟩ params args = .ok r ∧
      (r = none → ∀ S, ¬ AchievedF objects S (Env.none.bind params args) e) ∧
      ∀ ds, r = some ds → (∀ d ∈ ds, GoodDnf objects d) ∧
        ∀ S, (∀ d ∈ ds, DnfTrue objects S (some d)) ↔ AchievedF objects S (Env.none.bind params args) e
  | .nil, _, _, _, _, _, _, _ => by
    refine ⟨some [], by simp [FList.dnf], by simp, ?_⟩
    rintro ds h; cases h
    simp [AchievedF, MakesF]
  | .cons vars e rest, params, args, hlen, hargs, hwf, hnc, hc => by
    simp only [FList.WF] at hwf
    simp only [FList.Regular] at hnc
    simp only [FList.HasConst] at hc
    obtain ⟨l, hl, hm⟩ := gen_create objects vars hwf.1
    have hstep : ∀ os ∈ l, ∃ r, e.dnf ⟨objects, ObjMap.create objects, []⟩ (params ++ vars) (args ++ os) = .ok r ∧
        (∀ S, DnfTrue objects S r ↔ Achieved objects S ((Env.none.bind params args).bind vars os) e) ∧
        ∀ l, r = some l → GoodDnf objects l := by
      intro os ho
      have ho' := (hm os).1 ho
      rw [← Env.bind_append Env.none params args vars os hlen]
      exact Eff.dnf_achieved hnd e (params ++ vars) (args ++ os) (by simp [hlen, ho'.length])
        (args_append_mem hargs ho') (by simpa using hwf.2.1)
        (by rw [Env.bind_append Env.none params args vars os hlen]; exact hnc.1 os ho') (fun c h => hc c (Or.inl h))
    obtain ⟨r, h1, h2, h3⟩ := dnfLoop_all hstep
    obtain ⟨r', k1, k2, k3⟩ := FList.dnf_achieved hnd rest params args hlen hargs hwf.2.2 hnc.2
      (fun c h => hc c (Or.inr h))
    have hiff : ∀ S, AchievedF objects S (Env.none.bind params args) (.cons vars e rest) ↔
        (∀ os ∈ l, Achieved objects S ((Env.none.bind params args).bind vars os) e) ∧
        AchievedF objects S (Env.none.bind params args) rest := by
      intro S
      simp only [AchievedF, Achieved, MakesF, hm]
      constructor
      · rintro ⟨a1, a2⟩
        exact ⟨fun os ho => ⟨fun x hx => a1 x (Or.inl ⟨os, ho, hx⟩), fun x hx => a2 x (Or.inl ⟨os, ho, hx⟩)⟩,
          fun x hx => a1 x (Or.inr hx), fun x hx => a2 x (Or.inr hx)⟩
      · rintro ⟨a1, a2, a3⟩
        refine ⟨?_, ?_⟩
        · rintro x (⟨os, ho, hx⟩ | hx)
          · exact (a1 os ho).1 x hx
          · exact a2 x hx
        · rintro x (⟨os, ho, hx⟩ | hx)
          · exact (a1 os ho).2 x hx
          · exact a3 x hx
    simp only [FList.dnf, hl, Res.bind_ok, h1]
    match r, h2, h3 with
    | none, h2, _ =>
      refine ⟨none, rfl, ?_, by simp⟩
      intro _ S hS
      exact h2 rfl S ((hiff S).1 hS).1
    | some ds, _, h3 =>
      simp only [k1, Res.bind_ok, Res.pure_eq]
      match r', k2, k3 with
      | none, k2, _ =>
        refine ⟨none, rfl, ?_, by simp⟩
        intro _ S hS
        exact k2 rfl S ((hiff S).1 hS).2
      | some ds', _, k3 =>
        refine ⟨some (ds ++ ds'), rfl, by simp, ?_⟩
        rintro _ hds
        cases hds
        obtain ⟨j1, j2⟩ := h3 ds rfl
        obtain ⟨i1, i2⟩ := k3 ds' rfl
        refine ⟨?_, ?_⟩
        · intro d hd
          rcases List.mem_append.1 hd with hd | hd
          · exact j1 d hd
          · exact i1 d hd
        · intro S
          rw [hiff, ← j2 S, ← i2 S]
          simp only [List.mem_append, or_imp, forall_and]

theorem CList.dnf_achieved {objects : List Obj} (hnd : (objects.map Obj.name).Nodup) :
    ∀ (e : CList) (params args : List Obj), params.length = args.length → (∀ o ∈ args, o ∈ objects) →
    e.WF objects (params.map Obj.name) → e.Regular objects (Env.none.bind params args) →
    (∀ c, e.HasConst c → c ∈ objects) →
    ∃ ds, e.dnf ⟨objects, ObjMap.create objects, []⟩ params args = .ok ds ∧ (∀ d ∈ ds, GoodDnf objects d) ∧
      ∀ S, (∀ d ∈ ds, DnfTrue objects S (some d)) ↔ AchievedC objects S (Env.none.bind params args) e
  | .nil, _, _, _, _, _, _, _ => by
    refine ⟨[], by simp [CList.dnf], by simp, ?_⟩
    simp [AchievedC, MakesC]
  | .cons g e rest, params, args, hlen, hargs, hwf, hnc, hc => by
    simp only [CList.WF] at hwf
    simp only [CList.Regular] at hnc
    simp only [CList.HasConst] at hc
    obtain ⟨hre, hcase, hrest⟩ := hnc
    obtain ⟨r, h1, h2, h3⟩ := Eff.dnf_achieved hnd e params args hlen hargs hwf.2.1 hre
      (fun c h => hc c (Or.inr (Or.inl h)))
    obtain ⟨ds, k1, k2, k3⟩ := CList.dnf_achieved hnd rest params args hlen hargs hwf.2.2 hrest
      (fun c h => hc c (Or.inr (Or.inr h)))
    have hgr : g.Regular objects (Env.none.bind params args) := by
      rcases hcase with h | ⟨⟨p, ts, rfl⟩, -⟩
      · exact h.1
      · simp [Goal.Regular]
    obtain ⟨rc, g1, g2, g3⟩ := dnf_sat hnd g params args hlen hargs hwf.1 (fun c h => hc c (Or.inl h)) hgr
    -- a normal form that says "if the condition holds, the effect is achieved"
    have hadd : ∀ d : Dnf, GoodDnf objects d → (∀ S, DnfTrue objects S (some d) ↔
        (Sat objects S (Env.none.bind params args) g → Achieved objects S (Env.none.bind params args) e)) →
        (∀ x ∈ d :: ds, GoodDnf objects x) ∧ ∀ S, (∀ x ∈ d :: ds, DnfTrue objects S (some x)) ↔
          AchievedC objects S (Env.none.bind params args) (.cons g e rest) := by
      intro d hd hS
      refine ⟨fun x hx => ?_, fun S => ?_⟩
      · rcases List.mem_cons.1 hx with rfl | hx
        · exact hd
        · exact k2 x hx
      · rw [achievedC_cons, ← k3 S, ← hS S]
        simp
    have hskip : (∀ S, Sat objects S (Env.none.bind params args) g → Achieved objects S (Env.none.bind params args) e) →
        ∀ S, (∀ x ∈ ds, DnfTrue objects S (some x)) ↔
          AchievedC objects S (Env.none.bind params args) (.cons g e rest) := by
      intro h S
      rw [achievedC_cons, ← k3 S]
      exact ⟨fun hx => ⟨h S, hx⟩, fun hx => hx.2⟩
    simp only [CList.dnf, g1, Res.bind_ok]
    rcases hcase with ⟨-, ⟨S1, hS1⟩, ⟨S0, hS0⟩, ⟨S2, hS2⟩⟩ | ⟨⟨p, ts, rfl⟩, hcase⟩
    · match rc, g2, g3 with
      | none, g2, _ => exact absurd ((g2 S1).2 hS1) (by simp [DnfTrue])
      | some [], g2, _ => exact absurd ((g2 S0).1 (Or.inl rfl)) hS0
      | some (c0 :: cond), g2, g3 =>
        simp only [h1, Res.bind_ok, List.cons_ne_nil, if_false]
        obtain ⟨rn, n1, n2, n3⟩ := negateDnf_spec hnd (g3 _ rfl) (List.cons_ne_nil c0 cond)
        simp only [n1, Res.bind_ok]
        match rn, n2, n3 with
        | none, n2, _ =>
          exact absurd ((n2 S0).2 (fun h => hS0 ((g2 S0).1 h))) (by simp [DnfTrue])
        | some [], n2, _ =>
          exact absurd ((g2 S1).2 hS1) ((n2 S1).1 (Or.inl rfl))
        | some (m0 :: ncond), n2, n3 =>
          match r, h2, h3 with
          | none, h2, _ =>
            simp only [k1, Res.bind_ok, Res.pure_eq]
            refine ⟨_, rfl, hadd _ (n3 _ rfl) fun S => ?_⟩
            rw [n2 S, g2 S]
            have := (h2 S).not.1 (by simp [DnfTrue])
            tauto
          | some [], h2, _ => exact absurd ((h2 S2).1 (Or.inl rfl)) hS2
          | some (r0 :: rr), h2, h3 =>
            simp only [k1, Res.bind_ok, Res.pure_eq]
            obtain ⟨rd, d1, d2, d3⟩ := disjoin_spec hnd (ds := [m0 :: ncond, r0 :: rr]) (by
              intro d hd
              simp only [List.mem_cons, List.not_mem_nil, or_false] at hd
              rcases hd with rfl | rfl
              · exact n3 _ rfl
              · exact h3 _ rfl) (by simp) (by simp)
            have hd : ∀ S, DnfTrue objects S rd ↔
                (Sat objects S (Env.none.bind params args) g → Achieved objects S (Env.none.bind params args) e) := by
              intro S
              rw [d2 S]
              simp only [List.mem_cons, List.not_mem_nil, or_false, exists_eq_or_imp, exists_eq_left]
              rw [n2 S, g2 S, h2 S]
              tauto
            simp only [d1, Res.bind_ok]
            match rd, hd, d3 with
            | none, hd, _ => exact absurd ((hd S0).2 (fun h => absurd h hS0)) (by simp [DnfTrue])
            | some d, hd, d3 => exact ⟨_, rfl, hadd d (d3 _ rfl) hd⟩
    · -- a negated atom whose value does not depend on the state
      have hwa : Goal.WF objects (params.map Obj.name) (.atom p ts) := by simpa [Goal.WF] using hwf.1
      obtain ⟨a, a1, a2, -, a4⟩ := dnfAtom_spec hnd hlen hargs hwa (fun c h => hc c (Or.inl (by
        simpa [Goal.HasConst] using h)))
      have hneg : negateDnf ⟨objects, ObjMap.create objects, []⟩ [⟨State.ofList [a], State.empty⟩] = .ok rc := by
        simp only [Goal.dnf, a1, Res.bind_ok, Res.pure_eq] at g1
        simpa using g1
      obtain ⟨e1, e2⟩ := negateDnf_atom hnd a2 hneg
      have hat : ∀ S, Sat objects S (Env.none.bind params args) (.neg (.atom p ts)) ↔ ¬ AtomTrue objects S a := by
        intro S; rw [a4 S]; simp [Sat]
      rcases hcase with hun | ⟨hval, ⟨S1, hS1⟩⟩
      · have hno : ∀ S, ¬ Sat objects S (Env.none.bind params args) (.neg (.atom p ts)) := fun S h => hun ⟨S, h⟩
        have : rc = none := e1 fun S => by
          have := hno S
          rw [hat S] at this
          exact not_not.1 this
        subst this
        exact ⟨ds, k1, k2, hskip fun S h => absurd h (hno S)⟩
      · have hall : ∀ S, Sat objects S (Env.none.bind params args) (.neg (.atom p ts)) := fun S => by
          by_contra h; exact hval ⟨S, h⟩
        have : rc = some [] := e2 fun S => (hat S).1 (hall S)
        subst this
        simp only [h1, Res.bind_ok, if_true]
        match r, h2, h3 with
        | none, h2, _ => exact absurd ((h2 S1).2 hS1) (by simp [DnfTrue])
        | some r, h2, h3 =>
          simp only [k1, Res.bind_ok, Res.pure_eq]
          refine ⟨_, rfl, hadd r (h3 _ rfl) fun S => ?_⟩
          rw [h2 S]
          exact ⟨fun h _ => h, fun h => h (hall S)⟩
end

end Symbolic
