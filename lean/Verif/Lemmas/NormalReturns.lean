import Verif.Lemmas.NormalAxiomsEff

/-!
If the axioms can be asked about everything, a normal form that is created without them can be created with them.
-/

namespace Symbolic

variable [StrHash]

/-- `IsConsistent` returns for every conjunction. -/
def Answers (valid : PartialState → Res Bool) : Prop := ∀ c, ∃ v, valid c = .ok v

theorem simplifyLoopA_returns {valid : PartialState → Res Bool} (hv : Answers valid) {c : NfCtx} :
    ∀ (l ret ret' : List PartialState) (r : Option (List PartialState)), simplifyLoop c l ret = .ok r →
      ∃ r', simplifyLoopA valid c l ret' = .ok r'
  | [], _, ret', _, _ => ⟨some ret', rfl⟩
  | conj :: rest, ret, ret', r, h => by
    simp only [simplifyLoop, Res.bind_eq_ok] at h
    obtain ⟨e, he, h⟩ := h
    obtain ⟨v, hv'⟩ := hv conj
    match e, h with
    | some true, _ => exact ⟨none, by simp [simplifyLoopA, evaluateConjA, he]⟩
    | some false, h =>
      obtain ⟨r', hr⟩ := simplifyLoopA_returns hv rest _ ret' r h
      exact ⟨r', by simp [simplifyLoopA, evaluateConjA, he, hr]⟩
    | none, h =>
      simp only [simplifyLoopA, evaluateConjA, he, hv', Res.bind_ok, Res.pure_eq]
      cases v
      · exact simplifyLoopA_returns hv rest _ _ r h
      · exact simplifyLoopA_returns hv rest _ _ r h

theorem simplifyA_returns {valid : PartialState → Res Bool} (hv : Answers valid) {c : NfCtx} {d : Dnf} {r : Option Dnf}
    (h : simplify c d = .ok r) : ∃ r', simplifyA valid c d = .ok r' := by
  unfold simplify at h
  unfold simplifyA
  split at h
  · rename_i hd; exact ⟨_, by rw [if_pos hd]⟩
  · rename_i hd
    rw [Res.bind_eq_ok] at h
    obtain ⟨r0, h1, -⟩ := h
    obtain ⟨r1, h2⟩ := simplifyLoopA_returns hv d _ [] r0 h1
    simp only [if_neg hd, h2, Res.bind_ok]
    cases r1 <;> exact ⟨_, rfl⟩

theorem disjoinA_returns {valid : PartialState → Res Bool} (hv : Answers valid) {c : NfCtx} {ds : List Dnf} {r : Option Dnf}
    (h : disjoin c ds = .ok r) : ∃ r', disjoinA valid c ds = .ok r' := simplifyA_returns hv h

theorem conjoinA_returns {valid : PartialState → Res Bool} (hv : Answers valid) {c : NfCtx} {ds : List Dnf} {r : Option Dnf}
    (h : conjoin c ds = .ok r) : ∃ r', conjoinA valid c ds = .ok r' := by
  simp only [conjoin, Res.bind_eq_ok] at h
  obtain ⟨o, h1, cs, h2, h3⟩ := h
  simp only [conjoinA, h1, h2, Res.bind_ok]
  exact simplifyA_returns hv h3

theorem dnfA_returns {valid : PartialState → Res Bool} (hv : Answers valid) {c : NfCtx} {g : Goal} {params args : List Obj}
    {r : Option Dnf} (h : g.dnf c params args = .ok r) : ∃ r', g.dnfA valid c params args = .ok r' := by
  cases g with
  | atom _ _ => exact ⟨r, h⟩
  | neg _ => exact ⟨r, h⟩
  | other => exact ⟨r, h⟩
  | conj gs =>
    simp only [Goal.dnf, Res.bind_eq_ok] at h
    obtain ⟨o, h1, h2⟩ := h
    simp only [Goal.dnfA, h1, Res.bind_ok]
    match o, h2 with
    | none, _ => exact ⟨none, rfl⟩
    | some ds, h2 => exact conjoinA_returns hv h2
  | disj gs =>
    simp only [Goal.dnf, Res.bind_eq_ok] at h
    obtain ⟨o, h1, h2⟩ := h
    simp only [Goal.dnfA, h1, Res.bind_ok]
    exact disjoinA_returns hv h2
  | all vars g =>
    simp only [Goal.dnf, Res.bind_eq_ok] at h
    obtain ⟨l, h0, o, h1, h2⟩ := h
    simp only [Goal.dnfA, h0, h1, Res.bind_ok]
    match o, h2 with
    | none, _ => exact ⟨none, rfl⟩
    | some ds, h2 => exact conjoinA_returns hv h2
  | ex vars g =>
    simp only [Goal.dnf, Res.bind_eq_ok] at h
    obtain ⟨l, h0, o, h1, h2⟩ := h
    simp only [Goal.dnfA, h0, h1, Res.bind_ok]
    match o, h2 with
    | none, _ => exact ⟨none, rfl⟩
    | some ds, h2 => exact disjoinA_returns hv h2

theorem CList.dnfA_returns {valid : PartialState → Res Bool} (hv : Answers valid) {c : NfCtx} {params args : List Obj} :
    ∀ {cs : CList} {r : List Dnf}, cs.dnf c params args = .ok r →
      (∃ r', cs.dnfA valid c params args = .ok r') ∨ cs.dnfA valid c params args = .exc .runtimeError
  | .nil, _, _ => Or.inl ⟨[], rfl⟩
  | .cons g e rest, r, h => by
    simp only [CList.dnf, Res.bind_eq_ok] at h
    obtain ⟨o, h1, h⟩ := h
    simp only [CList.dnfA, h1, Res.bind_ok]
    -- the rest, put together
    have hcons : ∀ (d : Dnf) {r0 : List Dnf}, rest.dnf c params args = .ok r0 →
        (∃ r', (do let ds ← CList.dnfA valid c rest params args; pure (d :: ds) : Res (List Dnf)) = .ok r') ∨
        (do let ds ← CList.dnfA valid c rest params args; pure (d :: ds) : Res (List Dnf)) = .exc .runtimeError := by
      intro d r0 h0
      rcases CList.dnfA_returns hv h0 with ⟨r', hr⟩ | hr
      · exact Or.inl ⟨d :: r', by rw [hr]; rfl⟩
      · exact Or.inr (by rw [hr]; rfl)
    match o, h with
    | none, h => exact CList.dnfA_returns hv h
    | some cond, h =>
      simp only [Res.bind_eq_ok] at h
      obtain ⟨res, h2, h⟩ := h
      simp only [h2, Res.bind_ok]
      by_cases hc : cond = []
      · simp only [if_pos hc] at h ⊢
        match res, h with
        | some d, h =>
          rw [Res.bind_eq_ok] at h
          obtain ⟨ds, h3, -⟩ := h
          exact hcons d h3
      · simp only [if_neg hc] at h ⊢
        rw [Res.bind_eq_ok] at h
        obtain ⟨n, h3, h⟩ := h
        simp only [h3, Res.bind_ok]
        match n, h with
        | none, h => exact CList.dnfA_returns hv h
        | some nc, h =>
          match res, h with
          | none, h =>
            rw [Res.bind_eq_ok] at h
            obtain ⟨ds, h4, -⟩ := h
            exact hcons nc h4
          | some d, h =>
            rw [Res.bind_eq_ok] at h
            obtain ⟨dj, h4, h⟩ := h
            obtain ⟨dj', h5⟩ := disjoinA_returns hv h4
            simp only [h5, Res.bind_ok]
            match dj, h with
            | some dd, h =>
              rw [Res.bind_eq_ok] at h
              obtain ⟨ds, h6, -⟩ := h
              cases dj' with
              | none => exact Or.inr rfl
              | some dd' => exact hcons dd' h6

/-- For a regular effect, the only failure is that a conditional effect is excluded by the axioms. -/
theorem Eff.dnfA_returns {objects : List Obj} (hnd : (objects.map Obj.name).Nodup)
    {valid : PartialState → Res Bool} {good : (Atom → Prop) → Prop} (hv : Sound objects valid good) (ha : Answers valid)
    (e : Eff) (params args : List Obj) (hlen : params.length = args.length) (hargs : ∀ o ∈ args, o ∈ objects)
    (hwf : e.WF objects (params.map Obj.name)) (hnc : e.Regular objects (Env.none.bind params args))
    (hc : ∀ c, e.HasConst c → c ∈ objects) :
    (∃ r, e.dnfA valid ⟨objects, ObjMap.create objects, []⟩ params args = .ok r) ∨
      (e.dnfA valid ⟨objects, ObjMap.create objects, []⟩ params args = .exc .runtimeError ∧ ¬ e.NoCond) := by
  obtain ⟨r, h, -⟩ := Eff.dnf_achieved hnd e params args hlen hargs hwf hnc hc
  obtain ⟨fs, adds, dels, cs⟩ := e
  simp only [Eff.WF] at hwf
  simp only [Eff.Regular] at hnc
  simp only [Eff.HasConst] at hc
  obtain ⟨hfs, hadds, hdels, hcs⟩ := hwf
  obtain ⟨hnf, hncs⟩ := hnc
  obtain ⟨r0, h1, -, h3⟩ := FList.dnf_achieved hnd fs params args hlen hargs hfs hnf (fun c h => hc c (Or.inl h))
  obtain ⟨pos, p1, -, p3⟩ := dnfSimple_spec hnd hlen hargs adds State.empty hadds
    (fun c p t h h' => hc c (Or.inr (Or.inl ⟨p, t, h, h'⟩))) (by simp)
  obtain ⟨neg, n1, -, n3⟩ := dnfSimple_spec hnd hlen hargs dels State.empty hdels
    (fun c p t h h' => hc c (Or.inr (Or.inr (Or.inl ⟨p, t, h, h'⟩)))) (by simp)
  simp only [Eff.dnf, h1, Res.bind_ok] at h
  simp only [Eff.dnfA, h1, Res.bind_ok]
  match r0, h3, h with
  | none, _, _ => exact Or.inl ⟨none, rfl⟩
  | some ds, h3, h =>
    simp only [p1, n1, Res.bind_ok] at h ⊢
    rw [Res.bind_eq_ok] at h
    obtain ⟨es, h4, -⟩ := h
    have hlit : ∀ s : State, s.isEmpty = false → ∃ a, a ∈ s := by
      intro s h
      by_contra hno
      have : s.isEmpty = decide (s.size = 0) := rfl
      rw [this, decide_eq_false_iff_not, State.size_eq, List.length_eq_zero_iff, List.eq_nil_iff_forall_not_mem] at h
      exact h fun a ha => hno ⟨a, State.mem_elems.1 ha⟩
    rcases CList.dnfA_returns ha h4 with ⟨es', h5⟩ | h5
    · left
      simp only [h5, Res.bind_ok]
      obtain ⟨c1, -⟩ := CList.dnfA_achieved hnd hv cs params args hlen hargs hcs hncs
        (fun c h => hc c (Or.inr (Or.inr (Or.inr h)))) es' h5
      obtain ⟨r', h6, -⟩ := conjoin_spec hnd (ds := (if (!pos.isEmpty || !neg.isEmpty) = true then ds ++ [[⟨pos, neg⟩]]
        else ds) ++ es') (by
        intro d hd
        rcases List.mem_append.1 hd with hd | hd
        · split at hd
          · rename_i hb
            rcases List.mem_append.1 hd with hd | hd
            · exact (h3 ds rfl).1 d hd
            · simp only [List.mem_singleton] at hd
              subst hd
              intro c hcm
              simp only [List.mem_singleton] at hcm
              subst hcm
              refine ⟨⟨fun a ha => (p3 a ha).1, fun a ha => (n3 a ha).1⟩, ?_⟩
              rw [Bool.or_eq_true, Bool.not_eq_true', Bool.not_eq_true'] at hb
              exact hb.imp (hlit pos) (hlit neg)
          · exact (h3 ds rfl).1 d hd
        · exact c1 d hd)
      exact conjoinA_returns ha h6
    · right
      refine ⟨by simp only [h5]; rfl, ?_⟩
      rintro ⟨-, rfl⟩
      simp [CList.dnfA] at h5

end Symbolic
