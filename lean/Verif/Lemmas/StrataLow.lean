import Verif.Lemmas.Strata

/-!
Recursion only among the lowest rules, negation only above: the loops return the standard model.
-/

namespace Symbolic

variable [StrHash] {objects : List Obj} {ds : List Drv} {rank : Name → Nat} {s₀ : State}

/-- The lowest rules. -/
abbrev lowRules (rank : Name → Nat) (ds : List Drv) : List Drv := ds.filter (fun d => rank d.head = 0)

/-- Invariant of the loops: base atoms are those of `s₀`, and the atoms of the lowest rules have true bodies and are in
every set with these base atoms that is closed under the lowest rules. -/
structure LowSupported (objects : List Obj) (ds : List Drv) (rank : Name → Nat) (s₀ s : State) : Prop where
  base : SameBase objects ds (· ∈ s) (· ∈ s₀)
  least : ∀ x ∈ s, IsDerived objects ds x → rank x.pred = 0 → ∀ M : Atom → Prop, SameBase objects ds M (· ∈ s₀) →
    ClosedUnder objects (lowRules rank ds) M → M x
  body : ∀ d ∈ ds, rank d.head = 0 → ∀ os, WellTyped objects d.params os → d.atom os ∈ s → d.Holds objects (· ∈ s) os

/-- Atoms of predicates that are not derived above the lowest rules. -/
def LowPred (ds : List Drv) (rank : Name → Nat) (p : Name) : Prop := IsHead ds p → rank p = 0

omit [StrHash] in
theorem LowRecursion.mentions (hl : LowRecursion rank ds) {d : Drv} (hd : d ∈ ds) (h0 : rank d.head = 0) {p : Name} {n : Nat}
    (hm : d.body.Mentions p n) : LowPred ds rank p := by
  rcases polar_mentions _ (hl.low d hd h0) hm with h | h
  · exact h
  · exact fun h' => absurd h' h

theorem LowSupported.agree (hl : LowRecursion rank ds) {s s' : State} (h : LowSupported objects ds rank s₀ s)
    (hb : SameBase objects ds (· ∈ s') (· ∈ s₀)) (hs : ∀ x : Atom, LowPred ds rank x.pred → (x ∈ s' ↔ x ∈ s)) :
    LowSupported objects ds rank s₀ s' := by
  refine ⟨hb, fun x hx hd h0 => h.least x ((hs x (fun _ => h0)).1 hx) hd h0, fun d hd h0 os ho hx => ?_⟩
  refine (sat_congr ?_).1 (h.body d hd h0 os ho ((hs _ (fun _ => h0)).1 hx))
  rintro x ⟨n, hm⟩
  exact (hs x (hl.mentions hd h0 hm)).symm

theorem LowSupported.insert (hn : (objects.map Obj.name).Nodup) (hh : (ds.map Drv.head).Nodup) (hl : LowRecursion rank ds)
    {s : State} (h : LowSupported objects ds rank s₀ s) {d : Drv} (hd : d ∈ ds) (h0 : rank d.head = 0) {os : List Obj}
    (ho : WellTyped objects d.params os) (hb : d.Holds objects (· ∈ s) os) :
    LowSupported objects ds rank s₀ (s.insert (d.atom os)).2 := by
  have hmono : ∀ {d' : Drv} {os' : List Obj}, d' ∈ ds → rank d'.head = 0 → d'.Holds objects (· ∈ s) os' →
      d'.Holds objects (· ∈ (s.insert (d.atom os)).2) os' := by
    intro d' os' hd' h0' hb'
    refine sat_mono objects d'.body _ _ _ _ _ (hl.low d' hd' h0') (fun x _ hx => State.mem_insert.2 (Or.inr hx))
      (fun x hx hx' => ?_) hb'
    rcases State.mem_insert.1 hx' with rfl | hx'
    · exact absurd ⟨d, hd, rfl⟩ hx
    · exact hx'
  refine ⟨?_, ?_, ?_⟩
  · intro x hx
    refine Iff.trans ?_ (h.base x hx)
    show x ∈ (s.insert (d.atom os)).2 ↔ x ∈ s
    rw [State.mem_insert]
    constructor
    · rintro (rfl | h')
      · exact absurd ⟨d, hd, os, ho, rfl⟩ hx
      · exact h'
    · exact Or.inr
  · intro x hx hxd hx0 M hM hc
    rcases State.mem_insert.1 hx with rfl | hx
    · refine hc d (List.mem_filter.2 ⟨hd, decide_eq_true h0⟩) os ho ?_
      refine sat_mono objects d.body _ _ _ _ _ (hl.low d hd h0) ?_ ?_ hb
      · intro y hy hys
        by_cases hyd : IsDerived objects ds y
        · have hyd' := hyd
          obtain ⟨e, he, os', ho', rfl⟩ := hyd'
          exact h.least _ hys hyd (hy ⟨e, he, rfl⟩) M hM hc
        · exact (hM y hyd).2 ((h.base y hyd).1 hys)
      · intro y hy hyM
        have hyd : ¬ IsDerived objects ds y := by
          rintro ⟨e, he, os', ho', rfl⟩
          exact hy ⟨e, he, rfl⟩
        exact (h.base y hyd).2 ((hM y hyd).1 hyM)
    · exact h.least x hx hxd hx0 M hM hc
  · intro d' hd' h0' os' ho' hx
    rcases State.mem_insert.1 hx with e | hx
    · have := head_inj hh hd' hd (congrArg Atom.pred e)
      subst this
      rw [d'.atom_inj hn ho' ho e]
      exact hmono hd h0 hb
    · exact hmono hd' h0' (h.body d' hd' h0' os' ho' hx)

theorem drvPass_low (hn : (objects.map Obj.name).Nodup) (hh : (ds.map Drv.head).Nodup) (hl : LowRecursion rank ds)
    {d : Drv} (hd : d ∈ ds) (h0 : rank d.head = 0) (hwf : d.WF objects) : ∀ (l : List (List Obj)) (s : State),
    (∀ os ∈ l, WellTyped objects d.params os) → LowSupported objects ds rank s₀ s →
    ∀ r, drvPass (ObjMap.create objects) d l s = .ok r →
      LowSupported objects ds rank s₀ r.2 ∧ (∀ x ∈ s, x ∈ r.2) ∧ (r.1 = true → ∃ x ∈ r.2, x ∉ s)
  | [], s, _, hs, r, hr => by
    simp only [drvPass, Res.ok.injEq] at hr
    subst hr
    exact ⟨hs, fun x hx => hx, by simp⟩
  | o :: l, s, hol, hs, r, hr => by
    have hlo := hol o (by simp)
    obtain ⟨b, h1, h2⟩ := d.eval_holds hwf s hlo
    rw [drvPass_cons h1, Res.bind_eq_ok] at hr
    obtain ⟨r', h3, h4⟩ := hr
    simp only [Res.pure_eq, Res.ok.injEq] at h4
    subst h4
    have hl' : ∀ os ∈ l, WellTyped objects d.params os := fun x hx => hol x (by simp [hx])
    cases b with
    | true =>
      have hs' := hs.insert hn hh hl hd h0 hlo (h2.1 rfl)
      obtain ⟨h5, h6, h7⟩ := drvPass_low hn hh hl hd h0 hwf l _ hl' hs' r' h3
      refine ⟨h5, fun x hx => h6 x (State.mem_insert.2 (Or.inr hx)), ?_⟩
      simp only [Bool.or_eq_true]
      rintro (hf | hf)
      · have hx : d.atom o ∉ s := by
          intro hx
          have := (drvStep_flag (b := true) (x := d.atom o) (s := s)).2 (by simp [hx])
          simp [this] at hf
        exact ⟨d.atom o, h6 _ (State.mem_insert.2 (Or.inl rfl)), hx⟩
      · obtain ⟨x, hx1, hx2⟩ := h7 hf
        exact ⟨x, hx1, fun hx => hx2 (State.mem_insert.2 (Or.inr hx))⟩
    | false =>
      have hx : d.atom o ∉ s := fun hx => by
        have := h2.2 (hs.body d hd h0 o hlo hx)
        simp at this
      have hf := (drvStep_flag (b := false) (x := d.atom o) (s := s)).2 (by simp [hx])
      rw [drvStep_same hf] at h3
      obtain ⟨h5, h6, h7⟩ := drvPass_low hn hh hl hd h0 hwf l _ hl' hs r' h3
      refine ⟨h5, h6, ?_⟩
      simp only [hf, Bool.false_or]
      exact h7

theorem drvFix_low (hn : (objects.map Obj.name).Nodup) (hh : (ds.map Drv.head).Nodup) (hlr : LowRecursion rank ds)
    {U : List Atom} (hU : ∀ s : State, SameBase objects ds (· ∈ s) (· ∈ s₀) → ∀ x ∈ s, x ∈ U)
    {d : Drv} (hd : d ∈ ds) (h0 : rank d.head = 0) (hwf : d.WF objects) {l : List (List Obj)}
    (hl : ∀ os, os ∈ l ↔ WellTyped objects d.params os) : ∀ (k : Nat) (s : State),
    LowSupported objects ds rank s₀ s → U.length < s.size + k →
    ∃ r, drvFix (ObjMap.create objects) d l k s = .ok r ∧ LowSupported objects ds rank s₀ r.2 ∧ ∀ x ∈ s, x ∈ r.2
  | 0, s, hs, hk => by have := size_le (hU s hs.base); omega
  | k + 1, s, hs, hk => by
    obtain ⟨b, s', h1, -, -, h4⟩ := drvPass_total hwf l s (fun os ho => (hl os).1 ho)
    obtain ⟨h5, h6, h7⟩ := drvPass_low hn hh hlr hd h0 hwf l s (fun os ho => (hl os).1 ho) hs _ h1
    cases b with
    | false => exact ⟨(false, s'), by simp [drvFix, h1], h5, h6⟩
    | true =>
      obtain ⟨x, hx1, hx2⟩ := h7 rfl
      have hlt := size_lt h6 hx1 hx2
      obtain ⟨r, h8, h9, h10⟩ := drvFix_low hn hh hlr hU hd h0 hwf hl k s' h5 (by simp only at hlt; omega)
      exact ⟨(true, r.2), by simp [drvFix, h1, h8], h9, fun x hx => h10 x (h6 x hx)⟩

/-- One rule of either kind. -/
theorem Drv.apply_layer (hn : (objects.map Obj.name).Nodup) (hh : (ds.map Drv.head).Nodup) (hl : LowRecursion rank ds)
    {U : List Atom} (hU : ∀ s : State, SameBase objects ds (· ∈ s) (· ∈ s₀) → ∀ x ∈ s, x ∈ U) {fuel : Nat}
    (hf : U.length < fuel) (hf2 : 2 ≤ fuel) {d : Drv} (hd : d ∈ ds) (hwf : d.WF objects) {s : State}
    (hs : LowSupported objects ds rank s₀ s) :
    ∃ r, d.apply (ObjMap.create objects) fuel s = .ok r ∧ LowSupported objects ds rank s₀ r.2 ∧
      ∀ x : Atom, LowPred ds rank x.pred → x ∈ s → x ∈ r.2 := by
  by_cases h0 : rank d.head = 0
  · obtain ⟨l, h1, h2⟩ := gen_create objects d.params hwf.params
    obtain ⟨r, h3, h4, h5⟩ := drvFix_low hn hh hl hU hd h0 hwf h2 fuel s hs (by omega)
    exact ⟨r, by simp only [Drv.apply, h1, Res.bind_ok, h3], h4, fun x _ hx => h5 x hx⟩
  · have hm : ∀ n, ¬ d.body.Mentions d.head n := fun n hm => by
      have := hl.high d hd h0 d.head n hm ⟨d, hd, rfl⟩
      omega
    obtain ⟨f, rfl⟩ : ∃ f, fuel = f + 2 := ⟨fuel - 2, by omega⟩
    obtain ⟨r, h1⟩ := d.apply_nonrec hwf hn hm f s
    obtain ⟨-, h3, -⟩ := Drv.apply_ok hwf h1
    have hsame : ∀ x : Atom, LowPred ds rank x.pred → (x ∈ r.2 ↔ x ∈ s) := by
      intro x hx
      refine h3 x ?_
      rintro os ho rfl
      exact h0 (hx ⟨d, hd, rfl⟩)
    refine ⟨r, h1, hs.agree hl ?_ hsame, fun x hx h => (hsame x hx).2 h⟩
    intro x hx
    exact Iff.trans (h3 x (fun os ho e => hx ⟨d, hd, os, ho, e⟩)) (hs.base x hx)

/-- A pass: the lowest atoms grow; if they do not, the lowest rules are stable. -/
theorem drvsPass_low (hwf : ∀ d ∈ ds, d.WF objects) (hn : (objects.map Obj.name).Nodup) (hh : (ds.map Drv.head).Nodup)
    (hl : LowRecursion rank ds)
    {U : List Atom} (hU : ∀ s : State, SameBase objects ds (· ∈ s) (· ∈ s₀) → ∀ x ∈ s, x ∈ U) {fuel : Nat}
    (hf : U.length < fuel) (hf2 : 2 ≤ fuel) : ∀ (ds' : List Drv) (s : State), (∀ d ∈ ds', d ∈ ds) →
    LowSupported objects ds rank s₀ s →
    ∃ r, drvsPass (ObjMap.create objects) fuel ds' s = .ok r ∧ LowSupported objects ds rank s₀ r.2 ∧
      (∀ x : Atom, LowPred ds rank x.pred → x ∈ s → x ∈ r.2) ∧
      ((∀ x : Atom, LowPred ds rank x.pred → x ∈ r.2 → x ∈ s) →
        ∀ d ∈ ds', rank d.head = 0 → d.Stable objects r.2)
  | [], s, _, hs => ⟨(false, s), rfl, hs, fun _ _ h => h, by simp⟩
  | d :: ds', s, hsub, hs => by
    have hdm := hsub d (by simp)
    obtain ⟨r1, h1, h2, h3⟩ := Drv.apply_layer hn hh hl hU hf hf2 hdm (hwf d hdm) hs
    obtain ⟨r2, h4, h5, h6, h7⟩ := drvsPass_low hwf hn hh hl hU hf hf2 ds' r1.2 (fun x hx => hsub x (by simp [hx])) h2
    refine ⟨(r1.1 || r2.1, r2.2), by simp only [drvsPass, h1, h4, Res.bind_ok, Res.pure_eq], h5,
      fun x hx h => h6 x hx (h3 x hx h), fun hno d' hd' h0 => ?_⟩
    have hno2 : ∀ x : Atom, LowPred ds rank x.pred → x ∈ r2.2 → x ∈ r1.2 := fun x hx h => h3 x hx (hno x hx h)
    rcases List.mem_cons.1 hd' with rfl | hd'
    · have hst := (Drv.apply_ok (hwf d' hdm) h1).1
      have hsame : ∀ x : Atom, LowPred ds rank x.pred → (x ∈ r2.2 ↔ x ∈ r1.2) :=
        fun x hx => ⟨hno2 x hx, h6 x hx⟩
      intro os ho
      show d'.atom os ∈ r2.2 ↔ _
      rw [hsame _ (fun _ => h0), hst os ho]
      exact sat_congr (fun x ⟨n, hm⟩ => (hsame x (hl.mentions hdm h0 hm)).symm)
    · exact h7 hno2 d' hd' h0

/-- A pass makes one more rank stable. -/
theorem drvsPass_layer (hwf : ∀ d ∈ ds, d.WF objects) (hl : LowRecursion rank ds) {fuel n : Nat} (h1n : 1 ≤ n) :
    ∀ (ds' : List Drv) (s : State) (r : Bool × State), (∀ d ∈ ds', d ∈ ds) → (ds'.map Drv.head).Nodup →
    (∀ d ∈ ds, rank d.head < n → d.Stable objects s) →
    drvsPass (ObjMap.create objects) (fuel + 1) ds' s = .ok r →
      (∀ d ∈ ds', rank d.head ≤ n → d.Stable objects r.2) ∧
      (∀ d ∈ ds, rank d.head ≤ n → d.head ∉ ds'.map Drv.head → d.Stable objects s → d.Stable objects r.2)
  | [], s, r, _, _, _, h => by
    simp only [drvsPass, Res.ok.injEq] at h
    subst h
    exact ⟨by simp, fun _ _ _ _ h => h⟩
  | d :: ds', s, r, hsub, hnd, hst, h => by
    have hdm := hsub d (by simp)
    simp only [drvsPass, Res.bind_eq_ok, Res.pure_eq, Res.ok.injEq] at h
    obtain ⟨r1, h1, r2, h5, rfl⟩ := h
    obtain ⟨h2, h3, -⟩ := Drv.apply_ok (hwf d hdm) h1
    have hother : ∀ x : Atom, x.pred ≠ d.head → (x ∈ r1.2 ↔ x ∈ s) :=
      fun x hx => h3 x (fun os _ e => hx (by rw [e]; rfl))
    have same : rank d.head < n → r1 = (false, s) := by
      intro hlt
      have hs1 := Drv.apply_stable (fuel := fuel) (hwf d hdm) (hst d hdm hlt)
      rw [h1, Res.ok.injEq] at hs1
      exact hs1
    have keep : ∀ d' ∈ ds, rank d'.head ≤ n → d'.head ≠ d.head → d'.Stable objects s → d'.Stable objects r1.2 := by
      intro d' hd' hr hne hs'
      by_cases hlt : rank d.head < n
      · rw [same hlt]
        exact hs'
      · refine hs'.other hother hne ?_
        intro k hm
        by_cases h0 : rank d'.head = 0
        · have := hl.mentions hd' h0 hm ⟨d, hdm, rfl⟩
          omega
        · have := hl.high d' hd' h0 d.head k hm ⟨d, hdm, rfl⟩
          omega
    simp only [List.map_cons, List.nodup_cons] at hnd
    obtain ⟨h6, h7⟩ := drvsPass_layer hwf hl h1n ds' r1.2 r2 (fun x hx => hsub x (by simp [hx])) hnd.2
      (fun d' hd' hr => by
        by_cases he : d'.head = d.head
        · rw [same (he ▸ hr)]
          exact hst d' hd' hr
        · exact keep d' hd' (by omega) he (hst d' hd' hr)) h5
    refine ⟨?_, ?_⟩
    · intro d' hd' hr
      rcases List.mem_cons.1 hd' with rfl | hd'
      · exact h7 d' hdm hr hnd.1 h2
      · exact h6 d' hd' hr
    · intro d' hd' hr hne hs'
      simp only [List.map_cons, List.mem_cons, not_or] at hne
      exact h7 d' hd' hr hne.2 (keep d' hd' hr hne.1 hs')

/-- The phase after the lowest rules are stable. -/
theorem drvsFix_high (hwf : ∀ d ∈ ds, d.WF objects) (hn : (objects.map Obj.name).Nodup) (hh : (ds.map Drv.head).Nodup)
    (hl : LowRecursion rank ds)
    {U : List Atom} (hU : ∀ s : State, SameBase objects ds (· ∈ s) (· ∈ s₀) → ∀ x ∈ s, x ∈ U) {fuel : Nat}
    (hf : U.length < fuel) (hf2 : 2 ≤ fuel) {N : Nat} (hN : ∀ d ∈ ds, rank d.head < N) : ∀ (k n : Nat) (s : State),
    1 ≤ n → N ≤ n + k → LowSupported objects ds rank s₀ s → (∀ d ∈ ds, rank d.head < n → d.Stable objects s) →
    ∃ r, drvsFix (ObjMap.create objects) fuel ds (k + 1) s = .ok r ∧ LowSupported objects ds rank s₀ r.2
  | 0, n, s, h1, hk, hs, hst => by
    obtain ⟨f, rfl⟩ : ∃ f, fuel = f + 1 := ⟨fuel - 1, by omega⟩
    exact ⟨_, drvsFix_stable hwf (fun d hm => hst d hm (by have := hN d hm; omega)), hs⟩
  | k + 1, n, s, h1, hk, hs, hst => by
    obtain ⟨r, h2, h3, -, -⟩ := drvsPass_low hwf hn hh hl hU hf hf2 ds s (fun _ h => h) hs
    obtain ⟨f, rfl⟩ : ∃ f, fuel = f + 1 := ⟨fuel - 1, by omega⟩
    obtain ⟨h4, -⟩ := drvsPass_layer hwf hl h1 ds s r (fun _ h => h) hh hst h2
    rw [drvsFix, h2]
    simp only [Res.bind_ok]
    split
    · obtain ⟨r2, h5, h6⟩ := drvsFix_high hwf hn hh hl hU hf hf2 hN k (n + 1) r.2 (by omega) (by omega) h3
        (fun d hm hr => h4 d hm (by omega))
      rw [h5]
      exact ⟨_, rfl, h6⟩
    · exact ⟨_, rfl, h3⟩

/-- How many of the atoms `U` of the lowest rules are in `s`. -/
noncomputable def lowCount (ds : List Drv) (rank : Name → Nat) (U : List Atom) (s : State) : Nat :=
  haveI := Classical.decPred (fun x : Atom => LowPred ds rank x.pred ∧ x ∈ s)
  U.countP (fun x => decide (LowPred ds rank x.pred ∧ x ∈ s))

omit [StrHash] in
theorem countP_lt {p q : Atom → Bool} : ∀ {U : List Atom}, (∀ x ∈ U, p x = true → q x = true) →
    (∃ x ∈ U, q x = true ∧ p x = false) → U.countP p < U.countP q
  | [], _, h => by obtain ⟨x, hx, -⟩ := h; simp at hx
  | a :: U, h1, h2 => by
    have hle : U.countP p ≤ U.countP q := List.countP_mono_left (fun x hx => h1 x (by simp [hx]))
    rw [List.countP_cons, List.countP_cons]
    obtain ⟨x, hx, hq, hp⟩ := h2
    rcases List.mem_cons.1 hx with rfl | hx
    · simp [hq, hp]; omega
    · have := countP_lt (U := U) (fun x hx => h1 x (by simp [hx])) ⟨x, hx, hq, hp⟩
      have h3 := h1 a (by simp)
      cases hpa : p a <;> cases hqa : q a <;> (simp_all; try omega)

theorem lowCount_le {U : List Atom} {s : State} : lowCount ds rank U s ≤ U.length := List.countP_le_length

theorem lowCount_lt {U : List Atom} {s s' : State} (h : ∀ x : Atom, LowPred ds rank x.pred → x ∈ s → x ∈ s') {x : Atom}
    (hU : x ∈ U) (hx : LowPred ds rank x.pred) (h1 : x ∈ s') (h2 : x ∉ s) :
    lowCount ds rank U s < lowCount ds rank U s' := by
  unfold lowCount
  refine countP_lt ?_ ⟨x, hU, by simp [hx, h1], by simp [h2]⟩
  intro y _ hy
  simp only [decide_eq_true_eq] at hy ⊢
  exact ⟨hy.1, h y hy.1 hy.2⟩

theorem drvsFix_layers (hwf : ∀ d ∈ ds, d.WF objects) (hn : (objects.map Obj.name).Nodup) (hh : (ds.map Drv.head).Nodup)
    (hl : LowRecursion rank ds)
    {U : List Atom} (hU : ∀ s : State, SameBase objects ds (· ∈ s) (· ∈ s₀) → ∀ x ∈ s, x ∈ U) {fuel : Nat}
    (hf : U.length < fuel) (hf2 : 2 ≤ fuel) {N : Nat} (hN : ∀ d ∈ ds, rank d.head < N) : ∀ (j : Nat) (s : State),
    U.length ≤ lowCount ds rank U s + j → LowSupported objects ds rank s₀ s →
    ∃ r, drvsFix (ObjMap.create objects) fuel ds (j + (N + 2)) s = .ok r ∧ LowSupported objects ds rank s₀ r.2 := by
  intro j
  induction j with
  | zero =>
    intro s hj hs
    obtain ⟨r, h2, h3, h4, h5⟩ := drvsPass_low hwf hn hh hl hU hf hf2 ds s (fun _ h => h) hs
    have hno : ∀ x : Atom, LowPred ds rank x.pred → x ∈ r.2 → x ∈ s := by
      intro x hx hxr
      by_contra hxs
      have := lowCount_lt (U := U) h4 (hU r.2 h3.base x hxr) hx hxr hxs
      have := lowCount_le (ds := ds) (rank := rank) (U := U) (s := r.2)
      omega
    rw [show 0 + (N + 2) = (N + 1) + 1 by omega, drvsFix, h2]
    simp only [Res.bind_ok]
    split
    · obtain ⟨r2, h6, h7⟩ := drvsFix_high hwf hn hh hl hU hf hf2 hN N 1 r.2 (by omega) (by omega) h3
        (fun d hm hr => h5 hno d hm (by omega))
      rw [h6]
      exact ⟨_, rfl, h7⟩
    · exact ⟨_, rfl, h3⟩
  | succ j ih =>
    intro s hj hs
    obtain ⟨r, h2, h3, h4, h5⟩ := drvsPass_low hwf hn hh hl hU hf hf2 ds s (fun _ h => h) hs
    rw [show j + 1 + (N + 2) = (j + (N + 2)) + 1 by omega, drvsFix, h2]
    simp only [Res.bind_ok]
    split
    · by_cases hno : ∀ x : Atom, LowPred ds rank x.pred → x ∈ r.2 → x ∈ s
      · obtain ⟨r2, h6, h7⟩ := drvsFix_high hwf hn hh hl hU hf hf2 hN (j + (N + 1)) 1 r.2 (by omega) (by omega) h3
          (fun d hm hr => h5 hno d hm (by omega))
        rw [show j + (N + 2) = j + (N + 1) + 1 by omega, h6]
        exact ⟨_, rfl, h7⟩
      · push Not at hno
        obtain ⟨x, hx, hxr, hxs⟩ := hno
        have := lowCount_lt (U := U) h4 (hU r.2 h3.base x hxr) hx hxr hxs
        obtain ⟨r2, h6, h7⟩ := ih r.2 (by omega) h3
        rw [h6]
        exact ⟨_, rfl, h7⟩
    · exact ⟨_, rfl, h3⟩

omit [StrHash] in
theorem LowRecursion.stratified (hl : LowRecursion rank ds) : Stratified rank ds := by
  intro d hd
  by_cases h0 : rank d.head = 0
  · refine polar_imp _ (hl.low d hd h0) (fun p h hp => ?_) (fun p h hp => absurd hp h)
    have := h hp
    omega
  · refine polar_of_mentions _ _ _ (fun p n hm => ⟨fun hp => ?_, fun hp => hl.high d hd h0 p n hm hp⟩)
    have := hl.high d hd h0 p n hm hp
    omega

theorem LowSupported.minAt (hl : LowRecursion rank ds) {s : State} (h : LowSupported objects ds rank s₀ s)
    (hf : Fixpoint objects ds (· ∈ s)) (k : Nat) : MinAt objects ds rank (· ∈ s) k := by
  by_cases hk : k = 0
  · subst hk
    intro M hM hc x hx h0 hxs
    refine h.least x hxs hx h0 M ?_ hc
    intro y hy
    exact Iff.trans (hM y (fun hd => absurd hd hy)) (h.base y hy)
  · refine minAt_nonrec hf ?_
    rintro d hd rfl p n hm hp
    exact hl.high d hd hk p n hm hp

/-- Recursion in the lowest stratum only: the loops return the standard model from every state without atoms of the lowest
rules. -/
theorem drvsFix_lowRecursion (hwf : ∀ d ∈ ds, d.WF objects) (hn : (objects.map Obj.name).Nodup)
    (hh : (ds.map Drv.head).Nodup) (hl : LowRecursion rank ds) {N : Nat} (hN : ∀ d ∈ ds, rank d.head < N) {s : State}
    (hs : ∀ x ∈ s, IsDerived objects ds x → rank x.pred ≠ 0) :
    ∃ K, ∀ k, K ≤ k → ∃ r, drvsFix (ObjMap.create objects) k ds k s = .ok r ∧
      SameBase objects ds (· ∈ r.2) (· ∈ s) ∧ Fixpoint objects ds (· ∈ r.2) ∧ ∀ j, MinAt objects ds rank (· ∈ r.2) j := by
  obtain ⟨U, hU⟩ := base_bound hwf s
  have hstart : LowSupported objects ds rank s s := by
    refine ⟨fun _ _ => Iff.rfl, fun x hx hd h0 => absurd h0 (hs x hx hd), fun d hd h0 os ho hx => ?_⟩
    exact absurd h0 (hs _ hx ⟨d, hd, os, ho, rfl⟩)
  refine ⟨U.length + (N + 2), fun k hk => ?_⟩
  obtain ⟨j, rfl⟩ : ∃ j, k = j + (N + 2) := ⟨k - (N + 2), by omega⟩
  obtain ⟨r, h1, h2⟩ := drvsFix_layers hwf hn hh hl hU (fuel := j + (N + 2)) (by omega) (by omega) hN j s (by omega) hstart
  have hf : Fixpoint objects ds (· ∈ r.2) := fun d hd os ho => (drvsFix_ok hwf _ _ _ h1).1 d hd os ho
  exact ⟨r, h1, h2.base, hf, h2.minAt hl hf⟩

end Symbolic
