import Verif.Lemmas.DerivedTerm
import Verif.Spec.Strata

/-!
Stratified rules: what the loops compute, against the standard model.
-/

namespace Symbolic

mutual
theorem polar_imp : ∀ (g : Goal) {up dn up' dn' : Name → Prop}, g.Polar up dn → (∀ p, up p → up' p) → (∀ p, dn p → dn' p) →
    g.Polar up' dn'
  | .atom pred ts, _, _, _, _, h, hu, hd => by simp only [Goal.Polar] at h ⊢; exact hu _ h
  | .conj gs, _, _, _, _, h, hu, hd => by simp only [Goal.Polar] at h ⊢; exact polarL_imp gs h hu hd
  | .disj gs, _, _, _, _, h, hu, hd => by simp only [Goal.Polar] at h ⊢; exact polarL_imp gs h hu hd
  | .neg g, _, _, _, _, h, hu, hd => by simp only [Goal.Polar] at h ⊢; exact polar_imp g h hd hu
  | .all vars g, _, _, _, _, h, hu, hd => by simp only [Goal.Polar] at h ⊢; exact polar_imp g h hu hd
  | .ex vars g, _, _, _, _, h, hu, hd => by simp only [Goal.Polar] at h ⊢; exact polar_imp g h hu hd
  | .other, _, _, _, _, h, hu, hd => by simp only [Goal.Polar]
theorem polarL_imp : ∀ (gs : List Goal) {up dn up' dn' : Name → Prop}, Goal.PolarL up dn gs → (∀ p, up p → up' p) →
    (∀ p, dn p → dn' p) → Goal.PolarL up' dn' gs
  | [], _, _, _, _, h, hu, hd => by simp only [Goal.PolarL]
  | g :: gs, _, _, _, _, h, hu, hd => by
    simp only [Goal.PolarL] at h ⊢
    exact ⟨polar_imp g h.1 hu hd, polarL_imp gs h.2 hu hd⟩
end

mutual
theorem polar_mentions : ∀ (g : Goal) {up dn : Name → Prop}, g.Polar up dn → ∀ {p n}, g.Mentions p n → up p ∨ dn p
  | .atom pred ts, _, _, h, p, n, hm => by
    simp only [Goal.Polar] at h
    simp only [Goal.Mentions] at hm
    exact Or.inl (hm.1 ▸ h)
  | .conj gs, _, _, h, p, n, hm => by
    simp only [Goal.Polar] at h; simp only [Goal.Mentions] at hm; exact polarL_mentions gs h hm
  | .disj gs, _, _, h, p, n, hm => by
    simp only [Goal.Polar] at h; simp only [Goal.Mentions] at hm; exact polarL_mentions gs h hm
  | .neg g, _, _, h, p, n, hm => by
    simp only [Goal.Polar] at h; simp only [Goal.Mentions] at hm; exact (polar_mentions g h hm).symm
  | .all vars g, _, _, h, p, n, hm => by
    simp only [Goal.Polar] at h; simp only [Goal.Mentions] at hm; exact polar_mentions g h hm
  | .ex vars g, _, _, h, p, n, hm => by
    simp only [Goal.Polar] at h; simp only [Goal.Mentions] at hm; exact polar_mentions g h hm
  | .other, _, _, h, p, n, hm => by simp only [Goal.Mentions] at hm
theorem polarL_mentions : ∀ (gs : List Goal) {up dn : Name → Prop}, Goal.PolarL up dn gs → ∀ {p n},
    Goal.MentionsL gs p n → up p ∨ dn p
  | [], _, _, h, p, n, hm => by simp only [Goal.MentionsL] at hm
  | g :: gs, _, _, h, p, n, hm => by
    simp only [Goal.PolarL] at h
    simp only [Goal.MentionsL] at hm
    rcases hm with hm | hm
    · exact polar_mentions g h.1 hm
    · exact polarL_mentions gs h.2 hm
end

/-! ## A criterion for the standard model -/

section
variable {objects : List Obj} {ds : List Drv} {strat : Name → Nat}

/-- The atoms that are not derived, or derived in a stratum below `k`. -/
def Below (objects : List Obj) (ds : List Drv) (strat : Name → Nat) (k : Nat) (x : Atom) : Prop :=
  IsDerived objects ds x → strat x.pred < k

theorem isDerived_filter {k : Nat} {x : Atom} :
    IsDerived objects (ds.filter (fun d => strat d.head = k)) x ↔ IsDerived objects ds x ∧ strat x.pred = k := by
  constructor
  · rintro ⟨d, hd, os, ho, rfl⟩
    simp only [List.mem_filter, decide_eq_true_eq] at hd
    exact ⟨⟨d, hd.1, os, ho, rfl⟩, hd.2⟩
  · rintro ⟨⟨d, hd, os, ho, rfl⟩, hk⟩
    exact ⟨d, List.mem_filter.2 ⟨hd, decide_eq_true hk⟩, os, ho, rfl⟩

/-- Every atom derived in stratum `k` is in every set that agrees with `S` below `k` and is closed under the rules of
stratum `k`. -/
def MinAt (objects : List Obj) (ds : List Drv) (strat : Name → Nat) (S : Atom → Prop) (k : Nat) : Prop :=
  ∀ M : Atom → Prop, (∀ x, Below objects ds strat k x → (M x ↔ S x)) →
    ClosedUnder objects (ds.filter (fun d => strat d.head = k)) M →
    ∀ x, IsDerived objects ds x → strat x.pred = k → S x → M x

theorem stdModel_eq (hst : Stratified strat ds) {S S₀ : Atom → Prop} (hf : Fixpoint objects ds S)
    (hb : SameBase objects ds S S₀) (hm : ∀ k, MinAt objects ds strat S k) :
    ∀ (k : Nat) (x : Atom), StdModel objects ds strat S₀ k x ↔ S x ∧ Below objects ds strat k x
  | 0, x => by
    show S₀ x ∧ ¬ IsDerived objects ds x ↔ _
    constructor
    · rintro ⟨h1, h2⟩
      exact ⟨(hb x h2).2 h1, fun h => absurd h h2⟩
    · rintro ⟨h1, h2⟩
      have h3 : ¬ IsDerived objects ds x := fun h => absurd (h2 h) (by omega)
      exact ⟨(hb x h3).1 h1, h3⟩
  | k + 1, x => by
    have ih := stdModel_eq hst hf hb hm k
    show LeastModel objects _ (StdModel objects ds strat S₀ k) x ↔ _
    constructor
    · intro h
      refine h (fun y => S y ∧ Below objects ds strat (k + 1) y) ?_ ?_
      · intro y hy
        rw [ih, isDerived_filter, not_and] at *
        refine and_congr_right (fun _ => ⟨fun h hd => ?_, fun h hd => ?_⟩)
        · have h1 := h hd
          have h2 := hy hd
          omega
        · have h1 := h hd
          omega
      · intro d hd os ho hh
        simp only [List.mem_filter, decide_eq_true_eq] at hd
        refine ⟨(hf d hd.1 os ho).2 ?_, fun _ => by show strat d.head < k + 1; omega⟩
        refine sat_mono objects d.body _ _ _ _ _ (hst d hd.1) (fun y _ h => h.1) (fun y hy h => ⟨h, fun hd' => ?_⟩) hh
        obtain ⟨d', hd', os', -, rfl⟩ := hd'
        have := hy ⟨d', hd', rfl⟩
        show strat d'.head < k + 1
        have h3 : strat (d'.atom os').pred < strat d.head := this
        have h4 : (d'.atom os').pred = d'.head := rfl
        rw [h4] at h3
        omega
    · rintro ⟨h1, h2⟩ M hM hc
      by_cases hd : IsDerived objects ds x
      · by_cases hk : strat x.pred = k
        · refine hm k M ?_ hc x hd hk h1
          intro y hy
          have hy' : ¬ IsDerived objects (ds.filter (fun d => strat d.head = k)) y := by
            rw [isDerived_filter]
            rintro ⟨h3, h4⟩
            have := hy h3
            omega
          rw [hM y hy', ih]
          exact ⟨fun h => h.1, fun h => ⟨h, hy⟩⟩
        · have hx' : ¬ IsDerived objects (ds.filter (fun d => strat d.head = k)) x := by
            rw [isDerived_filter]; exact fun h => hk h.2
          refine (hM x hx').2 ((ih x).2 ⟨h1, fun _ => ?_⟩)
          have := h2 hd
          omega
      · have hx' : ¬ IsDerived objects (ds.filter (fun d => strat d.head = k)) x := by
          rw [isDerived_filter]; exact fun h => hd h.1
        exact (hM x hx').2 ((ih x).2 ⟨h1, fun h => absurd h hd⟩)

/-- A rule that mentions only what is lower is minimal in every fixpoint. -/
theorem minAt_nonrec {S : Atom → Prop} (hf : Fixpoint objects ds S) {k : Nat}
    (h : ∀ d ∈ ds, strat d.head = k → ∀ p n, d.body.Mentions p n → IsHead ds p → strat p < k) :
    MinAt objects ds strat S k := by
  rintro M hM hc x ⟨d, hd, os, ho, rfl⟩ hk hx
  have hk' : strat d.head = k := hk
  refine hc d (List.mem_filter.2 ⟨hd, by simpa using hk'⟩) os ho ?_
  refine (sat_congr ?_).1 ((hf d hd os ho).1 hx)
  rintro y ⟨n, hy⟩
  refine (hM y ?_).symm
  rintro ⟨d', hd', os', -, rfl⟩
  exact h d hd hk' _ n hy ⟨d', hd', rfl⟩

end

variable [StrHash] {objects : List Obj} {ds : List Drv}

/-! ## Rules in the order of their strata -/

/-- The rule is stable, and its atoms are in every set that agrees with `s` on the other predicates it mentions and is
closed under it. -/
structure Drv.Good (objects : List Obj) (d : Drv) (s : State) : Prop where
  stable : d.Stable objects s
  least : ∀ M : Atom → Prop, (∀ x : Atom, (∃ n, d.body.Mentions x.pred n) → x.pred ≠ d.head → (M x ↔ x ∈ s)) →
    (∀ x : Atom, x.pred = d.head → ¬ IsDerived objects [d] x → (M x ↔ x ∈ s)) →
    ClosedUnder objects [d] M → ∀ os, WellTyped objects d.params os → d.atom os ∈ s → M (d.atom os)

theorem Drv.Good.other {d : Drv} {s s' : State} (h : d.Good objects s) {p : Name}
    (hs : ∀ x : Atom, x.pred ≠ p → (x ∈ s' ↔ x ∈ s)) (hp : d.head ≠ p) (hm : ∀ n, ¬ d.body.Mentions p n) :
    d.Good objects s' := by
  refine ⟨h.stable.other hs hp hm, fun M h1 h2 h3 os ho hx => ?_⟩
  refine h.least M (fun x hx hne => ?_) (fun x hx hd => ?_) h3 os ho ((hs _ hp).1 hx)
  · rw [h1 x hx hne]
    obtain ⟨n, hn⟩ := hx
    exact hs x (fun e => hm n (e ▸ hn))
  · rw [h2 x hx hd]
    exact hs x (fun e => hp (hx ▸ e))

/-- One rule, positive in itself, from a state without its atoms. -/
theorem Drv.apply_good {d : Drv} (hwf : d.WF objects) (hn : (objects.map Obj.name).Nodup)
    (hp : d.body.Polar (fun _ => True) (fun p => p ≠ d.head)) {s : State}
    (hs : ∀ os, WellTyped objects d.params os → d.atom os ∉ s) {U : List Atom}
    (hU : ∀ s', Supported objects [d] s s' → ∀ x ∈ s', x ∈ U) {fuel : Nat} (hf : U.length < fuel) :
    ∃ r, d.apply (ObjMap.create objects) fuel s = .ok r ∧ d.Good objects r.2 := by
  have hpos : Positive [d] := by
    intro d' hd'
    rw [List.mem_singleton] at hd'
    subst hd'
    refine polar_imp _ hp (fun _ _ => trivial) ?_
    rintro p hne ⟨d'', hd'', rfl⟩
    rw [List.mem_singleton] at hd''
    exact hne (by rw [hd''])
  have hstart : Supported objects [d] s s := Supported.start (by
    rintro x hx ⟨d', hd', os, ho, rfl⟩
    rw [List.mem_singleton] at hd'
    subst hd'
    exact hs os ho hx)
  obtain ⟨l, h1, h2⟩ := gen_create objects d.params hwf.params
  obtain ⟨r, h3, h4⟩ := drvFix_pos hn (by simp) hpos hU (List.mem_singleton.2 rfl) hwf h2 fuel s hstart (by omega)
  have h5 : d.apply (ObjMap.create objects) fuel s = .ok r := by simp only [Drv.apply, h1, Res.bind_ok, h3]
  refine ⟨r, h5, (Drv.apply_ok hwf h5).1, fun M hM1 hM2 hc os ho hx => ?_⟩
  have key := h4.supp.least _ hx (fun x => M x ∧ (x ∈ r.2 ∨ x.pred = d.head) ∨ (x ∈ r.2 ∧ x.pred ≠ d.head)) ?_ ?_
  · rcases key with h | h
    · exact h.1
    · exact absurd rfl h.2
  · intro x hxd
    have hb := h4.supp.base x hxd
    show _ ↔ x ∈ s
    rw [← show (x ∈ r.2 ↔ x ∈ s) from hb]
    by_cases hpd : x.pred = d.head
    · simp only [hpd, or_true, and_true, ne_eq, not_true_eq_false, and_false, or_false]
      exact hM2 x hpd hxd
    · simp only [hpd, or_false, ne_eq, not_false_eq_true, and_true]
      tauto
  · intro d' hd' os' ho' hh
    have e := List.mem_singleton.1 hd'
    subst e
    refine Or.inl ⟨hc d' hd' os' ho' ?_, Or.inr rfl⟩
    refine (sat_congr ?_).1 hh
    rintro x hx
    by_cases hpd : x.pred = d'.head
    · simp [hpd]
    · simp only [hpd, or_false, ne_eq, not_false_eq_true, and_true]
      have := hM1 x hx hpd
      tauto

/-- All atoms are those of `s₀` or derived. -/
theorem base_bound {objects : List Obj} {ds : List Drv} (hwf : ∀ d ∈ ds, d.WF objects) (s₀ : State) :
    ∃ U : List Atom, ∀ s : State, SameBase objects ds (· ∈ s) (· ∈ s₀) → ∀ x ∈ s, x ∈ U := by
  obtain ⟨U, hU⟩ := derived_list ds hwf
  refine ⟨s₀.elems ++ U, ?_⟩
  intro s hs x hx
  rw [List.mem_append]
  by_cases hd : IsDerived objects ds x
  · exact Or.inr (hU x hd)
  · exact Or.inl (State.mem_elems.2 ((hs x hd).1 hx))

theorem drvsPass_inOrder {strat : Name → Nat} (hwf : ∀ d ∈ ds, d.WF objects) (hn : (objects.map Obj.name).Nodup)
    (hst : Stratified strat ds) {s₀ : State} {U : List Atom}
    (hU : ∀ s : State, SameBase objects ds (· ∈ s) (· ∈ s₀) → ∀ x ∈ s, x ∈ U) {fuel : Nat} (hf : U.length < fuel) :
    ∀ (ds' : List Drv) (s : State), (∀ d ∈ ds', d ∈ ds) → InOrder strat ds' →
    SameBase objects ds (· ∈ s) (· ∈ s₀) → (∀ x ∈ s, ¬ IsDerived objects ds' x) →
    ∃ r, drvsPass (ObjMap.create objects) fuel ds' s = .ok r ∧ SameBase objects ds (· ∈ r.2) (· ∈ s₀) ∧
      (∀ d ∈ ds', d.Good objects r.2) ∧
      (∀ d ∈ ds, (∀ e ∈ ds', strat d.head < strat e.head) → d.Good objects s → d.Good objects r.2)
  | [], s, _, _, hb, _ => ⟨(false, s), rfl, hb, by simp, fun _ _ _ h => h⟩
  | d :: ds', s, hsub, hord, hb, hs => by
    have hdm := hsub d (by simp)
    unfold InOrder at hord
    rw [List.pairwise_cons] at hord
    have hp : d.body.Polar (fun _ => True) (fun p => p ≠ d.head) := by
      refine polar_imp _ (hst d hdm) (fun _ _ => trivial) ?_
      rintro p h rfl
      exact absurd (h ⟨d, hdm, rfl⟩) (by omega)
    obtain ⟨r1, h1, h2⟩ := Drv.apply_good (hwf d hdm) hn hp (s := s)
      (fun os ho hx => hs _ hx ⟨d, by simp, os, ho, rfl⟩) (U := U)
      (fun s' hs' => hU s' (fun x hx => by
        have := hs'.base x (by
          rintro ⟨d', hd', os, ho, rfl⟩
          rw [List.mem_singleton] at hd'
          subst hd'
          exact hx ⟨d', hdm, os, ho, rfl⟩)
        exact Iff.trans this (hb x hx))) hf
    obtain ⟨-, h3, -⟩ := Drv.apply_ok (hwf d hdm) h1
    have hother : ∀ x : Atom, x.pred ≠ d.head → (x ∈ r1.2 ↔ x ∈ s) :=
      fun x hx => h3 x (fun os _ e => hx (by rw [e]; rfl))
    have hb1 : SameBase objects ds (· ∈ r1.2) (· ∈ s₀) := by
      intro x hx
      exact Iff.trans (h3 x (fun os ho e => hx ⟨d, hdm, os, ho, e⟩)) (hb x hx)
    have hs1 : ∀ x ∈ r1.2, ¬ IsDerived objects ds' x := by
      rintro x hx ⟨e, he, os, ho, rfl⟩
      have hlt := hord.1 e he
      refine hs _ ((hother _ ?_).1 hx) ⟨e, by simp [he], os, ho, rfl⟩
      show e.head ≠ d.head
      intro h
      rw [h] at hlt
      omega
    obtain ⟨r2, h4, h5, h6, h7⟩ := drvsPass_inOrder hwf hn hst hU hf ds' r1.2 (fun x hx => hsub x (by simp [hx]))
      hord.2 hb1 hs1
    refine ⟨(r1.1 || r2.1, r2.2), by simp only [drvsPass, h1, h4, Res.bind_ok, Res.pure_eq], h5, ?_, ?_⟩
    · intro d' hd'
      rcases List.mem_cons.1 hd' with rfl | hd'
      · exact h7 d' hdm hord.1 h2
      · exact h6 d' hd'
    · intro d' hd' hlt hg
      refine h7 d' hd' (fun e he => hlt e (by simp [he])) (hg.other hother ?_ ?_)
      · intro e
        have := hlt d (by simp)
        rw [e] at this
        omega
      · intro n hm
        have h8 := hlt d (by simp)
        rcases polar_mentions _ (hst d' hd') hm with h | h
        · have := h ⟨d, hdm, rfl⟩; omega
        · have := h ⟨d, hdm, rfl⟩; omega

/-- Rules in the order of their strata: two passes, and the result is the standard model. -/
theorem drvsFix_inOrder {strat : Name → Nat} (hwf : ∀ d ∈ ds, d.WF objects) (hn : (objects.map Obj.name).Nodup)
    (hst : Stratified strat ds) (hord : InOrder strat ds) {s : State} (hs : ∀ x ∈ s, ¬ IsDerived objects ds x) :
    ∃ s' : State, ∃ N, (∀ fuel k, N ≤ fuel → 2 ≤ k → ∃ b, drvsFix (ObjMap.create objects) fuel ds k s = .ok (b, s')) ∧
      SameBase objects ds (· ∈ s') (· ∈ s) ∧ Fixpoint objects ds (· ∈ s') ∧ ∀ k, MinAt objects ds strat (· ∈ s') k := by
  obtain ⟨U, hU⟩ := base_bound hwf s
  have run : ∀ fuel, U.length < fuel → ∃ r, drvsPass (ObjMap.create objects) fuel ds s = .ok r ∧
      SameBase objects ds (· ∈ r.2) (· ∈ s) ∧ (∀ d ∈ ds, d.Good objects r.2) := by
    intro fuel hf
    obtain ⟨r, h1, h2, h3, -⟩ := drvsPass_inOrder hwf hn hst hU hf ds s (fun _ h => h) hord (fun _ _ => Iff.rfl) hs
    exact ⟨r, h1, h2, h3⟩
  have good : ∀ s' : State, SameBase objects ds (· ∈ s') (· ∈ s) → (∀ d ∈ ds, d.Good objects s') →
      Fixpoint objects ds (· ∈ s') ∧ ∀ k, MinAt objects ds strat (· ∈ s') k := by
    intro s' hb hg
    refine ⟨fun d hd os ho => (hg d hd).stable os ho, ?_⟩
    rintro k M hM hc x ⟨d, hd, os, ho, rfl⟩ hk hx
    have hk' : strat d.head = k := hk
    have uniq : ∀ e ∈ ds, strat e.head = k → e = d := by
      intro e he hke
      by_contra hne
      have : ∀ {l : List Drv}, InOrder strat l → e ∈ l → d ∈ l → False := by
        intro l hl he hd
        induction l with
        | nil => simp at he
        | cons a l ih =>
          unfold InOrder at hl
          rw [List.pairwise_cons] at hl
          rcases List.mem_cons.1 he with h1 | h1
          · rcases List.mem_cons.1 hd with h2 | h2
            · exact hne (h1.trans h2.symm)
            · have := hl.1 d h2; rw [← h1] at this; omega
          · rcases List.mem_cons.1 hd with h2 | h2
            · have := hl.1 e h1; rw [← h2] at this; omega
            · exact ih hl.2 h1 h2
      exact this hord he hd
    have hder : ∀ y : Atom, IsDerived objects ds y → strat y.pred = k → IsDerived objects [d] y := by
      rintro y ⟨e, he, os', ho', rfl⟩ hy
      have := uniq e he hy
      subst this
      exact ⟨e, List.mem_singleton.2 rfl, os', ho', rfl⟩
    refine (hg d hd).least M ?_ ?_ ?_ os ho hx
    · rintro y ⟨n, hm⟩ hne
      refine hM y ?_
      rintro ⟨e, he, os', ho', rfl⟩
      have hne' : e.head ≠ d.head := hne
      have hle : strat e.head ≤ k := by
        rcases polar_mentions _ (hst d hd) hm with h | h
        · have : strat e.head ≤ _ := h ⟨e, he, rfl⟩; omega
        · have : strat e.head < _ := h ⟨e, he, rfl⟩; omega
      show strat e.head < k
      rcases Nat.lt_or_eq_of_le hle with h | h
      · exact h
      · exact absurd (by rw [uniq e he h]) hne'
    · rintro y hy hnd
      refine hM y (fun hyd => ?_)
      exact absurd (hder y hyd (by rw [hy]; exact hk')) hnd
    · intro e he os' ho' hh
      rw [List.mem_singleton] at he
      subst he
      exact hc e (List.mem_filter.2 ⟨hd, decide_eq_true hk'⟩) os' ho' hh
  obtain ⟨r, h1, h2, h3⟩ := run (U.length + 1) (by omega)
  have fixed : ∀ fuel k, U.length + 1 ≤ fuel → 2 ≤ k → ∃ r', drvsPass (ObjMap.create objects) fuel ds s = .ok r' ∧
      ∃ b, drvsFix (ObjMap.create objects) fuel ds k s = .ok (b, r'.2) := by
    intro fuel k hf hk
    obtain ⟨f, rfl⟩ : ∃ f, fuel = f + 1 := ⟨fuel - 1, by omega⟩
    obtain ⟨j, rfl⟩ : ∃ j, k = j + 2 := ⟨k - 2, by omega⟩
    obtain ⟨r', h4, h5, h6⟩ := run (f + 1) (by omega)
    refine ⟨r', h4, ?_⟩
    rw [drvsFix, h4]
    simp only [Res.bind_ok]
    split
    · rw [drvsFix_stable hwf (fun d hd => (h6 d hd).stable)]
      exact ⟨true, rfl⟩
    · exact ⟨r'.1, rfl⟩
  obtain ⟨hf1, hm1⟩ := good r.2 h2 h3
  refine ⟨r.2, U.length + 1, ?_, h2, hf1, hm1⟩
  intro fuel k hf hk
  obtain ⟨r', h4, b, h5⟩ := fixed fuel k hf hk
  obtain ⟨r'', h6, h7, h8⟩ := run fuel (by omega)
  have e : r'' = r' := by rw [h4] at h6; exact (Res.ok.inj h6).symm
  subst e
  obtain ⟨hf2, hm2⟩ := good r''.2 h7 h8
  have hkx : ∀ x : Atom, ∃ k, Below objects ds strat k x := fun x => ⟨strat x.pred + 1, fun _ => by omega⟩
  have : r''.2 = r.2 := by
    ext x
    obtain ⟨k, hk⟩ := hkx x
    have e1 := stdModel_eq hst hf1 h2 hm1 k x
    have e2 := stdModel_eq hst hf2 h7 hm2 k x
    constructor
    · intro hx; exact (e1.1 (e2.2 ⟨hx, hk⟩)).1
    · intro hx; exact (e2.1 (e1.2 ⟨hx, hk⟩)).1
  exact ⟨b, by rw [h5, this]⟩

end Symbolic
