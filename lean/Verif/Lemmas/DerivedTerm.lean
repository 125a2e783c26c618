import Verif.Lemmas.Derived
import Mathlib.Data.List.Perm.Subperm

/-!
When the loops of derived predicates return: acyclic rules, and positive rules from supported states.
-/

namespace Symbolic

theorem names_inj {objects : List Obj} (hn : (objects.map Obj.name).Nodup) : ∀ (os os' : List Obj),
    (∀ o ∈ os, o ∈ objects) → (∀ o ∈ os', o ∈ objects) → os.map Obj.name = os'.map Obj.name → os = os'
  | [], [], _, _, _ => rfl
  | [], _ :: _, _, _, h => by simp at h
  | _ :: _, [], _, _, h => by simp at h
  | o :: os, o' :: os', h1, h2, h => by
    simp only [List.map_cons, List.cons.injEq] at h
    have e := List.inj_on_of_nodup_map hn (h1 o (by simp)) (h2 o' (by simp)) h.1
    rw [e, names_inj hn os os' (fun x hx => h1 x (by simp [hx])) (fun x hx => h2 x (by simp [hx])) h.2]

theorem wellTyped_mem {objects : List Obj} : ∀ {params os : List Obj}, WellTyped objects params os →
    ∀ o ∈ os, o ∈ objects
  | _, _, .nil, o, ho => by simp at ho
  | _, _, .cons h hs, o, ho => by
    rcases List.mem_cons.1 ho with rfl | ho
    · exact h.1
    · exact wellTyped_mem hs o ho

theorem Drv.atom_inj {objects : List Obj} (hn : (objects.map Obj.name).Nodup) {d : Drv} {os os' : List Obj}
    (h1 : WellTyped objects d.params os) (h2 : WellTyped objects d.params os') (h : d.atom os = d.atom os') : os = os' := by
  simp only [Drv.atom, Atom.mk.injEq] at h
  exact names_inj hn os os' (wellTyped_mem h1) (wellTyped_mem h2) h.2

/-- Rules with distinct heads are determined by an atom. -/
theorem head_inj {ds : List Drv} (hn : (ds.map Drv.head).Nodup) {d d' : Drv} (h1 : d ∈ ds) (h2 : d' ∈ ds)
    (h : d.head = d'.head) : d = d' := List.inj_on_of_nodup_map hn h1 h2 h

/-! ## Uniqueness for acyclic rules -/

theorem fixpoint_unique {objects : List Obj} {ds : List Drv} {rank : Name → Nat} (ha : Acyclic rank ds)
    {S T : Atom → Prop} (hS : Fixpoint objects ds S) (hT : Fixpoint objects ds T) (hb : SameBase objects ds S T) :
    ∀ (n : Nat) (x : Atom), rank x.pred < n → (S x ↔ T x)
  | 0, x, h => by omega
  | n + 1, x, h => by
    by_cases hx : IsDerived objects ds x
    · obtain ⟨d, hd, os, ho, rfl⟩ := hx
      rw [hS d hd os ho, hT d hd os ho]
      apply sat_congr
      rintro y ⟨k, hm⟩
      by_cases hy : IsDerived objects ds y
      · have hy' := hy
        obtain ⟨d', hd', os', ho', rfl⟩ := hy'
        have hr := ha d hd _ k hm ⟨d', hd', rfl⟩
        have hr2 : rank d.head < n + 1 := h
        exact fixpoint_unique ha hS hT hb n _ (by omega)
      · exact hb y hy
    · exact hb x hx

variable [StrHash] {objects : List Obj}

/-! ## Acyclic rules -/

theorem drvPass_nonrec {d : Drv} (hd : d.WF objects) (hn : (objects.map Obj.name).Nodup)
    (hm : ∀ n, ¬ d.body.Mentions d.head n) {s₀ : State} : ∀ (l : List (List Obj)) (s : State),
    (∀ os ∈ l, WellTyped objects d.params os) → (∀ x : Atom, x.pred ≠ d.head → (x ∈ s ↔ x ∈ s₀)) →
    ∀ r, drvPass (ObjMap.create objects) d l s = .ok r →
      ∀ os ∈ l, (d.atom os ∈ r.2 ↔ d.Holds objects (· ∈ s₀) os)
  | [], s, _, _, r, _, os, ho => by simp at ho
  | o :: l, s, hl, hs, r, hr, os, ho => by
    have hlo := hl o (by simp)
    obtain ⟨b, h1, h2⟩ := d.eval_holds hd s hlo
    rw [drvPass_cons h1, Res.bind_eq_ok] at hr
    obtain ⟨r', h3, h4⟩ := hr
    simp only [Res.pure_eq, Res.ok.injEq] at h4
    subst h4
    have hs' : ∀ x : Atom, x.pred ≠ d.head → (x ∈ (drvStep b (d.atom o) s).2 ↔ x ∈ s₀) := by
      intro x hx
      rw [drvStep_mem, if_neg (fun e => hx (by rw [e]; rfl))]
      exact hs x hx
    have hl' : ∀ os ∈ l, WellTyped objects d.params os := fun x hx => hl x (by simp [hx])
    have ih := drvPass_nonrec hd hn hm l _ hl' hs' r' h3
    by_cases hin : os ∈ l
    · exact ih os hin
    · have e : os = o := by rcases List.mem_cons.1 ho with h | h; exact h; exact absurd h hin
      subst e
      obtain ⟨b', s', h5, h6, -, -⟩ := drvPass_total hd l (drvStep b (d.atom os) s).2 hl'
      rw [h5, Res.ok.injEq] at h3
      subst h3
      have hne : ∀ o' ∈ l, d.atom os ≠ d.atom o' := fun o' ho' he =>
        hin (d.atom_inj hn hlo (hl' o' ho') he ▸ ho')
      show d.atom os ∈ s' ↔ _
      rw [h6 _ hne, drvStep_mem, if_pos rfl, h2]
      exact sat_congr (fun x ⟨k, hx⟩ => hs x (fun e => hm k (e ▸ hx)))

/-- A rule that does not mention its head returns after at most two passes. -/
theorem Drv.apply_nonrec {d : Drv} (hd : d.WF objects) (hn : (objects.map Obj.name).Nodup)
    (hm : ∀ n, ¬ d.body.Mentions d.head n) (fuel : Nat) (s : State) :
    ∃ r, d.apply (ObjMap.create objects) (fuel + 2) s = .ok r := by
  obtain ⟨l, h1, h2⟩ := gen_create objects d.params hd.params
  have hl : ∀ os ∈ l, WellTyped objects d.params os := fun os ho => (h2 os).1 ho
  obtain ⟨b, s', h3, h4, -, -⟩ := drvPass_total hd l s hl
  have h5 := drvPass_nonrec hd hn hm (s₀ := s) l s hl (fun _ _ => Iff.rfl) _ h3
  have hst : d.Stable objects s' := by
    intro os ho
    rw [h5 os ((h2 os).2 ho)]
    refine sat_congr (fun x ⟨k, hx⟩ => (h4 x ?_).symm)
    intro o _ e
    subst e
    exact hm k hx
  simp only [Drv.apply, h1, Res.bind_ok]
  rw [drvFix, h3]
  simp only [Res.bind_ok]
  cases b with
  | false => exact ⟨_, rfl⟩
  | true =>
    rw [if_pos rfl, drvFix_stable hd h2 hst]
    exact ⟨_, rfl⟩

/-- Changing only atoms of another predicate keeps a rule stable. -/
theorem Drv.Stable.other {d : Drv} {s s' : State} (h : d.Stable objects s) {p : Name}
    (hs : ∀ x : Atom, x.pred ≠ p → (x ∈ s' ↔ x ∈ s)) (hp : d.head ≠ p) (hm : ∀ n, ¬ d.body.Mentions p n) :
    d.Stable objects s' := by
  intro os ho
  rw [hs _ hp, h os ho]
  exact sat_congr (fun x ⟨k, hx⟩ => (hs x (fun e => hm k (e ▸ hx))).symm)

theorem drvsPass_rank {ds : List Drv} {rank : Name → Nat} (hd : ∀ d ∈ ds, d.WF objects)
    (hn : (objects.map Obj.name).Nodup) (ha : Acyclic rank ds) (fuel n : Nat) : ∀ (ds' : List Drv) (s : State),
    (∀ d ∈ ds', d ∈ ds) → (ds'.map Drv.head).Nodup →
    (∀ d ∈ ds, rank d.head < n → d.Stable objects s) →
    ∃ r, drvsPass (ObjMap.create objects) (fuel + 2) ds' s = .ok r ∧
      (∀ d ∈ ds', rank d.head ≤ n → d.Stable objects r.2) ∧
      (∀ d ∈ ds, rank d.head ≤ n → d.head ∉ ds'.map Drv.head → d.Stable objects s → d.Stable objects r.2)
  | [], s, _, _, _ => ⟨_, rfl, by simp, fun _ _ _ _ h => h⟩
  | d :: ds', s, hsub, hnd, hst => by
    have hdm := hsub d (by simp)
    have hm : ∀ k, ¬ d.body.Mentions d.head k := fun k h => by
      have := ha d hdm d.head k h ⟨d, hdm, rfl⟩
      omega
    obtain ⟨r1, h1⟩ := d.apply_nonrec (hd d hdm) hn hm fuel s
    obtain ⟨h2, h3, h4⟩ := Drv.apply_ok (hd d hdm) h1
    have hother : ∀ x : Atom, x.pred ≠ d.head → (x ∈ r1.2 ↔ x ∈ s) :=
      fun x hx => h3 x (fun os _ e => hx (by rw [e]; rfl))
    have keep : ∀ d' ∈ ds, rank d'.head ≤ n → d'.head ≠ d.head → d'.Stable objects s → d'.Stable objects r1.2 := by
      intro d' hd' hr hne hs'
      by_cases hlt : rank d.head < n
      · have hs1 := Drv.apply_stable (fuel := fuel + 1) (hd d hdm) (hst d hdm hlt)
        rw [h1, Res.ok.injEq] at hs1
        rw [hs1]
        exact hs'
      · refine hs'.other hother hne ?_
        intro k h
        have := ha d' hd' d.head k h ⟨d, hdm, rfl⟩
        omega
    simp only [List.map_cons, List.nodup_cons] at hnd
    obtain ⟨r2, h5, h6, h7⟩ := drvsPass_rank hd hn ha fuel n ds' r1.2 (fun x hx => hsub x (by simp [hx])) hnd.2
      (fun d' hd' hr => by
        by_cases he : d'.head = d.head
        · have hlt : rank d.head < n := he ▸ hr
          have hs1 := Drv.apply_stable (fuel := fuel + 1) (hd d hdm) (hst d hdm hlt)
          rw [h1, Res.ok.injEq] at hs1
          rw [hs1]
          exact hst d' hd' hr
        · exact keep d' hd' (by omega) he (hst d' hd' hr))
    refine ⟨(r1.1 || r2.1, r2.2), by simp only [drvsPass, h1, h5, Res.bind_ok, Res.pure_eq], ?_, ?_⟩
    · intro d' hd' hr
      rcases List.mem_cons.1 hd' with rfl | hd'
      · exact h7 d' hdm hr hnd.1 h2
      · exact h6 d' hd' hr
    · intro d' hd' hr hne hs'
      simp only [List.map_cons, List.mem_cons, not_or] at hne
      exact h7 d' hd' hr hne.2 (keep d' hd' hr hne.1 hs')

theorem drvsFix_acyclic {ds : List Drv} {rank : Name → Nat} (hd : ∀ d ∈ ds, d.WF objects)
    (hn : (objects.map Obj.name).Nodup) (hh : (ds.map Drv.head).Nodup) (ha : Acyclic rank ds) {N : Nat}
    (hN : ∀ d ∈ ds, rank d.head < N) (fuel : Nat) : ∀ (k n : Nat) (s : State), N ≤ n + k →
    (∀ d ∈ ds, rank d.head < n → d.Stable objects s) →
    ∃ r, drvsFix (ObjMap.create objects) (fuel + 2) ds (k + 1) s = .ok r
  | 0, n, s, hk, hs => by
    rw [drvsFix_stable hd (fun d hm => hs d hm (by have := hN d hm; omega))]
    exact ⟨_, rfl⟩
  | k + 1, n, s, hk, hs => by
    obtain ⟨r, h1, h2, -⟩ := drvsPass_rank hd hn ha fuel n ds s (fun _ h => h) hh hs
    rw [drvsFix, h1]
    simp only [Res.bind_ok]
    split
    · obtain ⟨r2, h3⟩ := drvsFix_acyclic hd hn hh ha hN fuel k (n + 1) r.2 (by omega)
        (fun d hm hr => h2 d hm (by omega))
      rw [h3]
      exact ⟨_, rfl⟩
    · exact ⟨_, rfl⟩

/-! ## Positive rules -/

/-- Invariant of the loops for positive rules: the base atoms are those of `s₀`, every atom is in the least model, and
every derived atom has a true body. -/
structure Supported (objects : List Obj) (ds : List Drv) (s₀ s : State) : Prop where
  base : SameBase objects ds (· ∈ s) (· ∈ s₀)
  least : ∀ x ∈ s, LeastModel objects ds (· ∈ s₀) x
  body : ∀ d ∈ ds, ∀ os, WellTyped objects d.params os → d.atom os ∈ s → d.Holds objects (· ∈ s) os

omit [StrHash] in
theorem Drv.Holds.mono {ds : List Drv} (hp : Positive ds) {d : Drv} (hd : d ∈ ds) {S T : Atom → Prop}
    (h : ∀ x, S x → T x) (hb : SameBase objects ds S T) {os : List Obj} (ho : d.Holds objects S os) :
    d.Holds objects T os :=
  sat_mono objects d.body S T _ _ _ (hp d hd) (fun x _ => h x)
    (fun x hx => (hb x (fun ⟨d', hd', os', _, e⟩ => hx ⟨d', hd', by rw [e]; rfl⟩)).2) ho

theorem Supported.start {ds : List Drv} {s : State} (h : ∀ x ∈ s, ¬ IsDerived objects ds x) :
    Supported objects ds s s where
  base := fun _ _ => Iff.rfl
  least := fun x hx _ hM _ => (hM x (h x hx)).2 hx
  body := fun d hd os ho hx => absurd ⟨d, hd, os, ho, rfl⟩ (h _ hx)

variable {ds : List Drv} {s₀ : State}

theorem Supported.insert (hn : (objects.map Obj.name).Nodup) (hh : (ds.map Drv.head).Nodup) (hp : Positive ds)
    {s : State} (h : Supported objects ds s₀ s) {d : Drv} (hd : d ∈ ds) {os : List Obj}
    (ho : WellTyped objects d.params os) (hb : d.Holds objects (· ∈ s) os) :
    Supported objects ds s₀ (s.insert (d.atom os)).2 := by
  have hbase : SameBase objects ds (· ∈ (s.insert (d.atom os)).2) (· ∈ s) := by
    intro x hx
    show x ∈ (s.insert (d.atom os)).2 ↔ x ∈ s
    rw [State.mem_insert]
    constructor
    · rintro (rfl | h')
      · exact absurd ⟨d, hd, os, ho, rfl⟩ hx
      · exact h'
    · exact Or.inr
  refine ⟨fun x hx => (hbase x hx).trans (h.base x hx), ?_, ?_⟩
  · intro x hx
    rcases State.mem_insert.1 hx with rfl | hx
    · intro M hM hc
      refine hc d hd os ho (Drv.Holds.mono hp hd (S := (· ∈ s)) (fun x hx => h.least x hx M hM hc) ?_ hb)
      intro x hx
      exact (h.base x hx).trans (hM x hx).symm
    · exact h.least x hx
  · intro d' hd' os' ho' hx
    have hmono : ∀ {d' : Drv} {os' : List Obj}, d' ∈ ds → d'.Holds objects (· ∈ s) os' →
        d'.Holds objects (· ∈ (s.insert (d.atom os)).2) os' := fun hd' hb' =>
      Drv.Holds.mono hp hd' (fun x hx => State.mem_insert.2 (Or.inr hx)) (fun x hx => (hbase x hx).symm) hb'
    rcases State.mem_insert.1 hx with e | hx
    · have e' : d'.head = d.head := congrArg Atom.pred e
      have := head_inj hh hd' hd e'
      subst this
      rw [d'.atom_inj hn ho' ho e]
      exact hmono hd hb
    · exact hmono hd' (h.body d' hd' os' ho' hx)

theorem drvPass_pos (hn : (objects.map Obj.name).Nodup) (hh : (ds.map Drv.head).Nodup) (hp : Positive ds)
    {d : Drv} (hd : d ∈ ds) (hwf : d.WF objects) : ∀ (l : List (List Obj)) (s : State),
    (∀ os ∈ l, WellTyped objects d.params os) → Supported objects ds s₀ s →
    ∀ r, drvPass (ObjMap.create objects) d l s = .ok r →
      Supported objects ds s₀ r.2 ∧ (∀ x ∈ s, x ∈ r.2) ∧ (r.1 = true → ∃ x ∈ r.2, x ∉ s)
  | [], s, _, hs, r, hr => by
    simp only [drvPass, Res.ok.injEq] at hr
    subst hr
    exact ⟨hs, fun x hx => hx, by simp⟩
  | o :: l, s, hl, hs, r, hr => by
    have hlo := hl o (by simp)
    obtain ⟨b, h1, h2⟩ := d.eval_holds hwf s hlo
    rw [drvPass_cons h1, Res.bind_eq_ok] at hr
    obtain ⟨r', h3, h4⟩ := hr
    simp only [Res.pure_eq, Res.ok.injEq] at h4
    subst h4
    have hl' : ∀ os ∈ l, WellTyped objects d.params os := fun x hx => hl x (by simp [hx])
    cases b with
    | true =>
      have hs' := hs.insert hn hh hp hd hlo (h2.1 rfl)
      obtain ⟨h5, h6, h7⟩ := drvPass_pos hn hh hp hd hwf l _ hl' hs' r' h3
      refine ⟨h5, fun x hx => h6 x (State.mem_insert.2 (Or.inr hx)), ?_⟩
      simp only [Bool.or_eq_true]
      rintro (hf | hf)
      · have hx : d.atom o ∉ s := by
          intro hx
          have := (drvStep_flag (b := true) (x := d.atom o) (s := s)).2 (by simp [hx])
          simp [this] at hf
        exact ⟨d.atom o, h6 _ (State.mem_insert.2 (Or.inl rfl)), hx⟩
      · obtain ⟨x, hx1, hx2⟩ := h7 hf
        exact ⟨x, hx1, fun hx => hx2 (State.mem_insert.2 (Or.inr hx))⟩
    | false =>
      have hx : d.atom o ∉ s := fun hx => by
        have := h2.2 (hs.body d hd o hlo hx)
        simp at this
      have hf := (drvStep_flag (b := false) (x := d.atom o) (s := s)).2 (by simp [hx])
      rw [drvStep_same hf] at h3
      obtain ⟨h5, h6, h7⟩ := drvPass_pos hn hh hp hd hwf l _ hl' hs r' h3
      refine ⟨h5, h6, ?_⟩
      simp only [hf, Bool.false_or]
      exact h7

omit [StrHash] in
theorem derived_list : ∀ ds : List Drv, (∀ d ∈ ds, d.WF objects) →
    ∃ U : List Atom, ∀ x, IsDerived objects ds x → x ∈ U
  | [], _ => ⟨[], by rintro x ⟨d, hd, -⟩; simp at hd⟩
  | d :: ds, h => by
    obtain ⟨U, hU⟩ := derived_list ds (fun d' hd' => h d' (by simp [hd']))
    obtain ⟨l, -, hl⟩ := gen_create objects d.params (h d (by simp)).params
    refine ⟨l.map d.atom ++ U, ?_⟩
    rintro x ⟨d', hd', os, ho, rfl⟩
    rw [List.mem_append]
    rcases List.mem_cons.1 hd' with rfl | hd'
    · exact Or.inl (List.mem_map.2 ⟨os, (hl os).2 ho, rfl⟩)
    · exact Or.inr (hU _ ⟨d', hd', os, ho, rfl⟩)

theorem size_le {s : State} {U : List Atom} (h : ∀ x ∈ s, x ∈ U) : s.size ≤ U.length := by
  rw [State.size_eq]
  exact (s.elems_nodup.subperm (fun x hx => h x (State.mem_elems.1 hx))).length_le

theorem size_lt {s t : State} (h : ∀ x ∈ s, x ∈ t) {x : Atom} (h1 : x ∈ t) (h2 : x ∉ s) : s.size < t.size := by
  rw [State.size_eq, State.size_eq]
  have hnd : (x :: s.elems).Nodup := List.nodup_cons.2 ⟨fun hx => h2 (State.mem_elems.1 hx), s.elems_nodup⟩
  have := (hnd.subperm (l₂ := t.elems) (fun y hy => by
    rcases List.mem_cons.1 hy with rfl | hy
    · exact State.mem_elems.2 h1
    · exact State.mem_elems.2 (h y (State.mem_elems.1 hy)))).length_le
  simp only [List.length_cons] at this
  omega

/-- The outcome of a loop for positive rules. -/
structure Grows (objects : List Obj) (ds : List Drv) (s₀ s : State) (r : Bool × State) : Prop where
  supp : Supported objects ds s₀ r.2
  sub : ∀ x ∈ s, x ∈ r.2
  more : r.1 = true → s.size < r.2.size

theorem drvFix_pos (hn : (objects.map Obj.name).Nodup) (hh : (ds.map Drv.head).Nodup) (hp : Positive ds)
    {U : List Atom} (hU : ∀ s, Supported objects ds s₀ s → ∀ x ∈ s, x ∈ U)
    {d : Drv} (hd : d ∈ ds) (hwf : d.WF objects) {l : List (List Obj)}
    (hl : ∀ os, os ∈ l ↔ WellTyped objects d.params os) : ∀ (k : Nat) (s : State),
    Supported objects ds s₀ s → U.length < s.size + k →
    ∃ r, drvFix (ObjMap.create objects) d l k s = .ok r ∧ Grows objects ds s₀ s r
  | 0, s, hs, hk => by have := size_le (hU s hs); omega
  | k + 1, s, hs, hk => by
    obtain ⟨b, s', h1, -, -, h4⟩ := drvPass_total hwf l s (fun os ho => (hl os).1 ho)
    obtain ⟨h5, h6, h7⟩ := drvPass_pos hn hh hp hd hwf l s (fun os ho => (hl os).1 ho) hs _ h1
    cases b with
    | false => exact ⟨(false, s'), by simp [drvFix, h1], h5, h6, by simp⟩
    | true =>
      obtain ⟨x, hx1, hx2⟩ := h7 rfl
      have hlt := size_lt h6 hx1 hx2
      obtain ⟨r, h8, h9⟩ := drvFix_pos hn hh hp hU hd hwf hl k s' h5 (by simp only at hlt; omega)
      refine ⟨(true, r.2), by simp [drvFix, h1, h8], h9.supp, fun x hx => h9.sub x (h6 x hx), fun _ => ?_⟩
      exact Nat.lt_of_lt_of_le hlt (size_le (U := r.2.elems) (fun x hx => State.mem_elems.2 (h9.sub x hx)) |>.trans
        (by rw [State.size_eq]))

theorem Grows.le {s : State} {r : Bool × State} (h : Grows objects ds s₀ s r) : s.size ≤ r.2.size :=
  (size_le (U := r.2.elems) (fun x hx => State.mem_elems.2 (h.sub x hx))).trans (by rw [State.size_eq])

theorem drvsPass_pos (hn : (objects.map Obj.name).Nodup) (hh : (ds.map Drv.head).Nodup) (hp : Positive ds)
    (hwf : ∀ d ∈ ds, d.WF objects) {U : List Atom} (hU : ∀ s, Supported objects ds s₀ s → ∀ x ∈ s, x ∈ U)
    {fuel : Nat} (hf : U.length < fuel) : ∀ (ds' : List Drv) (s : State), (∀ d ∈ ds', d ∈ ds) →
    Supported objects ds s₀ s →
    ∃ r, drvsPass (ObjMap.create objects) fuel ds' s = .ok r ∧ Grows objects ds s₀ s r
  | [], s, _, hs => ⟨_, rfl, hs, fun x hx => hx, by simp⟩
  | d :: ds', s, hsub, hs => by
    have hdm := hsub d (by simp)
    obtain ⟨l, h1, h2⟩ := gen_create objects d.params (hwf d hdm).params
    obtain ⟨r1, h3, h4⟩ := drvFix_pos hn hh hp hU hdm (hwf d hdm) h2 fuel s hs (by omega)
    obtain ⟨r2, h5, h6⟩ := drvsPass_pos hn hh hp hwf hU hf ds' r1.2 (fun x hx => hsub x (by simp [hx])) h4.supp
    refine ⟨(r1.1 || r2.1, r2.2), by simp only [drvsPass, Drv.apply, h1, h3, h5, Res.bind_ok, Res.pure_eq], h6.supp,
      fun x hx => h6.sub x (h4.sub x hx), ?_⟩
    simp only [Bool.or_eq_true]
    rintro (hb | hb)
    · exact Nat.lt_of_lt_of_le (h4.more hb) h6.le
    · exact Nat.lt_of_le_of_lt h4.le (h6.more hb)

theorem drvsFix_pos (hn : (objects.map Obj.name).Nodup) (hh : (ds.map Drv.head).Nodup) (hp : Positive ds)
    (hwf : ∀ d ∈ ds, d.WF objects) {U : List Atom} (hU : ∀ s, Supported objects ds s₀ s → ∀ x ∈ s, x ∈ U)
    {fuel : Nat} (hf : U.length < fuel) : ∀ (k : Nat) (s : State), Supported objects ds s₀ s →
    U.length < s.size + k → ∃ r, drvsFix (ObjMap.create objects) fuel ds k s = .ok r ∧ Grows objects ds s₀ s r
  | 0, s, hs, hk => by have := size_le (hU s hs); omega
  | k + 1, s, hs, hk => by
    obtain ⟨r1, h1, h2⟩ := drvsPass_pos hn hh hp hwf hU hf ds s (fun _ h => h) hs
    cases hb : r1.1 with
    | false => exact ⟨r1, by simp [drvsFix, h1, hb], h2⟩
    | true =>
      have hlt := h2.more hb
      obtain ⟨r, h3, h4⟩ := drvsFix_pos hn hh hp hwf hU hf k r1.2 h2.supp (by omega)
      exact ⟨(true, r.2), by simp [drvsFix, h1, hb, h3], h4.supp, fun x hx => h4.sub x (h2.sub x hx),
        fun _ => Nat.lt_of_lt_of_le hlt h4.le⟩

theorem supported_bound (hwf : ∀ d ∈ ds, d.WF objects) (s₀ : State) :
    ∃ U : List Atom, ∀ s, Supported objects ds s₀ s → ∀ x ∈ s, x ∈ U := by
  obtain ⟨U, hU⟩ := derived_list ds hwf
  refine ⟨s₀.elems ++ U, ?_⟩
  intro s hs x hx
  rw [List.mem_append]
  by_cases hd : IsDerived objects ds x
  · exact Or.inr (hU x hd)
  · exact Or.inl (State.mem_elems.2 ((hs.base x hd).1 hx))

end Symbolic
