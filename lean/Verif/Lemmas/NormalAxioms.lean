import Verif.Model.NormalAxioms
import Verif.Lemmas.NormalEff

/-!
Normal forms whose disjuncts are checked by `valid`. `good` are the states in which no rejected disjunct is true.
-/

namespace Symbolic

variable [StrHash]

/-- A rejected conjunction is true in no good state. -/
def Sound (objects : List Obj) (valid : PartialState → Res Bool) (good : (Atom → Prop) → Prop) : Prop :=
  ∀ c, valid c = .ok false → ∀ S, good S → ¬ ConjTrue objects S c

/-- The checked normal form `r` of something that is true where `p` says: it is true at most there, and exactly there
among the good states; its disjuncts are accepted. -/
structure Checked (objects : List Obj) (valid : PartialState → Res Bool) (good : (Atom → Prop) → Prop)
    (p : (Atom → Prop) → Prop) (r : Option Dnf) : Prop where
  least : ∀ S, DnfTrue objects S r → p S
  exact : ∀ S, good S → (DnfTrue objects S r ↔ p S)
  accepted : ∀ l, r = some l → ∀ c ∈ l, valid c = .ok true
  lits : ∀ l, r = some l → GoodDnf objects l

theorem evaluateConjA_none {valid : PartialState → Res Bool} {c : NfCtx} {conj : PartialState} {e : Option Bool}
    (h : evaluateConjA valid c conj = .ok e) :
    ∃ e0, evaluateConj c conj = .ok e0 ∧
      ((∃ b, e0 = some b ∧ e = some b) ∨ (e0 = none ∧ ((valid conj = .ok true ∧ e = none) ∨
        (valid conj = .ok false ∧ e = some false)))) := by
  unfold evaluateConjA at h
  rw [Res.bind_eq_ok] at h
  obtain ⟨e0, h1, h2⟩ := h
  refine ⟨e0, h1, ?_⟩
  cases e0 with
  | some b =>
    simp only [Res.pure_eq, Res.ok.injEq] at h2
    exact Or.inl ⟨b, rfl, h2.symm⟩
  | none =>
    simp only [Res.bind_eq_ok, Res.pure_eq, Res.ok.injEq] at h2
    obtain ⟨v, h3, h4⟩ := h2
    refine Or.inr ⟨rfl, ?_⟩
    cases v with
    | true => exact Or.inl ⟨h3, by simpa using h4.symm⟩
    | false => exact Or.inr ⟨h3, by simpa using h4.symm⟩

theorem simplifyLoopA_spec {objects : List Obj} (hnd : (objects.map Obj.name).Nodup)
    {valid : PartialState → Res Bool} {good : (Atom → Prop) → Prop} (hv : Sound objects valid good) :
    ∀ (l ret : List PartialState) (r : Option (List PartialState)), (∀ c ∈ l, ConjGround objects c) → Antichain ret →
    (∀ c ∈ ret, valid c = .ok true) →
    simplifyLoopA valid ⟨objects, ObjMap.create objects, []⟩ l ret = .ok r →
      (r = none → ∀ S, SomeTrue objects S l) ∧
      ∀ ret', r = some ret' → Antichain ret' ∧ (∀ c ∈ ret', valid c = .ok true) ∧ (∀ c ∈ ret', c ∈ ret ∨ c ∈ l) ∧
        (∀ S, SomeTrue objects S ret' → SomeTrue objects S ret ∨ SomeTrue objects S l) ∧
        (∀ S, SomeTrue objects S ret → SomeTrue objects S ret') ∧
        ∀ S, good S → (SomeTrue objects S ret' ↔ SomeTrue objects S ret ∨ SomeTrue objects S l)
  | [], ret, r, _, ha, hc, h => by
    simp only [simplifyLoopA, Res.ok.injEq] at h
    subst h
    refine ⟨by simp, ?_⟩
    rintro ret' h
    cases h
    exact ⟨ha, hc, fun c h => Or.inl h, fun S h => Or.inl h, fun S h => h, fun S _ => by simp [SomeTrue]⟩
  | conj :: rest, ret, r, hg, ha, hc, h => by
    obtain ⟨e0', h1', h2, h3, h4⟩ := evaluateConj_spec hnd (hg conj (by simp))
    have hcons : ∀ S, SomeTrue objects S (conj :: rest) ↔ ConjTrue objects S conj ∨ SomeTrue objects S rest := by
      intro S; simp [SomeTrue]
    unfold simplifyLoopA at h
    rw [Res.bind_eq_ok] at h
    obtain ⟨e, he, h⟩ := h
    obtain ⟨e0, h1, hcase⟩ := evaluateConjA_none he
    rw [h1'] at h1
    cases h1
    -- the conjunction is dropped
    have hdrop : (∀ S, good S → ¬ ConjTrue objects S conj) →
        simplifyLoopA valid ⟨objects, ObjMap.create objects, []⟩ rest ret = .ok r →
        (r = none → ∀ S, SomeTrue objects S (conj :: rest)) ∧
        ∀ ret', r = some ret' → Antichain ret' ∧ (∀ c ∈ ret', valid c = .ok true) ∧
          (∀ c ∈ ret', c ∈ ret ∨ c ∈ conj :: rest) ∧
          (∀ S, SomeTrue objects S ret' → SomeTrue objects S ret ∨ SomeTrue objects S (conj :: rest)) ∧
          (∀ S, SomeTrue objects S ret → SomeTrue objects S ret') ∧
          ∀ S, good S → (SomeTrue objects S ret' ↔ SomeTrue objects S ret ∨ SomeTrue objects S (conj :: rest)) := by
      intro hno h
      obtain ⟨j2, j3⟩ := simplifyLoopA_spec hnd hv rest ret r (fun c h => hg c (by simp [h])) ha hc h
      refine ⟨fun hr S => (hcons S).2 (Or.inr (j2 hr S)), fun ret' hr => ?_⟩
      obtain ⟨k1, k2, k3, k4, k5, k6⟩ := j3 ret' hr
      refine ⟨k1, k2, ?_, ?_, k5, ?_⟩
      · intro c h
        rcases k3 c h with h | h
        · exact Or.inl h
        · right; simp [h]
      · intro S hS
        rw [hcons]
        have := k4 S hS
        tauto
      · intro S hS
        rw [k6 S hS, hcons]
        have := hno S hS
        tauto
    rcases hcase with ⟨b, rfl, rfl⟩ | ⟨rfl, ⟨hvt, rfl⟩ | ⟨hvf, rfl⟩⟩
    · cases b with
      | true =>
        simp only [Res.pure_eq, Res.ok.injEq] at h
        subst h
        exact ⟨fun _ S => (hcons S).2 (Or.inl (h2 rfl S)), by simp⟩
      | false => exact hdrop (fun S _ => h3 rfl S) h
    · obtain ⟨i1, i2, i3, i4⟩ := insertConj_spec conj ret ha
      obtain ⟨j2, j3⟩ := simplifyLoopA_spec hnd hv rest (insertConj conj ret) r (fun c h => hg c (by simp [h])) i1
        (fun c h => by
          rcases i2 c h with rfl | h
          · exact hvt
          · exact hc c h) h
      refine ⟨fun hr S => (hcons S).2 (Or.inr (j2 hr S)), ?_⟩
      intro ret' hr
      obtain ⟨k1, k2, k3, k4, k5, k6⟩ := j3 ret' hr
      refine ⟨k1, k2, ?_, ?_, ?_, ?_⟩
      · intro c h
        rcases k3 c h with h | h
        · rcases i2 c h with rfl | h
          · right; simp
          · exact Or.inl h
        · right; simp [h]
      · intro S hS
        have := k4 S hS
        rw [i4] at this
        rw [hcons]
        tauto
      · intro S hS
        exact k5 S ((i4 objects S).2 (Or.inl hS))
      · intro S hS
        rw [k6 S hS, i4, hcons]
        exact or_assoc
    · exact hdrop (fun S hS => hv conj hvf S hS) h

theorem simplifyA_spec {objects : List Obj} (hnd : (objects.map Obj.name).Nodup)
    {valid : PartialState → Res Bool} {good : (Atom → Prop) → Prop} (hv : Sound objects valid good)
    {dnf : Dnf} {r : Option Dnf} (hne : dnf ≠ []) (hg : GoodDnf objects dnf)
    (h : simplifyA valid ⟨objects, ObjMap.create objects, []⟩ dnf = .ok r) :
    Checked objects valid good (fun S => SomeTrue objects S dnf) r ∧
      ∀ l, r = some l → l.Pairwise (fun a b => a.lt b = true) ∧ Antichain l ∧ ∀ c ∈ l, c ∈ dnf := by
  unfold simplifyA at h
  rw [if_neg hne, Res.bind_eq_ok] at h
  obtain ⟨r0, h1, h⟩ := h
  obtain ⟨h2, h3⟩ := simplifyLoopA_spec hnd hv dnf [] r0 (fun c hc => (hg c hc).1) (by intro a ha; simp at ha) (by simp) h1
  cases r0 with
  | none =>
    simp only [Res.pure_eq, Res.ok.injEq] at h
    subst h
    refine ⟨⟨fun S _ => h2 rfl S, fun S _ => ⟨fun _ => h2 rfl S, fun _ => Or.inl rfl⟩, ?_, ?_⟩, ?_⟩
    · rintro l h; cases h; simp
    · rintro l h; cases h; intro c hc; simp at hc
    · rintro l h
      cases h
      exact ⟨List.Pairwise.nil, by intro a ha; simp at ha, by simp⟩
  | some ret =>
    simp only [Res.pure_eq, Res.ok.injEq] at h
    subst h
    obtain ⟨k1, k2, k3, k4, -, k6⟩ := h3 ret rfl
    have h0 : ∀ S, ¬ SomeTrue objects S [] := by simp [SomeTrue]
    have hmem : ∀ l, (if ret = [] then none else some (sortUnique ret)) = some l →
        l = sortUnique ret ∧ ∀ c ∈ l, c ∈ ret := by
      intro l hl
      split at hl
      · simp at hl
      · cases hl
        exact ⟨rfl, fun c hc => mem_sortUnique.1 hc⟩
    have hD : ∀ S, DnfTrue objects S (if ret = [] then none else some (sortUnique ret)) ↔ SomeTrue objects S ret := by
      intro S
      split
      · rename_i he
        subst he
        simp [DnfTrue, SomeTrue]
      · rename_i he
        have hne' : sortUnique ret ≠ [] := by
          intro h0
          obtain ⟨x, hx⟩ := List.exists_mem_of_ne_nil _ he
          have := mem_sortUnique.2 hx
          rw [h0] at this; simp at this
        have hs : SomeTrue objects S (sortUnique ret) ↔ SomeTrue objects S ret := by
          simp only [SomeTrue, mem_sortUnique]
        simp only [DnfTrue, hne', false_or, hs]
    have hd : ∀ c ∈ ret, c ∈ dnf := fun c hc => by
      rcases k3 c hc with h | h
      · simp at h
      · exact h
    refine ⟨⟨?_, ?_, ?_, ?_⟩, ?_⟩
    · intro S hS
      exact (k4 S ((hD S).1 hS)).resolve_left (h0 S)
    · intro S hS
      rw [hD, k6 S hS]
      have := h0 S
      tauto
    · intro l hl c hc
      exact k2 c ((hmem l hl).2 c hc)
    · intro l hl c hc
      exact hg c (hd c ((hmem l hl).2 c hc))
    · intro l hl
      obtain ⟨rfl, hm⟩ := hmem l hl
      exact ⟨sortUnique_sorted _, fun a ha b hb => k1 a (hm a ha) b (hm b hb), fun c hc => hd c (hm c hc)⟩

/-- The combinations that `Conjoin` simplifies. -/
theorem conjoin_list {objects : List Obj} {ds : List Dnf} (hg : ∀ d ∈ ds, GoodDnf objects d) :
    ∃ combos : List (List PartialState), (do
        let options ← Comb.ctor (ds.filter (fun d => decide (d ≠ [])))
        Comb.forward PartialState.empty options (Comb.size options + 1)) = .ok combos ∧
      GoodDnf objects (combos.map unionConj) ∧
      ((combos.map unionConj = [] ∧ ∀ d ∈ ds, d = []) ∨ (combos.map unionConj ≠ [] ∧
        ∀ S, SomeTrue objects S (combos.map unionConj) ↔ ∀ d ∈ ds, DnfTrue objects S (some d))) := by
  set os := ds.filter (fun d => decide (d ≠ [])) with hos
  have hmem : ∀ o, o ∈ os ↔ o ∈ ds ∧ o ≠ [] := by intro o; simp [hos]
  have hne : ∀ o ∈ os, o ≠ [] := fun o ho => ((hmem o).1 ho).2
  have hctor : Comb.ctor os = .ok os := by
    unfold Comb.ctor
    rw [if_neg]
    simp only [List.any_eq_true, not_exists, not_and]
    intro o ho h
    exact hne o ho (List.isEmpty_iff.1 h)
  refine ⟨_, by rw [hctor, Res.bind_ok, comb_forward_ok PartialState.empty hne], ?_, ?_⟩
  · intro x hx
    obtain ⟨combo, hc, rfl⟩ := List.mem_map.1 hx
    by_cases h0 : os = []
    · rw [if_pos h0] at hc; simp at hc
    rw [if_neg h0] at hc
    rw [Comb.mem_cartesian] at hc
    have hall : ∀ t ∈ combo, ConjGround objects t ∧ HasLit t := by
      intro t ht
      obtain ⟨o, ho, hto⟩ : ∃ o ∈ os, t ∈ o := by
        clear_value os
        clear hos hmem hne hctor h0 hx
        induction hc with
        | nil => simp at ht
        | cons h1 _ ih =>
          rcases List.mem_cons.1 ht with rfl | ht
          · exact ⟨_, by simp, h1⟩
          · obtain ⟨o, ho, h⟩ := ih ht
            exact ⟨o, by simp [ho], h⟩
      exact hg o ((hmem o).1 ho).1 t hto
    refine ⟨⟨?_, ?_⟩, ?_⟩
    · intro a ha
      obtain ⟨t, ht, hat⟩ := (mem_unionConj combo a).1.1 ha
      exact (hall t ht).1.1 a hat
    · intro a ha
      obtain ⟨t, ht, hat⟩ := (mem_unionConj combo a).2.1 ha
      exact (hall t ht).1.2 a hat
    · have hc0 : combo ≠ [] := by
        rintro rfl
        exact h0 (List.forall₂_nil_left_iff.1 hc)
      obtain ⟨t, ht⟩ := List.exists_mem_of_ne_nil _ hc0
      rcases (hall t ht).2 with ⟨a, ha⟩ | ⟨a, ha⟩
      · exact Or.inl ⟨a, (mem_unionConj combo a).1.2 ⟨t, ht, ha⟩⟩
      · exact Or.inr ⟨a, (mem_unionConj combo a).2.2 ⟨t, ht, ha⟩⟩
  · by_cases h0 : os = []
    · left
      rw [if_pos h0]
      refine ⟨rfl, fun d hd => ?_⟩
      by_contra hn
      have := (hmem d).2 ⟨hd, hn⟩
      rw [h0] at this; simp at this
    · right
      rw [if_neg h0]
      refine ⟨?_, ?_⟩
      · intro h
        have h1 := congrArg List.length h
        rw [List.length_map, Comb.length_cartesian] at h1
        have := Comb.count_pos hne
        simp at h1; omega
      · intro S
        have hds : (∀ d ∈ ds, DnfTrue objects S (some d)) ↔ ∀ o ∈ os, SomeTrue objects S o := by
          constructor
          · intro h o ho
            obtain ⟨h1, h2⟩ := (hmem o).1 ho
            rcases h o h1 with h3 | h3
            · exact absurd h3 h2
            · exact h3
          · intro h d hd
            by_cases h0 : d = []
            · exact Or.inl h0
            · exact Or.inr (h d ((hmem d).2 ⟨hd, h0⟩))
        rw [hds]
        have := exists_combo (fun t => ConjTrue objects S t) os
        unfold SomeTrue
        rw [← this]
        constructor
        · rintro ⟨c, hc, ht⟩
          obtain ⟨combo, hc', rfl⟩ := List.mem_map.1 hc
          exact ⟨combo, Comb.mem_cartesian.1 hc', conjTrue_unionConj.1 ht⟩
        · rintro ⟨combo, hc, ht⟩
          exact ⟨unionConj combo, List.mem_map.2 ⟨combo, Comb.mem_cartesian.2 hc, rfl⟩, conjTrue_unionConj.2 ht⟩

theorem conjoinA_spec {objects : List Obj} (hnd : (objects.map Obj.name).Nodup)
    {valid : PartialState → Res Bool} {good : (Atom → Prop) → Prop} (hv : Sound objects valid good) {ds : List Dnf}
    (hg : ∀ d ∈ ds, GoodDnf objects d) {r : Option Dnf}
    (h : conjoinA valid ⟨objects, ObjMap.create objects, []⟩ ds = .ok r) :
    Checked objects valid good (fun S => ∀ d ∈ ds, DnfTrue objects S (some d)) r := by
  obtain ⟨combos, h1, h2, h3⟩ := conjoin_list hg
  have h' : simplifyA valid ⟨objects, ObjMap.create objects, []⟩ (combos.map unionConj) = .ok r := by
    unfold conjoinA at h
    rw [Res.bind_eq_ok] at h h1
    obtain ⟨o, h4, h5⟩ := h
    obtain ⟨o', h6, h7⟩ := h1
    rw [h4] at h6
    cases h6
    rw [h7] at h5
    exact h5
  rcases h3 with ⟨h3, h4⟩ | ⟨h3, h4⟩
  · rw [h3] at h'
    simp only [simplifyA, if_true, Res.ok.injEq] at h'
    subst h'
    refine ⟨fun S _ d hd => Or.inl (h4 d hd), fun S _ => ⟨fun _ d hd => Or.inl (h4 d hd), fun _ => Or.inl rfl⟩, ?_, ?_⟩
    · rintro l h; cases h; simp
    · rintro l h; cases h; intro c hc; simp at hc
  · obtain ⟨k1, -⟩ := simplifyA_spec hnd hv h3 h2 h'
    exact ⟨fun S hS => (h4 S).1 (k1.least S hS), fun S hS => (k1.exact S hS).trans (h4 S), k1.accepted, k1.lits⟩

theorem disjoinA_spec {objects : List Obj} (hnd : (objects.map Obj.name).Nodup)
    {valid : PartialState → Res Bool} {good : (Atom → Prop) → Prop} (hv : Sound objects valid good) {ds : List Dnf}
    (hg : ∀ d ∈ ds, GoodDnf objects d) (h0 : ds ≠ []) (hne : ∀ d ∈ ds, d ≠ []) {r : Option Dnf}
    (h : disjoinA valid ⟨objects, ObjMap.create objects, []⟩ ds = .ok r) :
    Checked objects valid good (fun S => ∃ d ∈ ds, DnfTrue objects S (some d)) r := by
  have hf : ds.flatten ≠ [] := by
    obtain ⟨d, hd⟩ := List.exists_mem_of_ne_nil _ h0
    obtain ⟨x, hx⟩ := List.exists_mem_of_ne_nil _ (hne d hd)
    intro h
    have : x ∈ ds.flatten := List.mem_flatten.2 ⟨d, hd, hx⟩
    rw [h] at this; simp at this
  have hgf : GoodDnf objects ds.flatten := by
    intro c hc
    obtain ⟨d, hd, hc⟩ := List.mem_flatten.1 hc
    exact hg d hd c hc
  obtain ⟨k1, -⟩ := simplifyA_spec hnd hv hf hgf h
  have hiff : ∀ S, SomeTrue objects S ds.flatten ↔ ∃ d ∈ ds, DnfTrue objects S (some d) := by
    intro S
    unfold SomeTrue
    constructor
    · rintro ⟨c, hc, ht⟩
      obtain ⟨d, hd, hc⟩ := List.mem_flatten.1 hc
      exact ⟨d, hd, Or.inr ⟨c, hc, ht⟩⟩
    · rintro ⟨d, hd, h | ⟨c, hc, ht⟩⟩
      · exact absurd h (hne d hd)
      · exact ⟨c, List.mem_flatten.2 ⟨d, hd, hc⟩, ht⟩
  exact ⟨fun S hS => (hiff S).1 (k1.least S hS), fun S hS => (k1.exact S hS).trans (hiff S), k1.accepted, k1.lits⟩

/-- The flag has an effect: the outermost connective is a conjunction, disjunction or quantifier. -/
def Goal.Composite : Goal → Prop
  | .conj _ => True
  | .disj _ => True
  | .all _ _ => True
  | .ex _ _ => True
  | _ => False

theorem Checked.congr {objects : List Obj} {valid : PartialState → Res Bool} {good p q : (Atom → Prop) → Prop}
    {r : Option Dnf} (h : Checked objects valid good p r) (hpq : ∀ S, p S ↔ q S) : Checked objects valid good q r :=
  ⟨fun S hS => (hpq S).1 (h.least S hS), fun S hS => (h.exact S hS).trans (hpq S), h.accepted, h.lits⟩

theorem Checked.none {objects : List Obj} {valid : PartialState → Res Bool} {good p : (Atom → Prop) → Prop}
    (h : ∀ S, ¬ p S) : Checked objects valid good p none :=
  ⟨fun S hS => hS.elim, fun S _ => ⟨fun hS => hS.elim, fun hS => absurd hS (h S)⟩, by simp, by simp⟩

/-- The checked normal form of a regular formula. -/
theorem dnfA_sat {objects : List Obj} (hnd : (objects.map Obj.name).Nodup)
    {valid : PartialState → Res Bool} {good : (Atom → Prop) → Prop} (hv : Sound objects valid good)
    (g : Goal) (params args : List Obj)
    (hlen : params.length = args.length) (hargs : ∀ o ∈ args, o ∈ objects) (hwf : Goal.WF objects (params.map Obj.name) g)
    (hc : ∀ c, g.HasConst c → c ∈ objects) (hr : Goal.Regular objects (Env.none.bind params args) g)
    (hco : g.Composite) {r : Option Dnf}
    (h : g.dnfA valid ⟨objects, ObjMap.create objects, []⟩ params args = .ok r) :
    Checked objects valid good (fun S => Sat objects S (Env.none.bind params args) g) r := by
  cases g with
  | atom _ _ => exact hco.elim
  | neg _ => exact hco.elim
  | other => exact hco.elim
  | conj gs =>
    obtain ⟨r0, h1, h2, h3⟩ := dnfAll_sat hnd gs params args hlen hargs (by simpa [Goal.WF] using hwf)
      (by simpa [Goal.HasConst] using hc) (by simpa [Goal.Regular] using hr)
    simp only [Goal.dnfA, h1, Res.bind_ok] at h
    match r0, h2, h3, h with
    | none, h2, _, h =>
      simp only [Res.pure_eq, Res.ok.injEq] at h
      subst h
      exact Checked.none fun S => by simp only [Sat]; exact h2 rfl S
    | some ds, _, h3, h =>
      obtain ⟨j1, j2⟩ := h3 ds rfl
      exact (conjoinA_spec hnd hv j1 h).congr fun S => by rw [j2]; simp [Sat]
  | disj gs =>
    simp only [Goal.Regular] at hr
    obtain ⟨ds, h1, h2, h3, h4, h5⟩ := dnfAny_sat hnd gs params args hlen hargs (by simpa [Goal.WF] using hwf)
      (by simpa [Goal.HasConst] using hc) hr.1 hr.2.2
    simp only [Goal.dnfA, h1, Res.bind_ok] at h
    exact (disjoinA_spec hnd hv h2 (h5 hr.2.1) h4 h).congr fun S => by rw [h3]; simp [Sat]
  | all vars g =>
    simp only [Goal.WF] at hwf
    simp only [Goal.Regular] at hr
    obtain ⟨l, hl, hm⟩ := gen_create objects vars hwf.1
    have hstep : ∀ os ∈ l, ∃ r, g.dnf ⟨objects, ObjMap.create objects, []⟩ (params ++ vars) (args ++ os) = .ok r ∧
        (∀ S, DnfTrue objects S r ↔ Sat objects S ((Env.none.bind params args).bind vars os) g) ∧
        ∀ l, r = some l → GoodDnf objects l := by
      intro os ho
      have ho' := (hm os).1 ho
      rw [← Env.bind_append Env.none params args vars os hlen]
      exact dnf_sat hnd g (params ++ vars) (args ++ os) (by simp [hlen, ho'.length]) (args_append_mem hargs ho')
        (by simpa using hwf.2) (by simpa [Goal.HasConst] using hc)
        (by rw [Env.bind_append Env.none params args vars os hlen]; exact hr os ho')
    obtain ⟨r0, h1, h2, h3⟩ := dnfLoop_all hstep
    simp only [Goal.dnfA, hl, Res.bind_ok, h1] at h
    have hiff : ∀ S, (∀ os ∈ l, Sat objects S ((Env.none.bind params args).bind vars os) g) ↔
        Sat objects S (Env.none.bind params args) (.all vars g) := by
      intro S; simp [Sat, hm]
    match r0, h2, h3, h with
    | none, h2, _, h =>
      simp only [Res.pure_eq, Res.ok.injEq] at h
      subst h
      exact Checked.none fun S => by rw [← hiff S]; exact h2 rfl S
    | some ds, _, h3, h =>
      obtain ⟨j1, j2⟩ := h3 ds rfl
      exact (conjoinA_spec hnd hv j1 h).congr fun S => by rw [j2, hiff]
  | ex vars g =>
    simp only [Goal.WF] at hwf
    simp only [Goal.Regular] at hr
    obtain ⟨l, hl, hm⟩ := gen_create objects vars hwf.1
    have hstep : ∀ os ∈ l, ∃ r, g.dnf ⟨objects, ObjMap.create objects, []⟩ (params ++ vars) (args ++ os) = .ok r ∧
        (∀ S, DnfTrue objects S r ↔ Sat objects S ((Env.none.bind params args).bind vars os) g) ∧
        ∀ l, r = some l → GoodDnf objects l := by
      intro os ho
      have ho' := (hm os).1 ho
      rw [← Env.bind_append Env.none params args vars os hlen]
      exact dnf_sat hnd g (params ++ vars) (args ++ os) (by simp [hlen, ho'.length]) (args_append_mem hargs ho')
        (by simpa using hwf.2) (by simpa [Goal.HasConst] using hc)
        (by rw [Env.bind_append Env.none params args vars os hlen]; exact (hr.1 os ho').1)
    obtain ⟨ds, h1, h2, h3, h4⟩ := dnfLoop_ex hstep
    have hne : ∀ d ∈ ds, d ≠ [] := by
      rintro d hd rfl
      obtain ⟨os, ho, hh⟩ := h4 _ hd
      obtain ⟨S, hS⟩ := (hr.1 os ((hm os).1 ho)).2
      exact hS ((hh S).1 (Or.inl rfl))
    have h0 : ds ≠ [] := by
      rintro rfl
      obtain ⟨os, ho, S, hS⟩ := hr.2
      obtain ⟨d, hd, -⟩ := (h3 S).2 ⟨os, (hm os).2 ho, hS⟩
      simp at hd
    simp only [Goal.dnfA, hl, Res.bind_ok, h1] at h
    exact (disjoinA_spec hnd hv h2 h0 hne h).congr fun S => by rw [h3]; simp [Sat, hm]

end Symbolic
