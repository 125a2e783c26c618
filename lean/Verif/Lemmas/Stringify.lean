import Verif.Lemmas.NormalEff
import Verif.Model.Axiom
import Verif.Spec.Construct

/-!
The normal form of an effect without conditions, for arbitrary arguments (also for the parameters themselves).
-/

namespace Symbolic

variable [StrHash]

/-- An atom that is neither an equation nor a type test. -/
def PlainAtom (objects : List Obj) (a : Atom) : Prop := a.pred ≠ n!"=" ∧ ¬ IsType objects a.pred

def DPos (d : Dnf) (x : Atom) : Prop := ∃ q ∈ d, x ∈ q.pos
def DNeg (d : Dnf) (x : Atom) : Prop := ∃ q ∈ d, x ∈ q.neg

/-- At most one conjunction, with a literal, of atoms that are not evaluated. -/
structure ShortDnf (objects : List Obj) (d : Dnf) : Prop where
  len : d.length ≤ 1
  lit : ∀ q ∈ d, HasLit q
  pos : ∀ x, DPos d x → PlainAtom objects x
  neg : ∀ x, DNeg d x → PlainAtom objects x

theorem evaluateConj_plain {objects : List Obj} {c : NfCtx} (hc : c.omap = ObjMap.create objects) {q : PartialState}
    (hp : ∀ x ∈ q.pos, PlainAtom objects x) (hn : ∀ x ∈ q.neg, PlainAtom objects x) :
    evaluateConj c q = .ok (if q.isConsistent then none else some false) := by
  have hplain : ∀ a, PlainAtom objects a → evaluateEquals c a = .ok none ∧ evaluateType c a = .ok none := by
    rintro a ⟨h1, h2⟩
    refine ⟨by simp [evaluateEquals, h1], ?_⟩
    have : (ObjMap.create objects).has a.pred = false := by
      rw [Bool.eq_false_iff]
      exact fun h => h2 ((ObjMap.has_create objects _).1 h)
    simp [evaluateType, hc, this]
  unfold evaluateConj
  by_cases hs : q.size = 1
  · rcases single_cases hs with ⟨a, hpos, hie, hneg⟩ | ⟨a, hneg, hie, hpos⟩
    · obtain ⟨h1, h2⟩ := hplain a (hp a (State.mem_elems.1 (by simp [hpos])))
      simp [hs, evaluateSingle, hie, hpos, Res.index, h1, h2]
    · obtain ⟨h1, h2⟩ := hplain a (hn a (State.mem_elems.1 (by simp [hneg])))
      simp [hs, evaluateSingle, hie, hneg, Res.index, h1, h2]
  · simp [hs]

omit [StrHash] in
theorem cartesian_singletons {α : Type} : ∀ (os : List (List α)), (∀ o ∈ os, o.length = 1) →
    cartesian os = [os.flatten]
  | [], _ => by simp [cartesian]
  | o :: os, h => by
    obtain ⟨q, rfl⟩ := List.length_eq_one_iff.1 (h o (by simp))
    simp [cartesian, cartesian_singletons os fun o ho => h o (by simp [ho])]

theorem conjoin_short {objects : List Obj} {c : NfCtx} (hc : c.omap = ObjMap.create objects) {ds : List Dnf}
    (hd : ∀ d ∈ ds, ShortDnf objects d) :
    ∃ r, conjoin c ds = .ok r ∧ (r = none ↔ ∃ x, (∃ d ∈ ds, DPos d x) ∧ ∃ d ∈ ds, DNeg d x) ∧
      ∀ l, r = some l → ShortDnf objects l ∧ (∀ x, DPos l x ↔ ∃ d ∈ ds, DPos d x) ∧
        ∀ x, DNeg l x ↔ ∃ d ∈ ds, DNeg d x := by
  set os := ds.filter (fun d => decide (d ≠ [])) with hos
  have hmem : ∀ o, o ∈ os ↔ o ∈ ds ∧ o ≠ [] := by intro o; simp [hos]
  have hne : ∀ o ∈ os, o ≠ [] := fun o ho => ((hmem o).1 ho).2
  have hctor : Comb.ctor os = .ok os := by
    unfold Comb.ctor
    rw [if_neg]
    simp only [List.any_eq_true, not_exists, not_and]
    intro o ho h
    exact hne o ho (List.isEmpty_iff.1 h)
  have h1 : ∀ o ∈ os, o.length = 1 := fun o ho => by
    have := (hd o ((hmem o).1 ho).1).len
    have := List.length_pos_of_ne_nil (hne o ho)
    omega
  unfold conjoin
  simp only [← hos, hctor, Res.bind_ok, comb_forward_ok PartialState.empty hne]
  have hP : ∀ x, (∃ d ∈ ds, DPos d x) ↔ ∃ q ∈ os.flatten, x ∈ q.pos := by
    intro x
    constructor
    · rintro ⟨d, h2, q, h3, h4⟩
      exact ⟨q, List.mem_flatten.2 ⟨d, (hmem d).2 ⟨h2, List.ne_nil_of_mem h3⟩, h3⟩, h4⟩
    · rintro ⟨q, h2, h4⟩
      obtain ⟨d, h3, h5⟩ := List.mem_flatten.1 h2
      exact ⟨d, ((hmem d).1 h3).1, q, h5, h4⟩
  have hN : ∀ x, (∃ d ∈ ds, DNeg d x) ↔ ∃ q ∈ os.flatten, x ∈ q.neg := by
    intro x
    constructor
    · rintro ⟨d, h2, q, h3, h4⟩
      exact ⟨q, List.mem_flatten.2 ⟨d, (hmem d).2 ⟨h2, List.ne_nil_of_mem h3⟩, h3⟩, h4⟩
    · rintro ⟨q, h2, h4⟩
      obtain ⟨d, h3, h5⟩ := List.mem_flatten.1 h2
      exact ⟨d, ((hmem d).1 h3).1, q, h5, h4⟩
  by_cases h0 : os = []
  · rw [if_pos h0]
    simp only [h0, List.flatten_nil, List.not_mem_nil, false_and, exists_false, iff_false] at hP hN
    refine ⟨some [], by simp [simplify], by simp [hP], ?_⟩
    rintro l h; cases h
    exact ⟨⟨by simp, by simp, by simp [DPos], by simp [DNeg]⟩, fun x => iff_of_false (by simp [DPos]) (hP x),
      fun x => iff_of_false (by simp [DNeg]) (hN x)⟩
  · rw [if_neg h0, cartesian_singletons os h1]
    set q := unionConj os.flatten with hq
    have hqp : ∀ x, x ∈ q.pos ↔ ∃ d ∈ ds, DPos d x := fun x => by rw [hP, ← (mem_unionConj _ x).1]
    have hqn : ∀ x, x ∈ q.neg ↔ ∃ d ∈ ds, DNeg d x := fun x => by rw [hN, ← (mem_unionConj _ x).2]
    have hpp : ∀ x ∈ q.pos, PlainAtom objects x := fun x hx => by
      obtain ⟨d, h2, h3⟩ := (hqp x).1 hx
      exact (hd d h2).pos x h3
    have hnn : ∀ x ∈ q.neg, PlainAtom objects x := fun x hx => by
      obtain ⟨d, h2, h3⟩ := (hqn x).1 hx
      exact (hd d h2).neg x h3
    have hev := evaluateConj_plain hc hpp hnn
    simp only [List.map_cons, List.map_nil, simplify, simplifyLoop, ← hq, hev, Res.bind_ok, List.cons_ne_nil, if_false]
    by_cases hcons : q.isConsistent = true
    · simp only [if_pos hcons, tryInsertSubset, List.any_nil, Bool.false_eq_true, if_false, List.nil_append,
        Res.bind_ok, List.cons_ne_nil, Res.pure_eq, sortUnique, sortList, sortInsert, uniqueList]
      have hcons' := PartialState.isConsistent_iff.1 hcons
      refine ⟨_, rfl, ?_, ?_⟩
      · simp only [reduceCtorEq, false_iff, not_exists, not_and, ← hqp, ← hqn]
        intro x h2 h3
        exact hcons' x h2 h3
      · rintro l h
        cases h
        refine ⟨⟨by simp, ?_, ?_, ?_⟩, ?_, ?_⟩
        · rintro q' hq'
          rw [List.mem_singleton.1 hq']
          obtain ⟨d, hdm⟩ := List.exists_mem_of_ne_nil _ h0
          obtain ⟨t, ht⟩ := List.exists_mem_of_ne_nil _ (hne d hdm)
          rcases (hd d ((hmem d).1 hdm).1).lit t ht with ⟨a, ha⟩ | ⟨a, ha⟩
          · exact Or.inl ⟨a, (hqp a).2 ⟨d, ((hmem d).1 hdm).1, t, ht, ha⟩⟩
          · exact Or.inr ⟨a, (hqn a).2 ⟨d, ((hmem d).1 hdm).1, t, ht, ha⟩⟩
        · simpa [DPos] using hpp
        · simpa [DNeg] using hnn
        · simpa [DPos] using hqp
        · simpa [DNeg] using hqn
    · simp only [if_neg hcons, Res.bind_ok, if_true, Res.pure_eq]
      refine ⟨none, rfl, ?_, by simp⟩
      simp only [true_iff, ← hqp, ← hqn]
      rw [PartialState.isConsistent_iff] at hcons
      by_contra hno
      exact hcons fun a h2 h3 => hno ⟨a, h2, h3⟩

theorem dnfSimple_lists {objects params args : List Obj} (hlen : params.length = args.length) :
    ∀ (l : List (Name × List Term)) (s : State), WFLits objects (params.map Obj.name) l →
      (∀ a ∈ s, PlainAtom objects a) →
      ∃ s', dnfSimple params args l s = .ok s' ∧
        (∀ a, a ∈ s' ↔ a ∈ s ∨ Lists (Env.none.bind params args) l a) ∧ (∀ a ∈ s', PlainAtom objects a)
  | [], s, _, hs => ⟨s, rfl, by simp [Lists], hs⟩
  | (pred, ts) :: rest, s, hwf, hs => by
    have h0 := hwf pred ts (by simp)
    set a := Atom.ofObjs pred (ts.map (Term.value params args)) with ha
    have h1 : dnfAtom params pred ts args = .ok a := by
      simp [dnfAtom, applyFn_terms params args ts (Nat.le_of_eq hlen), ha]
    obtain ⟨s', k1, k2, k3⟩ := dnfSimple_lists hlen rest (s.insert a).2
      (fun p t h => hwf p t (by simp [h])) (by
        intro b hb
        rcases State.mem_insert.1 hb with rfl | hb
        · exact h0.2
        · exact hs b hb)
    refine ⟨s', by simp [dnfSimple, h1, k1], ?_, k3⟩
    intro b
    rw [k2, State.mem_insert]
    have : Lists (Env.none.bind params args) ((pred, ts) :: rest) b ↔
        b = a ∨ Lists (Env.none.bind params args) rest b := by
      constructor
      · rintro ⟨p, t, os, hm, ho, rfl⟩
        rcases List.mem_cons.1 hm with he | hm
        · cases he
          rw [forall₂_denotes hlen h0.1] at ho
          left; rw [ha, ho]; rfl
        · exact Or.inr ⟨p, t, os, hm, ho, rfl⟩
      · rintro (rfl | ⟨p, t, os, hm, ho, rfl⟩)
        · exact ⟨pred, ts, _, by simp, (forall₂_denotes hlen h0.1 _).2 rfl, rfl⟩
        · exact ⟨p, t, os, by simp [hm], ho, rfl⟩
    rw [this]
    tauto

/-- The normal forms of the instances of a universal effect. -/
theorem dnfLoop_short {objects : List Obj} {f : List Obj → Res (Option Dnf)} {Pos Neg : List Obj → Atom → Prop} :
    ∀ {l : List (List Obj)}, (∀ os ∈ l, ∃ r, f os = .ok r ∧ (r = none → ∃ x, Pos os x ∧ Neg os x) ∧
      ∀ d, r = some d → ShortDnf objects d ∧ (∀ x, DPos d x ↔ Pos os x) ∧ ∀ x, DNeg d x ↔ Neg os x) →
    ∃ r, dnfLoop true f l = .ok r ∧ (r = none → ∃ x, (∃ os ∈ l, Pos os x) ∧ ∃ os ∈ l, Neg os x) ∧
      ∀ ds, r = some ds → (∀ d ∈ ds, ShortDnf objects d) ∧ (∀ x, (∃ d ∈ ds, DPos d x) ↔ ∃ os ∈ l, Pos os x) ∧
        ∀ x, (∃ d ∈ ds, DNeg d x) ↔ ∃ os ∈ l, Neg os x
  | [], _ => ⟨some [], rfl, by simp, by rintro ds h; cases h; simp⟩
  | os :: l, h => by
    obtain ⟨r, h1, h2, h3⟩ := h os (by simp)
    obtain ⟨r', k1, k2, k3⟩ := dnfLoop_short (l := l) fun os ho => h os (by simp [ho])
    simp only [dnfLoop, h1, Res.bind_ok, k1]
    match r, h2, h3 with
    | none, h2, _ =>
      obtain ⟨x, hx⟩ := h2 rfl
      exact ⟨none, rfl, fun _ => ⟨x, ⟨os, by simp, hx.1⟩, os, by simp, hx.2⟩, by simp⟩
    | some d, _, h3 =>
      obtain ⟨i1, i2, i3⟩ := h3 d rfl
      match r', k2, k3 with
      | none, k2, _ =>
        obtain ⟨x, ⟨o1, j1, j2⟩, o2, j3, j4⟩ := k2 rfl
        exact ⟨none, rfl, fun _ => ⟨x, ⟨o1, by simp [j1], j2⟩, o2, by simp [j3], j4⟩, by simp⟩
      | some ds, _, k3 =>
        obtain ⟨j1, j2, j3⟩ := k3 ds rfl
        refine ⟨some (d :: ds), rfl, by simp, ?_⟩
        rintro _ e
        cases e
        refine ⟨?_, ?_, ?_⟩
        · intro d' hd'
          rcases List.mem_cons.1 hd' with rfl | hd'
          · exact i1
          · exact j1 d' hd'
        · intro x; simp [i2, j2]
        · intro x; simp [i3, j3]

mutual
/-- The normal form of an effect without conditions is empty iff some atom is both added and deleted; otherwise it has
the added and the deleted atoms in its only conjunction. -/
theorem Eff.dnf_short {objects : List Obj} {c : NfCtx} (hc : c.omap = ObjMap.create objects) {S : Atom → Prop} :
    ∀ (e : Eff) (params args : List Obj), params.length = args.length →
    e.WF objects (params.map Obj.name) → e.NoCond →
    ∃ r, e.dnf c params args = .ok r ∧
      (r = none ↔ ∃ x, Makes objects S true (Env.none.bind params args) e x ∧
        Makes objects S false (Env.none.bind params args) e x) ∧
      ∀ d, r = some d → ShortDnf objects d ∧
        (∀ x, DPos d x ↔ Makes objects S true (Env.none.bind params args) e x) ∧
        ∀ x, DNeg d x ↔ Makes objects S false (Env.none.bind params args) e x
  | .mk fs adds dels cs, params, args, hlen, hwf, hnc => by
    simp only [Eff.WF] at hwf
    simp only [Eff.NoCond] at hnc
    obtain ⟨hfs, hadds, hdels, -⟩ := hwf
    obtain ⟨hnf, rfl⟩ := hnc
    obtain ⟨r, h1, h2, h3⟩ := FList.dnf_short hc (S := S) fs params args hlen hfs hnf
    obtain ⟨pos, p1, p2, p3⟩ := dnfSimple_lists hlen adds State.empty hadds (by simp)
    obtain ⟨neg, n1, n2, n3⟩ := dnfSimple_lists hlen dels State.empty hdels (by simp)
    simp only [State.not_mem_empty, false_or] at p2 n2
    simp only [Makes, MakesC, true_and, false_and, false_or, or_false, Bool.true_eq_false, Bool.false_eq_true,
      Eff.dnf, h1, Res.bind_ok]
    match r, h2, h3 with
    | none, h2, _ =>
      obtain ⟨x, hx1, hx2⟩ := h2 rfl
      exact ⟨none, rfl, ⟨fun _ => ⟨x, Or.inl hx1, Or.inl hx2⟩, fun _ => rfl⟩, by simp⟩
    | some ds, _, h3 =>
      obtain ⟨j1, j2, j3⟩ := h3 ds rfl
      simp only [p1, n1, Res.bind_ok, CList.dnf, List.append_nil]
      have hie : ∀ s : State, s.isEmpty = true ↔ ∀ a, a ∉ s := by
        intro s
        have : s.isEmpty = decide (s.size = 0) := rfl
        rw [this, decide_eq_true_eq, State.size_eq, List.length_eq_zero_iff, List.eq_nil_iff_forall_not_mem]
        simp only [State.mem_elems]
      by_cases hb : (!pos.isEmpty || !neg.isEmpty) = true
      · rw [if_pos hb]
        have hb' : HasLit ⟨pos, neg⟩ := by
          rw [Bool.or_eq_true, Bool.not_eq_true', Bool.not_eq_true'] at hb
          rcases hb with h | h
          · left
            by_contra hno
            have := (hie pos).2 (fun a ha => hno ⟨a, ha⟩)
            rw [this] at h; simp at h
          · right
            by_contra hno
            have := (hie neg).2 (fun a ha => hno ⟨a, ha⟩)
            rw [this] at h; simp at h
        obtain ⟨r, k1, k2, k3⟩ := conjoin_short hc (ds := ds ++ [[⟨pos, neg⟩]]) (by
          intro d hd
          rcases List.mem_append.1 hd with hd | hd
          · exact j1 d hd
          · rw [List.mem_singleton.1 hd]
            exact ⟨by simp, by simpa using hb', by simpa [DPos] using p3, by simpa [DNeg] using n3⟩)
        have e1 : ∀ x, (∃ d ∈ ds ++ [[⟨pos, neg⟩]], DPos d x) ↔
            MakesF objects S true (Env.none.bind params args) fs x ∨ Lists (Env.none.bind params args) adds x := by
          intro x
          rw [← j2, ← p2]
          simp only [List.mem_append, List.mem_singleton, or_and_right, exists_or, exists_eq_left]
          simp [DPos]
        have e2 : ∀ x, (∃ d ∈ ds ++ [[⟨pos, neg⟩]], DNeg d x) ↔
            MakesF objects S false (Env.none.bind params args) fs x ∨ Lists (Env.none.bind params args) dels x := by
          intro x
          rw [← j3, ← n2]
          simp only [List.mem_append, List.mem_singleton, or_and_right, exists_or, exists_eq_left]
          simp [DNeg]
        refine ⟨r, k1, by simpa only [e1, e2] using k2, fun l hl => ?_⟩
        obtain ⟨m1, m2, m3⟩ := k3 l hl
        exact ⟨m1, fun x => by rw [m2, e1], fun x => by rw [m3, e2]⟩
      · rw [if_neg hb]
        simp only [Bool.not_eq_true, Bool.or_eq_false_iff, Bool.not_eq_false', hie, p2, n2] at hb
        obtain ⟨r, k1, k2, k3⟩ := conjoin_short hc j1
        refine ⟨r, k1, by simpa only [j2, j3, hb.1, hb.2, or_false] using k2, fun l hl => ?_⟩
        obtain ⟨m1, m2, m3⟩ := k3 l hl
        exact ⟨m1, fun x => by rw [m2, j2]; simp [hb.1], fun x => by rw [m3, j3]; simp [hb.2]⟩

theorem FList.dnf_short {objects : List Obj} {c : NfCtx} (hc : c.omap = ObjMap.create objects) {S : Atom → Prop} :
    ∀ (e : FList) (params args : List Obj), params.length = args.length →
    e.WF objects (params.map Obj.name) → e.NoCond →
    ∃ r, e.dnf c params args = .ok r ∧
      (r = none → ∃ x, MakesF objects S true (Env.none.bind params args) e x ∧
        MakesF objects S false (Env.none.bind params args) e x) ∧
      ∀ ds, r = some ds → (∀ d ∈ ds, ShortDnf objects d) ∧
        (∀ x, (∃ d ∈ ds, DPos d x) ↔ MakesF objects S true (Env.none.bind params args) e x) ∧
        ∀ x, (∃ d ∈ ds, DNeg d x) ↔ MakesF objects S false (Env.none.bind params args) e x
  | .nil, _, _, _, _, _ => by
    refine ⟨some [], by simp [FList.dnf], by simp, ?_⟩
    rintro ds h; cases h
    simp [MakesF]
  | .cons vars e rest, params, args, hlen, hwf, hnc => by
    simp only [FList.WF] at hwf
    simp only [FList.NoCond] at hnc
    obtain ⟨l, hl, hm⟩ := gen_create objects vars hwf.1
    obtain ⟨r, h1, h2, h3⟩ := dnfLoop_short (objects := objects) (l := l)
      (f := fun os => e.dnf c (params ++ vars) (args ++ os))
      (Pos := fun os => Makes objects S true ((Env.none.bind params args).bind vars os) e)
      (Neg := fun os => Makes objects S false ((Env.none.bind params args).bind vars os) e) (by
        intro os ho
        have ho' := (hm os).1 ho
        rw [← Env.bind_append Env.none params args vars os hlen]
        obtain ⟨r, k1, k2, k3⟩ := Eff.dnf_short hc (S := S) e (params ++ vars) (args ++ os) (by simp [hlen, ho'.length])
          (by simpa using hwf.2.1) hnc.1
        exact ⟨r, k1, k2.1, k3⟩)
    obtain ⟨r', k1, k2, k3⟩ := FList.dnf_short hc (S := S) rest params args hlen hwf.2.2 hnc.2
    simp only [hm] at h2 h3
    simp only [FList.dnf, hc, hl, Res.bind_ok, h1, MakesF]
    match r, h2, h3 with
    | none, h2, _ =>
      obtain ⟨x, hx1, hx2⟩ := h2 rfl
      exact ⟨none, rfl, fun _ => ⟨x, Or.inl hx1, Or.inl hx2⟩, by simp⟩
    | some ds, _, h3 =>
      simp only [k1, Res.bind_ok, Res.pure_eq]
      match r', k2, k3 with
      | none, k2, _ =>
        obtain ⟨x, hx1, hx2⟩ := k2 rfl
        exact ⟨none, rfl, fun _ => ⟨x, Or.inr hx1, Or.inr hx2⟩, by simp⟩
      | some ds', _, k3 =>
        refine ⟨some (ds ++ ds'), rfl, by simp, ?_⟩
        rintro _ hds
        cases hds
        obtain ⟨j1, j2, j3⟩ := h3 ds rfl
        obtain ⟨i1, i2, i3⟩ := k3 ds' rfl
        refine ⟨?_, ?_, ?_⟩
        · intro d hd
          rcases List.mem_append.1 hd with hd | hd
          · exact j1 d hd
          · exact i1 d hd
        · intro x
          rw [← j2, ← i2]
          simp only [List.mem_append, or_and_right, exists_or]
        · intro x
          rw [← j3, ← i3]
          simp only [List.mem_append, or_and_right, exists_or]
end

/-! ## The readable string of an axiom -/

/-- `Negate` of a single atom. -/
theorem negateDnf_single (c : NfCtx) (a : Atom) :
    ∃ q : PartialState, (∀ x, x ∉ q.pos) ∧ (∀ x, x ∈ q.neg ↔ x = a) ∧
      negateDnf c [⟨State.ofList [a], State.empty⟩] = simplify c [q] := by
  have hel : (State.ofList [a]).elems = [a] := by
    have hp : (State.ofList [a]).elems.Perm [a] :=
      (List.perm_ext_iff_of_nodup (State.ofList [a]).elems_nodup (by simp)).2 (by
        intro x; rw [State.mem_elems]; simp)
    exact List.perm_singleton.1 hp
  have hee : State.empty.elems = [] :=
    List.eq_nil_iff_forall_not_mem.2 fun x hx => by simpa using State.mem_elems.1 hx
  set c1 : PartialState := ⟨State.empty, State.ofList [a]⟩ with hc1
  have hds : ([⟨State.ofList [a], State.empty⟩] : Dnf).map (fun conj =>
      (conj.neg.elems.map (fun a => (⟨State.ofList [a], State.empty⟩ : PartialState))) ++
      (conj.pos.elems.map (fun a => ⟨State.empty, State.ofList [a]⟩))) = [[c1]] := by
    simp [hel, hee, hc1]
  have hf : ([[c1]] : List Dnf).filter (fun d => decide (d ≠ [])) = [[c1]] := by simp
  have hctor : Comb.ctor [[c1]] = .ok [[c1]] := by simp [Comb.ctor]
  have hcar : cartesian [[c1]] = [[c1]] := by simp [cartesian]
  refine ⟨unionConj [c1], fun x => ?_, fun x => ?_, ?_⟩
  · rw [(mem_unionConj [c1] x).1]; simp [hc1]
  · rw [(mem_unionConj [c1] x).2]; simp [hc1]
  · rw [negateDnf, hds, conjoin, hf, hctor]
    simp only [Res.bind_ok, comb_forward_ok PartialState.empty (options := [[c1]]) (by simp), List.cons_ne_nil,
      if_false, hcar, List.map_cons, List.map_nil]

/-- Whether a single negative literal is contradictory. -/
theorem simplify_neg_single {c : NfCtx} {q : PartialState} {a : Atom} (hp : ∀ x, x ∉ q.pos)
    (hn : ∀ x, x ∈ q.neg ↔ x = a) {e1 e2 : Option Bool} (h1 : evaluateEquals c a = .ok e1)
    (h2 : e1 = none → evaluateType c a = .ok e2) :
    ∃ r, simplify c [q] = .ok r ∧ (r = none ↔ e1 = some true ∨ e1 = none ∧ e2 = some true) := by
  have hel : q.neg.elems = [a] := by
    have hp : q.neg.elems.Perm [a] := (List.perm_ext_iff_of_nodup q.neg.elems_nodup (by simp)).2 (by
      intro x; rw [State.mem_elems, hn]; simp)
    exact List.perm_singleton.1 hp
  have hpe : q.pos.elems = [] :=
    List.eq_nil_iff_forall_not_mem.2 fun x hx => hp x (State.mem_elems.1 hx)
  have hsz : q.size = 1 := by simp [PartialState.size, State.size_eq, hel, hpe]
  have hie : q.neg.isEmpty = false := by
    have : q.neg.isEmpty = decide (q.neg.size = 0) := rfl
    rw [this, State.size_eq, hel]; rfl
  have hcons : q.isConsistent = true := PartialState.isConsistent_iff.2 fun x hx => absurd hx (hp x)
  have hev : evaluateConj c q = .ok (match e1 with | some b => some (!b) | none => e2.map (!·)) := by
    unfold evaluateConj
    simp only [hsz, if_true, evaluateSingle, hie, hel, Res.index, List.getElem?_cons_zero, Res.bind_ok,
      Bool.false_eq_true, if_false, h1, Res.pure_eq]
    cases e1 with
    | some b => rfl
    | none =>
      simp only [Option.map_none, h2 rfl, Res.bind_ok]
      cases e2 with
      | some b => rfl
      | none => simp [hcons]
  simp only [simplify, simplifyLoop, hev, Res.bind_ok, List.cons_ne_nil, if_false]
  rcases e1 with _ | _ | _ <;> rcases e2 with _ | _ | _ <;>
    simp [tryInsertSubset, sortUnique, sortList, sortInsert, uniqueList]

/-- The readable string can be computed iff the condition does not deny what is always true and the effects are free of
conflicts. -/
theorem stringify_iff {objects : List Obj} {op : Op} {sign : Bool} {p : Name} {ts : List Term}
    (hl : op.pre.IsLiteral sign p ts) (hnd : ((op.params ++ objects).map Obj.name).Nodup)
    (hwf : op.pre.WF objects (op.params.map Obj.name)) (hcst : ∀ c, op.pre.HasConst c → c ∈ objects)
    (hef : op.eff.WF objects (op.params.map Obj.name)) (hnc : op.eff.NoCond) (hnt : ¬ IsType objects n!"=") (S : Atom → Prop) :
    stringify ⟨objects, ObjMap.create objects, []⟩ op = .ok () ↔
      (∀ p ts, op.pre = .neg (.atom p ts) → ¬ AlwaysTrue objects op.params p ts) ∧
        ConflictFree objects S (Env.none.bind op.params op.params) op.eff := by
  set c : NfCtx := { objects := objects, omap := ObjMap.create objects, vars := op.params } with hc
  obtain ⟨r, h1, h2, -⟩ := Eff.dnf_short (c := c) (objects := objects) rfl (S := S) op.eff op.params op.params rfl hef hnc
  have hcf : r = none ↔ ¬ ConflictFree objects S (Env.none.bind op.params op.params) op.eff := by
    rw [h2]; simp [ConflictFree]
  have heff : printed (op.eff.dnf c op.params op.params) = .ok () ↔
      ConflictFree objects S (Env.none.bind op.params op.params) op.eff := by
    rw [h1]
    cases r with
    | none => simp only [printed, reduceCtorEq, false_iff]; exact hcf.1 rfl
    | some l => simp only [printed, true_iff]; by_contra h; simpa using hcf.2 h
  have hpre : printed (op.pre.dnf c op.params op.params) = .ok () ↔
      ∀ p ts, op.pre = .neg (.atom p ts) → ¬ AlwaysTrue objects op.params p ts := by
    have hat : ∀ ts, dnfAtom op.params p ts op.params = .ok (Atom.ofObjs p (ts.map (Term.value op.params op.params))) :=
      fun ts => by simp [dnfAtom, applyFn_terms op.params op.params ts (Nat.le_refl _)]
    rcases hl with ⟨-, hl⟩ | ⟨-, hl⟩
    · rw [hl]
      simp [Goal.dnf, hat, printed]
    · rw [hl] at hwf hcst ⊢
      simp only [Goal.WF] at hwf
      simp only [Goal.HasConst] at hcst
      obtain ⟨hs, heq, hty⟩ := hwf
      have hall : (∀ p' ts', Goal.neg (.atom p ts) = .neg (.atom p' ts') → ¬ AlwaysTrue objects op.params p' ts') ↔
          ¬ AlwaysTrue objects op.params p ts :=
        ⟨fun h => h p ts rfl, by rintro h _ _ e; cases e; exact h⟩
      rw [hall]
      have hv : ∀ t ∈ ts, t.value op.params op.params ∈ op.params ++ objects := fun t ht =>
        value_declared rfl (fun o ho => by simp [ho]) (hs t ht) (fun c h => by simp [hcst c (h ▸ ht)])
      have hden := fun os => forall₂_denotes (params := op.params) (args := op.params) rfl hs os
      set a := Atom.ofObjs p (ts.map (Term.value op.params op.params)) with ha
      obtain ⟨q, q1, q2, q3⟩ := negateDnf_single c a
      obtain ⟨e1, e2, g1, g2, g3⟩ : ∃ e1 e2, evaluateEquals c a = .ok e1 ∧ (e1 = none → evaluateType c a = .ok e2) ∧
          (AlwaysTrue objects op.params p ts ↔ e1 = some true ∨ e1 = none ∧ e2 = some true) := by
        unfold AlwaysTrue
        simp only [hden]
        by_cases he : p = n!"="
        · match ts, heq he with
          | [s, t], _ =>
            set x := s.value op.params op.params
            set y := t.value op.params op.params
            have hxy : x.name = y.name ↔ x = y := ⟨fun h => name_inj hnd (hv s (by simp)) (hv t (by simp)) h,
              fun h => by rw [h]⟩
            refine ⟨if decide (x.name ≠ y.name) && (c.isVar x.name || c.isVar y.name) then none
              else some (decide (x.name = y.name)), none, ?_, ?_, ?_⟩
            · simp [evaluateEquals, ha, Atom.ofObjs, he, Res.index, x, y]
            · intro _
              have : (ObjMap.create objects).has n!"=" = false := by
                rw [Bool.eq_false_iff]
                exact fun h => hnt ((ObjMap.has_create objects _).1 h)
              simp [evaluateType, ha, Atom.ofObjs, he, hc, this]
            · have hiff : (∃ o, [o, o] = [s, t].map (Term.value op.params op.params)) ↔ x = y := by
                constructor
                · rintro ⟨o, ho⟩
                  simp only [List.map_cons, List.map_nil, List.cons.injEq, and_true] at ho
                  exact ho.1.symm.trans ho.2
                · intro h
                  exact ⟨x, by simp only [List.map_cons, List.map_nil, List.cons.injEq, and_true]; exact ⟨rfl, h⟩⟩
              rw [hiff]
              simp only [he, ne_eq, not_true_eq_false, false_and, or_false, true_and, reduceCtorEq, and_false]
              rw [← hxy]
              by_cases hn : x.name = y.name
              · simp [hn]
              · simp [hn]
        · refine ⟨none, if (ObjMap.create objects).has p then
            (match ts with | [s] => some ((s.value op.params op.params).isSubtype p) | _ => none) else none,
            by simp [evaluateEquals, ha, Atom.ofObjs, he], fun _ => ?_, ?_⟩
          · by_cases ht : IsType objects p
            · have hm : (ObjMap.create objects).has p = true := (ObjMap.has_create objects p).2 ht
              match ts, hty he ht with
              | [s], _ =>
                have hx := hv s (by simp)
                obtain ⟨k1, k2⟩ := objOf_spec (m := ObjMap.create objects) (List.mem_map.2 ⟨_, hx, rfl⟩)
                have k3 := name_inj hnd k1 hx k2
                have k4 : c.objOf (s.value op.params op.params).name = s.value op.params op.params := by
                  refine Eq.trans ?_ k3
                  simp only [NfCtx.objOf, hc, List.nil_append]
                simp [evaluateType, ha, Atom.ofObjs, hc, hm, Res.index]
                simpa [hc] using congrArg (Obj.isSubtype · p) k4
            · have hm : (ObjMap.create objects).has p = false := by
                rw [Bool.eq_false_iff]
                exact fun h => ht ((ObjMap.has_create objects _).1 h)
              simp [evaluateType, ha, Atom.ofObjs, hc, hm]
          · by_cases ht : IsType objects p
            · have hm : (ObjMap.create objects).has p = true := (ObjMap.has_create objects p).2 ht
              match ts, hty he ht with
              | [s], _ =>
                simp [he, ht, hm, Obj.isSubtype_iff]
            · have hm : (ObjMap.create objects).has p = false := by
                rw [Bool.eq_false_iff]
                exact fun h => ht ((ObjMap.has_create objects _).1 h)
              simp [he, ht, hm]
      obtain ⟨r, k1, k2⟩ := simplify_neg_single q1 q2 g1 g2
      have hd : Goal.dnf c (.neg (.atom p ts)) op.params op.params = .ok r := by
        simp only [Goal.dnf, hat, Res.bind_ok, Res.pure_eq, ← ha, q3, k1]
      rw [hd, g3, ← k2]
      cases r <;> simp [printed]
  unfold stringify
  change (do printed (op.pre.dnf c op.params op.params); printed (op.eff.dnf c op.params op.params)) = Res.ok () ↔ _
  rw [← hpre, ← heff, Res.bind_eq_ok]
  exact ⟨fun ⟨⟨⟩, h1, h2⟩ => ⟨h1, h2⟩, fun ⟨h1, h2⟩ => ⟨(), h1, h2⟩⟩

end Symbolic
