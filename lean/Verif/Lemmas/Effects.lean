import Verif.Model.Action
import Verif.Spec.Effects
import Verif.Lemmas.FormulaSim

namespace Symbolic

/-! ## Lists of primitive operations -/

section
variable [StrHash]

/-- Insert or erase one atom. -/
def stepOp (sign : Bool) (x : Atom) (s : State) : Nat × State :=
  if sign then StateLike.insert s x else StateLike.erase s x

/-- A sequence of operations with the maximum of the change codes. -/
def runOps : List (Bool × Atom) → State → Nat × State
  | [], s => (0, s)
  | (sign, x) :: ops, s =>
    let r := stepOp sign x s
    let r' := runOps ops r.2
    (max r.1 r'.1, r'.2)

theorem runOps_append (l₁ l₂ : List (Bool × Atom)) (s : State) :
    runOps (l₁ ++ l₂) s =
      (max (runOps l₁ s).1 (runOps l₂ (runOps l₁ s).2).1, (runOps l₂ (runOps l₁ s).2).2) := by
  induction l₁ generalizing s with
  | nil => simp [runOps]
  | cons o l₁ ih =>
    obtain ⟨sign, x⟩ := o
    simp only [List.cons_append, runOps, ih, Nat.max_assoc]

theorem mem_stepOp {sign : Bool} {x y : Atom} {s : State} :
    y ∈ (stepOp sign x s).2 ↔ if y = x then sign = true else y ∈ s := by
  cases sign
  · show y ∈ (s.erase x).2 ↔ _
    rw [State.mem_erase]; split <;> simp_all
  · show y ∈ (s.insert x).2 ↔ _
    rw [State.mem_insert]; split <;> simp_all

theorem stepOp_code {sign : Bool} {x : Atom} {s : State} :
    (stepOp sign x s).1 = 0 ↔ (x ∈ s ↔ sign = true) := by
  cases sign
  · show (if (s.erase x).1 = true then 1 else 0) = 0 ↔ _
    rw [State.erase_flag]; by_cases h : x ∈ s <;> simp [h]
  · show (if (s.insert x).1 = true then 1 else 0) = 0 ↔ _
    rw [State.insert_flag]; by_cases h : x ∈ s <;> simp [h]

theorem stepOp_zero {sign : Bool} {x : Atom} {s : State} (h : (stepOp sign x s).1 = 0) : (stepOp sign x s).2 = s := by
  rw [stepOp_code] at h
  apply State.ext
  intro y
  rw [mem_stepOp]
  split
  · rename_i e; rw [e, h]
  · rfl

theorem runOps_other {ops : List (Bool × Atom)} {y : Atom} (h : ∀ sign, (sign, y) ∉ ops) (s : State) :
    y ∈ (runOps ops s).2 ↔ y ∈ s := by
  induction ops generalizing s with
  | nil => rfl
  | cons o ops ih =>
    obtain ⟨sign, x⟩ := o
    simp only [runOps]
    rw [ih (fun sg hm => h sg (by simp [hm])), mem_stepOp, if_neg]
    rintro rfl
    exact h sign (by simp)

/-- The last operation on `y` decides. -/
theorem runOps_signed {ops : List (Bool × Atom)} {y : Atom} {sign : Bool} (h : (sign, y) ∈ ops)
    (h' : (!sign, y) ∉ ops) (s : State) : y ∈ (runOps ops s).2 ↔ sign = true := by
  induction ops generalizing s with
  | nil => simp at h
  | cons o ops ih =>
    obtain ⟨sg, x⟩ := o
    simp only [runOps]
    by_cases hm : (sign, y) ∈ ops
    · exact ih hm (fun hx => h' (by simp [hx])) _
    · have hx : (sign, y) = (sg, x) := by simpa [hm] using h
      simp only [Prod.mk.injEq] at hx
      obtain ⟨rfl, rfl⟩ := hx
      rw [runOps_other, mem_stepOp, if_pos rfl]
      intro s2 h2
      by_cases e : s2 = sign
      · exact hm (e ▸ h2)
      · apply h'
        have : s2 = !sign := by cases s2 <;> cases sign <;> simp_all
        simp [← this, h2]

theorem mem_runOps {ops : List (Bool × Atom)} (hc : ∀ x, (true, x) ∈ ops → (false, x) ∉ ops) (s : State) (y : Atom) :
    y ∈ (runOps ops s).2 ↔ (true, y) ∈ ops ∨ (y ∈ s ∧ (false, y) ∉ ops) := by
  by_cases h1 : (true, y) ∈ ops
  · rw [runOps_signed h1 (by simpa using hc y h1)]; simp [h1]
  · by_cases h2 : (false, y) ∈ ops
    · rw [runOps_signed h2 (by simpa using h1)]; simp [h1, h2]
    · rw [runOps_other (fun sg => by cases sg <;> assumption)]; simp [h1, h2]

theorem runOps_zero {ops : List (Bool × Atom)} {s : State} (h : (runOps ops s).1 = 0) : (runOps ops s).2 = s := by
  induction ops generalizing s with
  | nil => rfl
  | cons o ops ih =>
    obtain ⟨sign, x⟩ := o
    simp only [runOps] at h ⊢
    have h1 : (stepOp sign x s).1 = 0 := by omega
    have h2 : (runOps ops (stepOp sign x s).2).1 = 0 := by omega
    rw [ih h2, stepOp_zero h1]

/-- Without conflicts, a change code means a changed state. -/
theorem runOps_changed {ops : List (Bool × Atom)} (hc : ∀ x, (true, x) ∈ ops → (false, x) ∉ ops) {s : State}
    (h : (runOps ops s).1 ≠ 0) : (runOps ops s).2 ≠ s := by
  have key : ∃ sign x, (sign, x) ∈ ops ∧ ¬ (x ∈ s ↔ sign = true) := by
    clear hc
    induction ops generalizing s with
    | nil => simp [runOps] at h
    | cons o ops ih =>
      obtain ⟨sign, x⟩ := o
      by_cases h1 : (stepOp sign x s).1 = 0
      · simp only [runOps, h1] at h
        obtain ⟨sg, y, hm, hy⟩ := ih (s := (stepOp sign x s).2) (by omega)
        rw [stepOp_zero h1] at hy
        exact ⟨sg, y, by simp [hm], hy⟩
      · rw [stepOp_code] at h1
        exact ⟨sign, x, by simp, h1⟩
  obtain ⟨sign, x, hm, hx⟩ := key
  intro he
  apply hx
  rw [← he]
  refine runOps_signed hm ?_ s
  cases sign
  · intro h'; exact hc x h' hm
  · exact hc x hm

end

/-! ## Effects as operations -/

section
variable [StrHash]

/-- Nothing fires. -/
def Quiet (fire : Fire State) : Prop := ∀ sign pred ps es as s, fire sign pred ps es as s = .ok s

theorem quiet_nil (m : ObjMap) : ∀ n, Quiet (fireN (σ := State) m [] n)
  | 0 => fun _ _ _ _ _ _ => rfl
  | _ + 1 => fun _ _ _ _ _ _ => rfl

theorem applySimple_quiet {objects : List Obj} {fire : Fire State} (hq : Quiet fire) (sign : Bool) (pred : Name)
    (ts : List Term) (params args : List Obj) (s : State) (hlen : params.length = args.length)
    (hp : pred ≠ n!"=" ∧ ¬ IsType objects pred) :
    applySimple (ObjMap.create objects) fire sign pred ts params args s =
      .ok (stepOp sign (Atom.ofObjs pred (ts.map (Term.value params args))) s) := by
  have hk := (atomKind_create objects pred).2.2.2 hp
  simp only [applySimple, applyFn_terms params args ts (Nat.le_of_eq hlen), Res.bind_ok, hk]
  have e : (if sign = true then StateLike.insert s (Atom.ofObjs pred (ts.map (Term.value params args)))
      else StateLike.erase s (Atom.ofObjs pred (ts.map (Term.value params args)))) =
      stepOp sign (Atom.ofObjs pred (ts.map (Term.value params args))) s := rfl
  rw [e]
  split
  · rfl
  · simp only [hq sign pred, Res.bind_ok, Res.pure_eq]

omit [StrHash] in
theorem lists_iff {params args : List Obj} (hlen : params.length = args.length) {objects : List Obj}
    {l : List (Name × List Term)} (hl : WFLits objects (params.map Obj.name) l) (x : Atom) :
    Lists (Env.none.bind params args) l x ↔
      ∃ pt ∈ l, x = Atom.ofObjs pt.1 (pt.2.map (Term.value params args)) := by
  constructor
  · rintro ⟨pred, ts, os, hm, ho, rfl⟩
    rw [forall₂_denotes hlen (hl pred ts hm).1] at ho
    exact ⟨(pred, ts), hm, by rw [ho]; rfl⟩
  · rintro ⟨⟨pred, ts⟩, hm, rfl⟩
    exact ⟨pred, ts, _, hm, (forall₂_denotes hlen (hl pred ts hm).1 _).2 rfl, rfl⟩

theorem applySimples_quiet {objects : List Obj} {fire : Fire State} (hq : Quiet fire) (sign : Bool)
    (params args : List Obj) (hlen : params.length = args.length) :
    ∀ (l : List (Name × List Term)) (s : State), WFLits objects (params.map Obj.name) l →
    applySimples (ObjMap.create objects) fire sign params args l s =
      .ok (runOps (l.map fun pt => (sign, Atom.ofObjs pt.1 (pt.2.map (Term.value params args)))) s)
  | [], s, _ => rfl
  | (pred, ts) :: l, s, h => by
    simp only [applySimples, applySimple_quiet hq sign pred ts params args s hlen (h pred ts (by simp)).2,
      Res.bind_ok, applySimples_quiet hq sign params args hlen l _ (fun p t hm => h p t (by simp [hm])),
      Res.pure_eq, List.map_cons, runOps]

/-- What running an effect does: some operations, exactly those the specification asks for. -/
def Runs (r : Res (Nat × State)) (s : State) (makes : Bool → Atom → Prop) : Prop :=
  ∃ ops, r = .ok (runOps ops s) ∧ ∀ sign x, (sign, x) ∈ ops ↔ makes sign x

/-- `s` agrees with `s₀` on the predicates `R`. -/
def AgreePreds (R : Name → Prop) (s s₀ : State) : Prop := ∀ x : Atom, R x.pred → (x ∈ s ↔ x ∈ s₀)

theorem AgreePreds.after {R : Name → Prop} {s s₀ : State} (h : AgreePreds R s s₀) {ops : List (Bool × Atom)}
    (ho : ∀ sign x, (sign, x) ∈ ops → ¬ R x.pred) : AgreePreds R (runOps ops s).2 s₀ := by
  intro x hx
  rw [runOps_other (fun sign hm => ho sign x hm hx)]
  exact h x hx

theorem loopEff_runs {f : List Obj → State → Res (Nat × State)} {R : Name → Prop} {s₀ : State}
    {makes : List Obj → Bool → Atom → Prop} :
    ∀ (l : List (List Obj)) (s : State), AgreePreds R s s₀ →
    (∀ os ∈ l, ∀ s, AgreePreds R s s₀ → Runs (f os s) s (makes os)) →
    (∀ os ∈ l, ∀ sign x, makes os sign x → ¬ R x.pred) →
    Runs (loopEff f l s) s (fun sign x => ∃ os ∈ l, makes os sign x)
  | [], s, _, _, _ => ⟨[], rfl, by simp⟩
  | os :: l, s, ha, hf, hn => by
    obtain ⟨ops, h1, h2⟩ := hf os (by simp) s ha
    have ha' := ha.after (ops := ops) (fun sign x hm => hn os (by simp) sign x ((h2 sign x).1 hm))
    obtain ⟨ops', h3, h4⟩ := loopEff_runs l (runOps ops s).2 ha' (fun o ho => hf o (by simp [ho]))
      (fun o ho => hn o (by simp [ho]))
    refine ⟨ops ++ ops', ?_, ?_⟩
    · simp only [loopEff, h1, Res.bind_ok, h3, Res.pure_eq, runOps_append]
    · intro sign x
      simp [List.mem_append, h2, h4]

/-! ### Touched predicates -/

omit [StrHash] in
theorem lists_pred {env : Env} {l : List (Name × List Term)} {x : Atom} (h : Lists env l x) : ListsPred l x.pred := by
  obtain ⟨pred, ts, os, hm, -, rfl⟩ := h
  exact ⟨ts, hm⟩

omit [StrHash] in
mutual
theorem touches_of_makes (objects : List Obj) (S : Atom → Prop) (sign : Bool) : ∀ (e : Eff) (env : Env) (x : Atom),
    Makes objects S sign env e x → e.Touches sign x.pred
  | .mk fs adds dels cs, env, x, h => by
    simp only [Makes] at h
    simp only [Eff.Touches]
    rcases h with h | ⟨h1, h⟩ | ⟨h1, h⟩ | h
    · exact Or.inl (touchesF_of_makes objects S sign fs env x h)
    · exact Or.inr (Or.inl ⟨h1, lists_pred h⟩)
    · exact Or.inr (Or.inr (Or.inl ⟨h1, lists_pred h⟩))
    · exact Or.inr (Or.inr (Or.inr (touchesC_of_makes objects S sign cs env x h)))
theorem touchesF_of_makes (objects : List Obj) (S : Atom → Prop) (sign : Bool) : ∀ (e : FList) (env : Env) (x : Atom),
    MakesF objects S sign env e x → e.Touches sign x.pred
  | .nil, env, x, h => by simp [MakesF] at h
  | .cons vars e rest, env, x, h => by
    simp only [MakesF] at h
    simp only [FList.Touches]
    rcases h with ⟨os, -, h⟩ | h
    · exact Or.inl (touches_of_makes objects S sign e _ x h)
    · exact Or.inr (touchesF_of_makes objects S sign rest env x h)
theorem touchesC_of_makes (objects : List Obj) (S : Atom → Prop) (sign : Bool) : ∀ (e : CList) (env : Env) (x : Atom),
    MakesC objects S sign env e x → e.Touches sign x.pred
  | .nil, env, x, h => by simp [MakesC] at h
  | .cons g e rest, env, x, h => by
    simp only [MakesC] at h
    simp only [CList.Touches]
    rcases h with ⟨-, h⟩ | h
    · exact Or.inl (touches_of_makes objects S sign e env x h)
    · exact Or.inr (touchesC_of_makes objects S sign rest env x h)
end

theorem eval_stable {objects : List Obj} {R : Name → Prop} {s s₀ : State} (ha : AgreePreds R s s₀) {g : Goal}
    {params args : List Obj} (hlen : params.length = args.length) (hwf : g.WF objects (params.map Obj.name))
    (hr : ∀ p n, g.Mentions p n → R p) :
    ∃ b, g.eval (ObjMap.create objects) params s args = .ok b ∧
      (b = true ↔ Sat objects (· ∈ s₀) (Env.none.bind params args) g) := by
  obtain ⟨b, h1, h2⟩ := eval_sat objects s₀ g params args hlen hwf
  refine ⟨b, ?_, h2⟩
  rw [← h1]
  refine eval_agree (U := fun _ => True) (M := g.Mentions) ?_ (fun _ _ => trivial) g params args hlen
    (fun _ _ => trivial) hwf (fun _ _ => trivial) (fun _ _ h => h)
  intro pred os hM _
  have := ha (Atom.ofObjs pred os) (hr _ _ hM)
  have e : s.contains (Atom.ofObjs pred os) = s₀.contains (Atom.ofObjs pred os) := by
    rw [State.contains_eq, State.contains_eq]; simp [this]
  exact ⟨congrArg Res.ok e, congrArg (fun b => Res.ok (!b)) e⟩

section
variable {objects : List Obj} {fire : Fire State} {R : Name → Prop} {s₀ : State}

mutual
theorem Eff.apply_runs (hq : Quiet fire) : ∀ (e : Eff) (params args : List Obj) (s : State),
    params.length = args.length → e.WF objects (params.map Obj.name) → AgreePreds R s s₀ →
    (∀ p, e.Reads p → R p) → (∀ sign p, e.Touches sign p → ¬ R p) →
    Runs (e.apply (ObjMap.create objects) fire params args s) s
      (fun sign x => Makes objects (· ∈ s₀) sign (Env.none.bind params args) e x)
  | .mk fs adds dels cs, params, args, s, hlen, hwf, ha, hr, ht => by
    simp only [Eff.WF] at hwf
    simp only [Eff.Reads] at hr
    obtain ⟨ops1, h1, m1⟩ := FList.apply_runs hq fs params args s hlen hwf.1 ha (fun p h => hr p (Or.inl h))
      (fun sign p h => ht sign p (by simp only [Eff.Touches]; exact Or.inl h))
    have n1 : ∀ sign x, (sign, x) ∈ ops1 → ¬ R x.pred := fun sign x hm =>
      ht sign _ (by simp only [Eff.Touches]; exact Or.inl (touchesF_of_makes _ _ _ _ _ _ ((m1 sign x).1 hm)))
    have ha1 := ha.after n1
    have h2 := applySimples_quiet (objects := objects) hq true params args hlen adds (runOps ops1 s).2 hwf.2.1
    generalize hops2 : (adds.map fun pt => (true, Atom.ofObjs pt.1 (pt.2.map (Term.value params args)))) = ops2 at h2
    have m2 : ∀ sign x, (sign, x) ∈ ops2 ↔ sign = true ∧ Lists (Env.none.bind params args) adds x := by
      intro sign x
      rw [lists_iff hlen hwf.2.1, ← hops2]
      simp only [List.mem_map, Prod.mk.injEq]
      constructor
      · rintro ⟨pt, hm, rfl, rfl⟩; exact ⟨rfl, pt, hm, rfl⟩
      · rintro ⟨rfl, pt, hm, rfl⟩; exact ⟨pt, hm, rfl, rfl⟩
    have n2 : ∀ sign x, (sign, x) ∈ ops2 → ¬ R x.pred := fun sign x hm =>
      ht sign _ (by
        simp only [Eff.Touches]
        exact Or.inr (Or.inl ⟨((m2 sign x).1 hm).1, lists_pred ((m2 sign x).1 hm).2⟩))
    have ha2 := ha1.after n2
    have h3 := applySimples_quiet (objects := objects) hq false params args hlen dels
      (runOps ops2 (runOps ops1 s).2).2 hwf.2.2.1
    generalize hops3 : (dels.map fun pt => (false, Atom.ofObjs pt.1 (pt.2.map (Term.value params args)))) = ops3 at h3
    have m3 : ∀ sign x, (sign, x) ∈ ops3 ↔ sign = false ∧ Lists (Env.none.bind params args) dels x := by
      intro sign x
      rw [lists_iff hlen hwf.2.2.1, ← hops3]
      simp only [List.mem_map, Prod.mk.injEq]
      constructor
      · rintro ⟨pt, hm, rfl, rfl⟩; exact ⟨rfl, pt, hm, rfl⟩
      · rintro ⟨rfl, pt, hm, rfl⟩; exact ⟨pt, hm, rfl, rfl⟩
    have n3 : ∀ sign x, (sign, x) ∈ ops3 → ¬ R x.pred := fun sign x hm =>
      ht sign _ (by
        simp only [Eff.Touches]
        exact Or.inr (Or.inr (Or.inl ⟨((m3 sign x).1 hm).1, lists_pred ((m3 sign x).1 hm).2⟩)))
    have ha3 := ha2.after n3
    obtain ⟨ops4, h4, m4⟩ := CList.apply_runs hq cs params args (runOps ops3 (runOps ops2 (runOps ops1 s).2).2).2 hlen
      hwf.2.2.2 ha3 (fun p h => hr p (Or.inr h))
      (fun sign p h => ht sign p (by simp only [Eff.Touches]; exact Or.inr (Or.inr (Or.inr h))))
    refine ⟨ops1 ++ (ops2 ++ (ops3 ++ ops4)), ?_, ?_⟩
    · simp only [Eff.apply, h1, h2, h3, h4, Res.bind_ok, Res.pure_eq, runOps_append, Nat.max_assoc]
    · intro sign x
      simp only [List.mem_append, m1, m2, m3, m4, Makes]

theorem FList.apply_runs (hq : Quiet fire) : ∀ (e : FList) (params args : List Obj) (s : State),
    params.length = args.length → e.WF objects (params.map Obj.name) → AgreePreds R s s₀ →
    (∀ p, e.Reads p → R p) → (∀ sign p, e.Touches sign p → ¬ R p) →
    Runs (e.apply (ObjMap.create objects) fire params args s) s
      (fun sign x => MakesF objects (· ∈ s₀) sign (Env.none.bind params args) e x)
  | .nil, params, args, s, _, _, _, _, _ => ⟨[], by simp [FList.apply, runOps], by simp [MakesF]⟩
  | .cons vars e rest, params, args, s, hlen, hwf, ha, hr, ht => by
    simp only [FList.WF] at hwf
    simp only [FList.Reads] at hr
    obtain ⟨l, hl, hmem⟩ := gen_create objects vars hwf.1
    obtain ⟨ops1, h1, m1⟩ := loopEff_runs (R := R) (s₀ := s₀)
      (f := fun os s => Eff.apply (ObjMap.create objects) fire e (params ++ vars) (args ++ os) s)
      (makes := fun os sign x => Makes objects (· ∈ s₀) sign ((Env.none.bind params args).bind vars os) e x)
      l s ha (by
        intro os hos s ha
        have hw := (hmem os).1 hos
        rw [← Env.bind_append _ _ _ _ _ hlen]
        exact Eff.apply_runs hq e _ _ s (by simp [hlen, hw.length]) (by simpa using hwf.2.1) ha
          (fun p h => hr p (Or.inl h))
          (fun sign p h => ht sign p (by simp only [FList.Touches]; exact Or.inl h)))
      (fun os _ sign x hm => ht sign _ (by
        simp only [FList.Touches]; exact Or.inl (touches_of_makes _ _ _ _ _ _ hm)))
    have n1 : ∀ sign x, (sign, x) ∈ ops1 → ¬ R x.pred := fun sign x hm => by
      obtain ⟨os, -, h⟩ := (m1 sign x).1 hm
      exact ht sign _ (by simp only [FList.Touches]; exact Or.inl (touches_of_makes _ _ _ _ _ _ h))
    obtain ⟨ops2, h2, m2⟩ := FList.apply_runs hq rest params args (runOps ops1 s).2 hlen hwf.2.2 (ha.after n1)
      (fun p h => hr p (Or.inr h))
      (fun sign p h => ht sign p (by simp only [FList.Touches]; exact Or.inr h))
    refine ⟨ops1 ++ ops2, ?_, ?_⟩
    · simp only [FList.apply, hl, h1, h2, Res.bind_ok, Res.pure_eq, runOps_append]
    · intro sign x
      simp only [List.mem_append, m1, m2, MakesF, hmem]

theorem CList.apply_runs (hq : Quiet fire) : ∀ (e : CList) (params args : List Obj) (s : State),
    params.length = args.length → e.WF objects (params.map Obj.name) → AgreePreds R s s₀ →
    (∀ p, e.Reads p → R p) → (∀ sign p, e.Touches sign p → ¬ R p) →
    Runs (e.apply (ObjMap.create objects) fire params args s) s
      (fun sign x => MakesC objects (· ∈ s₀) sign (Env.none.bind params args) e x)
  | .nil, params, args, s, _, _, _, _, _ => ⟨[], by simp [CList.apply, runOps], by simp [MakesC]⟩
  | .cons g e rest, params, args, s, hlen, hwf, ha, hr, ht => by
    simp only [CList.WF] at hwf
    simp only [CList.Reads] at hr
    obtain ⟨b, hb, hb'⟩ := eval_stable (g := g) ha hlen hwf.1 (fun p n h => hr p (Or.inl ⟨n, h⟩))
    obtain ⟨ops1, h1, m1⟩ := Eff.apply_runs hq e params args s hlen hwf.2.1 ha (fun p h => hr p (Or.inr (Or.inl h)))
      (fun sign p h => ht sign p (by simp only [CList.Touches]; exact Or.inl h))
    have n1 : ∀ sign x, (sign, x) ∈ ops1 → ¬ R x.pred := fun sign x hm =>
      ht sign _ (by simp only [CList.Touches]; exact Or.inl (touches_of_makes _ _ _ _ _ _ ((m1 sign x).1 hm)))
    have hcond : StateLike.cond (σ := State) (Goal.eval g (ObjMap.create objects) params s args) = .ok b := hb
    cases b with
    | true =>
      obtain ⟨ops2, h2, m2⟩ := CList.apply_runs hq rest params args (runOps ops1 s).2 hlen hwf.2.2 (ha.after n1)
        (fun p h => hr p (Or.inr (Or.inr h)))
        (fun sign p h => ht sign p (by simp only [CList.Touches]; exact Or.inr h))
      refine ⟨ops1 ++ ops2, ?_, ?_⟩
      · simp only [CList.apply, hcond, Res.bind_ok, if_true, h1, h2, Res.pure_eq, runOps_append]
      · intro sign x
        simp only [List.mem_append, m1, m2, MakesC, ← hb', true_and]
    | false =>
      obtain ⟨ops2, h2, m2⟩ := CList.apply_runs hq rest params args s hlen hwf.2.2 ha
        (fun p h => hr p (Or.inr (Or.inr h)))
        (fun sign p h => ht sign p (by simp only [CList.Touches]; exact Or.inr h))
      refine ⟨ops2, ?_, ?_⟩
      · simp [CList.apply, hcond, h2]
      · intro sign x
        simp [m2, MakesC, ← hb']
end
end

end

/-! ## Change codes and frames, for any axioms -/

section
variable {σ : Type} [StateLike σ]

/-- Operations of `σ` that report 0 change nothing. -/
class LawfulCodes (σ : Type) [StateLike σ] : Prop where
  insert : ∀ (s : σ) x, (StateLike.insert s x).1 = 0 → (StateLike.insert s x).2 = s
  erase : ∀ (s : σ) x, (StateLike.erase s x).1 = 0 → (StateLike.erase s x).2 = s

theorem applySimple_zero [LawfulCodes σ] {m : ObjMap} {fire : Fire σ} {sign : Bool} {pred : Name} {ts : List Term}
    {params args : List Obj} {s s' : σ} (h : applySimple m fire sign pred ts params args s = .ok (0, s')) :
    s' = s := by
  simp only [applySimple, Res.bind_eq_ok] at h
  obtain ⟨os, -, h⟩ := h
  cases hk : atomKind m pred <;> simp only [hk, Res.bind_eq_ok] at h
  · obtain ⟨a, -, b, -, h⟩ := h
    split at h <;> simp_all
  · obtain ⟨a, -, h⟩ := h
    split at h <;> simp_all
  · cases sign
    · simp only [Bool.false_eq_true, if_false] at h
      split at h
      · rename_i h0
        simp only [Res.pure_eq, Res.ok.injEq] at h
        have := LawfulCodes.erase s (Atom.ofObjs pred os) h0
        rw [h] at this; exact this
      · rename_i h0
        simp only [Res.bind_eq_ok, Res.pure_eq, Res.ok.injEq, Prod.mk.injEq] at h
        obtain ⟨_, -, h1, -⟩ := h
        exact absurd h1 h0
    · simp only [if_true] at h
      split at h
      · rename_i h0
        simp only [Res.pure_eq, Res.ok.injEq] at h
        have := LawfulCodes.insert s (Atom.ofObjs pred os) h0
        rw [h] at this; exact this
      · rename_i h0
        simp only [Res.bind_eq_ok, Res.pure_eq, Res.ok.injEq, Prod.mk.injEq] at h
        obtain ⟨_, -, h1, -⟩ := h
        exact absurd h1 h0

omit [StateLike σ] in
theorem seq_zero {r r' : Nat × σ} {s s' : σ} (h : (max r.1 r'.1, r'.2) = (0, s')) (h1 : r.1 = 0 → r.2 = s)
    (h2 : r'.1 = 0 → r'.2 = r.2) : s' = s := by
  simp only [Prod.mk.injEq] at h
  rw [← h.2, h2 (by omega), h1 (by omega)]

theorem applySimples_zero [LawfulCodes σ] {m : ObjMap} {fire : Fire σ} {sign : Bool} {params args : List Obj} :
    ∀ {l : List (Name × List Term)} {s s' : σ}, applySimples m fire sign params args l s = .ok (0, s') → s' = s
  | [], s, s', h => by simp only [applySimples, Res.ok.injEq, Prod.mk.injEq, true_and] at h; exact h.symm
  | (pred, ts) :: l, s, s', h => by
    simp only [applySimples, Res.bind_eq_ok, Res.pure_eq, Res.ok.injEq] at h
    obtain ⟨⟨n, t⟩, h1, ⟨n', t'⟩, h2, h3⟩ := h
    refine seq_zero h3 (fun e => ?_) (fun e => ?_)
    · cases e; exact applySimple_zero h1
    · cases e; exact applySimples_zero h2

omit [StateLike σ] in
theorem loopEff_zero {f : List Obj → σ → Res (Nat × σ)} (hf : ∀ os s s', f os s = .ok (0, s') → s' = s) :
    ∀ {l : List (List Obj)} {s s' : σ}, loopEff f l s = .ok (0, s') → s' = s
  | [], s, s', h => by simp only [loopEff, Res.ok.injEq, Prod.mk.injEq, true_and] at h; exact h.symm
  | os :: l, s, s', h => by
    simp only [loopEff, Res.bind_eq_ok, Res.pure_eq, Res.ok.injEq] at h
    obtain ⟨⟨n, t⟩, h1, ⟨n', t'⟩, h2, h3⟩ := h
    refine seq_zero h3 (fun e => ?_) (fun e => ?_)
    · cases e; exact hf _ _ _ h1
    · cases e; exact loopEff_zero hf h2

mutual
theorem Eff.apply_zero [LawfulCodes σ] (m : ObjMap) (fire : Fire σ) : ∀ (e : Eff) (params args : List Obj) (s s' : σ),
    e.apply m fire params args s = .ok (0, s') → s' = s
  | .mk fs adds dels cs, params, args, s, s', h => by
    simp only [Eff.apply, Res.bind_eq_ok, Res.pure_eq, Res.ok.injEq, Prod.mk.injEq] at h
    obtain ⟨⟨n1, t1⟩, h1, ⟨n2, t2⟩, h2, ⟨n3, t3⟩, h3, ⟨n4, t4⟩, h4, h5, rfl⟩ := h
    simp only at h5 h2 h3 h4 ⊢
    have e1 : n1 = 0 := by omega
    have e2 : n2 = 0 := by omega
    have e3 : n3 = 0 := by omega
    have e4 : n4 = 0 := by omega
    subst e1 e2 e3 e4
    rw [CList.apply_zero m fire cs _ _ _ _ h4, applySimples_zero h3, applySimples_zero h2,
      FList.apply_zero m fire fs _ _ _ _ h1]
theorem FList.apply_zero [LawfulCodes σ] (m : ObjMap) (fire : Fire σ) : ∀ (e : FList) (params args : List Obj)
    (s s' : σ), e.apply m fire params args s = .ok (0, s') → s' = s
  | .nil, params, args, s, s', h => by
    simp only [FList.apply, Res.ok.injEq, Prod.mk.injEq, true_and] at h; exact h.symm
  | .cons vars e rest, params, args, s, s', h => by
    simp only [FList.apply, Res.bind_eq_ok, Res.pure_eq, Res.ok.injEq] at h
    obtain ⟨l, -, ⟨n, t⟩, h1, ⟨n', t'⟩, h2, h3⟩ := h
    refine seq_zero h3 (fun e0 => ?_) (fun e0 => ?_)
    · cases e0; exact loopEff_zero (fun os s s' h => Eff.apply_zero m fire e _ _ s s' h) h1
    · cases e0; exact FList.apply_zero m fire rest _ _ _ _ h2
theorem CList.apply_zero [LawfulCodes σ] (m : ObjMap) (fire : Fire σ) : ∀ (e : CList) (params args : List Obj)
    (s s' : σ), e.apply m fire params args s = .ok (0, s') → s' = s
  | .nil, params, args, s, s', h => by
    simp only [CList.apply, Res.ok.injEq, Prod.mk.injEq, true_and] at h; exact h.symm
  | .cons g e rest, params, args, s, s', h => by
    simp only [CList.apply, Res.bind_eq_ok, Res.pure_eq, Res.ok.injEq] at h
    obtain ⟨b, -, ⟨n, t⟩, h1, ⟨n', t'⟩, h2, h3⟩ := h
    refine seq_zero h3 (fun e0 => ?_) (fun e0 => ?_)
    · cases e0
      cases b
      · simp only [Bool.false_eq_true, if_false, Res.ok.injEq, Prod.mk.injEq, true_and] at h1
        exact h1.symm
      · exact Eff.apply_zero m fire e _ _ _ _ h1
    · cases e0; exact CList.apply_zero m fire rest _ _ _ _ h2
end
end

instance [StrHash] : LawfulCodes State where
  insert _ _ h := stepOp_zero (sign := true) h
  erase _ _ h := stepOp_zero (sign := false) h

instance [StrHash] : LawfulCodes PartialState where
  insert s x h := by
    have h' : (s.neg.erase x).1.toNat + (s.pos.insert x).1.toNat = 0 := h
    show (⟨(s.pos.insert x).2, (s.neg.erase x).2⟩ : PartialState) = s
    rw [State.insert_flag, State.erase_flag] at h'
    have h1 : x ∉ s.neg := by by_cases hx : x ∈ s.neg <;> simp_all
    have h2 : x ∈ s.pos := by by_cases hx : x ∈ s.pos <;> simp_all
    rw [State.insert_of_mem h2, State.erase_of_not_mem h1]
  erase s x h := by
    have h' : (s.pos.erase x).1.toNat + (s.neg.insert x).1.toNat = 0 := h
    show (⟨(s.pos.erase x).2, (s.neg.insert x).2⟩ : PartialState) = s
    rw [State.insert_flag, State.erase_flag] at h'
    have h1 : x ∉ s.pos := by by_cases hx : x ∈ s.pos <;> simp_all
    have h2 : x ∈ s.neg := by by_cases hx : x ∈ s.neg <;> simp_all
    rw [State.insert_of_mem h2, State.erase_of_not_mem h1]

mutual
theorem Eff.noCond_reads : ∀ (e : Eff), e.NoCond → ∀ p, ¬ e.Reads p
  | .mk fs _ _ cs, h, p, hr => by
    simp only [Eff.NoCond] at h
    simp only [Eff.Reads, h.2, CList.Reads, or_false] at hr
    exact FList.noCond_reads fs h.1 p hr
theorem FList.noCond_reads : ∀ (e : FList), e.NoCond → ∀ p, ¬ e.Reads p
  | .nil, _, _, hr => by simp [FList.Reads] at hr
  | .cons _ e rest, h, p, hr => by
    simp only [FList.NoCond] at h
    simp only [FList.Reads] at hr
    exact hr.elim (Eff.noCond_reads e h.1 p) (FList.noCond_reads rest h.2 p)
end

end Symbolic
