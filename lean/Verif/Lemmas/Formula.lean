import Verif.Model.Formula
import Verif.Spec.Satisfaction
import Verif.Lemmas.Object
import Verif.Lemmas.State
import Verif.Lemmas.Res

namespace Symbolic

/-! ## Argument application -/

/-- The argument of the last parameter called like `p`, or `d`. -/
def resolve (p : Obj) : List Obj → List Obj → Obj → Obj
  | q :: qs, a :: as, d => resolve p qs as (if p.same q then a else d)
  | _, _, d => d

theorem resolve_snoc (p q a : Obj) : ∀ (ps as : List Obj) (d : Obj), ps.length = as.length →
    resolve p (ps ++ [q]) (as ++ [a]) d = if p.same q then a else resolve p ps as d
  | [], [], d, _ => by simp [resolve]
  | [], _ :: _, _, h => by simp at h
  | _ :: _, [], _, h => by simp at h
  | p' :: ps, a' :: as, d, h => by
    simp only [List.cons_append, resolve]
    exact resolve_snoc p q a ps as _ (by simpa using h)

theorem applyLoop_append (args : List Obj) (l₁ l₂ : List (Nat × Nat)) (buf : List Obj) :
    applyLoop args (l₁ ++ l₂) buf = applyLoop args l₁ buf >>= applyLoop args l₂ := by
  induction l₁ generalizing buf with
  | nil => rfl
  | cons x l₁ ih =>
    obtain ⟨i, j⟩ := x
    simp only [List.cons_append, applyLoop, Res.bind_assoc']
    cases Res.index args j <;> simp only [Res.bind_ok, Res.bind_exc, Res.bind_ub, Res.bind_fuel]
    split
    · exact ih _
    · rfl

theorem applyLoop_block (params args : List Obj) (p : Obj) (i : Nat) (buf : List Obj) (hi : i < buf.length)
    (hlen : params.length ≤ args.length) :
    ∀ n, n ≤ params.length →
      applyLoop args ((List.range n).filterMap fun j =>
        match some p, params[j]? with
        | some p, some q => if p.same q then some (i, j) else none
        | _, _ => none) buf
      = .ok (buf.set i (resolve p (params.take n) (args.take n) buf[i])) := by
  intro n hn
  induction n with
  | zero => simp [applyLoop, resolve]
  | succ n ih =>
    have hp : n < params.length := hn
    have ha : n < args.length := by omega
    rw [List.range_succ, List.filterMap_append, applyLoop_append, ih (by omega), Res.bind_ok]
    rw [List.take_succ_eq_append_getElem hp, List.take_succ_eq_append_getElem ha,
      resolve_snoc _ _ _ _ _ _ (by simp; omega)]
    simp only [List.filterMap_cons, List.filterMap_nil, List.getElem?_eq_getElem hp]
    by_cases h : p.same params[n] = true
    · simp [h, applyLoop, Res.index_lt ha, hi]
    · simp [h, applyLoop]

theorem applyFn_eq (params props args : List Obj) (hlen : params.length ≤ args.length) :
    applyFn params props args = .ok (props.map fun p => resolve p params args p) := by
  have key : ∀ m, m ≤ props.length →
      applyLoop args ((List.range m).flatMap fun i =>
        (List.range params.length).filterMap fun j =>
          match props[i]?, params[j]? with
          | some p, some q => if p.same q then some (i, j) else none
          | _, _ => none) props
      = .ok ((props.take m).map (fun p => resolve p params args p) ++ props.drop m) := by
    intro m hm
    induction m with
    | zero => simp [applyLoop]
    | succ m ih =>
      have hm' : m < props.length := hm
      rw [List.range_succ, List.flatMap_append, applyLoop_append, ih (by omega), Res.bind_ok]
      simp only [List.flatMap_cons, List.flatMap_nil, List.append_nil, List.getElem?_eq_getElem hm']
      have hl : (List.map (fun p => resolve p params args p) (List.take m props)).length = m := by
        simp; omega
      rw [applyLoop_block params args props[m] m _ (by simp; omega) hlen params.length (Nat.le_refl _)]
      congr 1
      have e : ∀ d, resolve props[m] params (args.take params.length) d = resolve props[m] params args d := by
        intro d
        generalize props[m] = p
        clear ih hm' hm hl
        induction params generalizing args d with
        | nil => cases args <;> simp [resolve]
        | cons q qs ih =>
          cases args with
          | nil => simp at hlen
          | cons a as =>
            simp only [List.length_cons, List.take_succ_cons, resolve]
            exact ih _ (by simpa using hlen) _
      have hg : ∀ h, (List.map (fun p => resolve p params args p) (List.take m props) ++ List.drop m props)[m]'h
          = props[m] := by
        intro h
        have hmin : min m props.length = m := by omega
        rw [List.getElem_append_right (by omega)]
        simp [hmin]
      rw [List.take_length, e, hg, List.set_append_right _ _ (by omega), hl, Nat.sub_self,
        List.drop_eq_getElem_cons hm', List.set_cons_zero, List.take_succ_eq_append_getElem hm', List.map_append,
        List.append_assoc]
      rfl
  have := key props.length (Nat.le_refl _)
  rw [List.take_length, List.drop_length, List.append_nil] at this
  exact this

/-! ## Assignments -/

theorem Env.bind_apply (env : Env) (v : Obj) : ∀ (ps as : List Obj) (d : Obj), ps.length = as.length →
    (env v.name = some d ∨ v.name ∈ ps.map Obj.name) →
    (env.bind ps as) v.name = some (resolve v ps as d)
  | [], [], d, _, h => by simpa [Env.bind, resolve] using h
  | [], _ :: _, _, h, _ => by simp at h
  | _ :: _, [], _, h, _ => by simp at h
  | p :: ps, a :: as, d, h, hd => by
    simp only [Env.bind, resolve]
    by_cases e : v.name = p.name
    · rw [if_pos (by simpa [Obj.same] using e)]
      exact Env.bind_apply _ v ps as a (by simpa using h) (Or.inl (by simp [Env.set, e]))
    · rw [if_neg (by simpa [Obj.same] using e)]
      refine Env.bind_apply _ v ps as d (by simpa using h) ?_
      rcases hd with hd | hd
      · left; simpa [Env.set, e] using hd
      · right
        simpa [e] using hd

theorem resolve_not_mem (c : Obj) : ∀ (ps as : List Obj) (d : Obj), c.name ∉ ps.map Obj.name →
    resolve c ps as d = d
  | [], [], d, _ => rfl
  | [], _ :: _, _, _ => rfl
  | _ :: _, [], _, _ => rfl
  | p :: ps, a :: as, d, h => by
    simp only [List.map_cons, List.mem_cons, not_or] at h
    simp only [resolve]
    rw [if_neg (by simpa [Obj.same] using h.1)]
    exact resolve_not_mem c ps as d h.2

theorem Env.bind_append (env : Env) : ∀ (ps as qs bs : List Obj), ps.length = as.length →
    env.bind (ps ++ qs) (as ++ bs) = (env.bind ps as).bind qs bs
  | [], [], qs, bs, _ => by simp [Env.bind]
  | [], _ :: _, _, _, h => by simp at h
  | _ :: _, [], _, _, h => by simp at h
  | p :: ps, a :: as, qs, bs, h => by
    simp only [List.cons_append, Env.bind]
    exact Env.bind_append _ ps as qs bs (by simpa using h)

/-- The object the library uses for a term. -/
def Term.value (params args : List Obj) (t : Term) : Obj := resolve t.obj params args t.obj

theorem denotes_value {params args : List Obj} (hlen : params.length = args.length) {t : Term}
    (ht : t.Scoped (params.map Obj.name)) (o : Obj) :
    Denotes (Env.none.bind params args) t o ↔ o = t.value params args := by
  cases t with
  | var v =>
    have := Env.bind_apply Env.none v params args v hlen (Or.inr ht)
    simp only [Denotes, this, Option.some.injEq, Term.value, Term.obj]
    exact eq_comm
  | const c =>
    simp only [Denotes, Term.value, Term.obj, resolve_not_mem c params args c ht]
    exact eq_comm

theorem forall₂_denotes {params args : List Obj} (hlen : params.length = args.length) :
    ∀ {ts : List Term} (_ : ∀ t ∈ ts, t.Scoped (params.map Obj.name)) (os : List Obj),
    List.Forall₂ (Denotes (Env.none.bind params args)) ts os ↔ os = ts.map (Term.value params args)
  | [], _, os => by cases os <;> simp
  | t :: ts, h, os => by
    cases os with
    | nil => simp
    | cons o os =>
      simp only [List.forall₂_cons, List.map_cons, List.cons.injEq]
      rw [denotes_value hlen (h t (by simp)), forall₂_denotes hlen (fun t ht => h t (by simp [ht]))]

theorem applyFn_terms (params args : List Obj) (ts : List Term) (hlen : params.length ≤ args.length) :
    applyFn params (ts.map Term.obj) args = .ok (ts.map (Term.value params args)) := by
  rw [applyFn_eq params _ args hlen, List.map_map]
  rfl

/-! ## Quantifier loops -/

theorem gen_create (objects vars : List Obj) (hv : vars ≠ []) :
    ∃ l, genLoop (paramTypes (ObjMap.create objects) vars) = .ok l ∧
      ∀ os, os ∈ l ↔ WellTyped objects vars os := by
  have hne := paramTypes_ne (ObjMap.nonEmpty_create objects) vars
  exact ⟨_, genLoop_ok hne, fun os => mem_gen_create hv (genLoop_ok hne)⟩

theorem loopAll_ok {f : List Obj → Res Bool} {p : List Obj → Prop} {l : List (List Obj)}
    (h : ∀ os ∈ l, ∃ b, f os = .ok b ∧ (b = true ↔ p os)) :
    ∃ b, loopAll f l = .ok b ∧ (b = true ↔ ∀ os ∈ l, p os) := by
  induction l with
  | nil => exact ⟨true, rfl, by simp⟩
  | cons os l ih =>
    obtain ⟨b, hb, hb'⟩ := h os (by simp)
    obtain ⟨c, hc, hc'⟩ := ih (fun x hx => h x (by simp [hx]))
    cases b with
    | true =>
      refine ⟨c, by simp [loopAll, hb, hc], ?_⟩
      rw [hc']; simp only [List.mem_cons, forall_eq_or_imp]
      exact ⟨fun h => ⟨hb'.1 rfl, h⟩, fun h => h.2⟩
    | false =>
      refine ⟨false, by simp [loopAll, hb], ?_⟩
      simp only [List.mem_cons, forall_eq_or_imp]
      exact ⟨fun h => by simp at h, fun h => hb'.2 h.1⟩

theorem loopAny_ok {f : List Obj → Res Bool} {p : List Obj → Prop} {l : List (List Obj)}
    (h : ∀ os ∈ l, ∃ b, f os = .ok b ∧ (b = true ↔ p os)) :
    ∃ b, loopAny f l = .ok b ∧ (b = true ↔ ∃ os ∈ l, p os) := by
  induction l with
  | nil => exact ⟨false, rfl, by simp⟩
  | cons os l ih =>
    obtain ⟨b, hb, hb'⟩ := h os (by simp)
    obtain ⟨c, hc, hc'⟩ := ih (fun x hx => h x (by simp [hx]))
    cases b with
    | true =>
      refine ⟨true, by simp [loopAny, hb], ?_⟩
      exact ⟨fun _ => ⟨os, by simp, hb'.1 rfl⟩, fun _ => rfl⟩
    | false =>
      refine ⟨c, by simp [loopAny, hb, hc], ?_⟩
      rw [hc']
      constructor
      · rintro ⟨x, hx, h⟩; exact ⟨x, by simp [hx], h⟩
      · rintro ⟨x, hx, hp⟩
        rcases List.mem_cons.1 hx with rfl | hx
        · exact absurd (hb'.2 hp) (by simp)
        · exact ⟨x, hx, hp⟩

/-! ## Evaluation on a State is satisfaction -/

theorem atomKind_create (objects : List Obj) (pred : Name) :
    (atomKind (ObjMap.create objects) pred = .eq ↔ pred = n!"=") ∧
    (atomKind (ObjMap.create objects) pred = .type ↔ pred ≠ n!"=" ∧ IsType objects pred) ∧
    (atomKind (ObjMap.create objects) pred = .plain ↔ pred ≠ n!"=" ∧ ¬ IsType objects pred) := by
  have h := ObjMap.has_create objects pred
  unfold atomKind IsType
  by_cases e : pred = n!"="
  · simp [e]
  · rw [if_neg e]
    by_cases h' : (ObjMap.create objects).has pred = true
    · simp only [h', if_true]
      rw [h] at h'
      simp [e, h']
    · simp only [h']
      rw [h] at h'
      simp [e, h']

mutual
theorem create_of_WF (objects : List Obj) : ∀ (g : Goal) (scope : List Name), g.WF objects scope →
    g.create (ObjMap.create objects) = .ok ()
  | .atom _ _, _, _ => by simp only [Goal.create]
  | .conj gs, scope, h => by simp only [Goal.create]; exact createAll_of_WF objects gs scope (by simpa [Goal.WF] using h)
  | .disj gs, scope, h => by simp only [Goal.create]; exact createAll_of_WF objects gs scope (by simpa [Goal.WF] using h)
  | .neg g, scope, h => by simp only [Goal.create]; exact create_of_WF objects g scope (by simpa [Goal.WF] using h)
  | .all vars g, scope, h => by
    simp only [Goal.WF] at h
    simp only [Goal.create, create_of_WF objects g _ h.2, paramGen_ok (ObjMap.nonEmpty_create objects), Res.bind_ok,
      Res.pure_eq]
  | .ex vars g, scope, h => by
    simp only [Goal.WF] at h
    simp only [Goal.create, create_of_WF objects g _ h.2, paramGen_ok (ObjMap.nonEmpty_create objects), Res.bind_ok,
      Res.pure_eq]
  | .other, _, h => by simp [Goal.WF] at h
theorem createAll_of_WF (objects : List Obj) : ∀ (gs : List Goal) (scope : List Name), Goal.WFs objects scope gs →
    Goal.createAll gs (ObjMap.create objects) = .ok ()
  | [], _, _ => by simp only [Goal.createAll]
  | g :: gs, scope, h => by
    simp only [Goal.WFs] at h
    simp only [Goal.createAll, create_of_WF objects g scope h.1, createAll_of_WF objects gs scope h.2, Res.bind_ok]
end

variable [StrHash]

theorem evalAtom_sat (objects : List Obj) (s : State) (params args : List Obj) (pred : Name) (ts : List Term)
    (hlen : params.length = args.length) (hwf : Goal.WF objects (params.map Obj.name) (.atom pred ts)) :
    ∃ b, evalAtom (ObjMap.create objects) params pred ts s args = .ok b ∧
      (b = true ↔ SatAtom objects (· ∈ s) (Env.none.bind params args) pred ts) := by
  obtain ⟨hsc, h2, h1⟩ := hwf
  obtain ⟨k1, k2, k3⟩ := atomKind_create objects pred
  simp only [evalAtom, applyFn_terms params args ts (Nat.le_of_eq hlen), Res.bind_ok]
  cases hk : atomKind (ObjMap.create objects) pred with
  | eq =>
    have e := k1.1 hk
    obtain ⟨t₁, t₂, rfl⟩ := List.length_eq_two.1 (h2 e)
    refine ⟨(t₁.value params args).same (t₂.value params args), by simp [Res.index], ?_⟩
    simp only [SatAtom, e, true_and, ne_eq, not_true_eq_false, false_and, or_false, Obj.same, decide_eq_true_eq]
    constructor
    · intro h
      exact ⟨t₁, t₂, _, _, rfl, (denotes_value hlen (hsc t₁ (by simp)) _).2 rfl,
        (denotes_value hlen (hsc t₂ (by simp)) _).2 rfl, h⟩
    · rintro ⟨u₁, u₂, o₁, o₂, hu, d₁, d₂, h⟩
      simp only [List.cons.injEq, and_true] at hu
      obtain ⟨rfl, rfl⟩ := hu
      rw [denotes_value hlen (hsc _ (by simp))] at d₁ d₂
      rw [← d₁, ← d₂, h]
  | type =>
    obtain ⟨e, ht⟩ := k2.1 hk
    obtain ⟨t, rfl⟩ := List.length_eq_one_iff.1 (h1 e ht)
    refine ⟨(t.value params args).isSubtype pred, by simp [Res.index], ?_⟩
    rw [Obj.isSubtype_iff]
    simp only [SatAtom, e, ht, false_and, ne_eq, not_false_eq_true, true_and, not_true_eq_false, or_false, false_or]
    constructor
    · intro h
      exact ⟨t, _, rfl, (denotes_value hlen (hsc t (by simp)) _).2 rfl, h⟩
    · rintro ⟨u, o, hu, d, h⟩
      simp only [List.cons.injEq, and_true] at hu
      subst hu
      rw [denotes_value hlen (hsc _ (by simp))] at d
      rw [← d]; exact h
  | plain =>
    obtain ⟨e, ht⟩ := k3.1 hk
    refine ⟨s.contains (Atom.ofObjs pred (ts.map (Term.value params args))), rfl, ?_⟩
    simp only [SatAtom, e, ht, false_and, ne_eq, not_false_eq_true, true_and, false_or]
    constructor
    · intro h
      exact ⟨_, (forall₂_denotes hlen hsc _).2 rfl, h⟩
    · rintro ⟨os, hos, h⟩
      rw [forall₂_denotes hlen hsc] at hos
      subst hos
      exact h

theorem evalNeg_state (m : ObjMap) (params : List Obj) (g : Goal) (s : State) (args : List Obj) :
    evalNeg m params g s args (Goal.eval g m params s args) = (do
      let b ← Goal.eval g m params s args
      pure (!b)) := by
  unfold evalNeg
  split
  · rename_i pred ts
    split
    · rename_i hk
      simp only [Goal.eval, evalAtom, hk]
      cases applyFn params (List.map Term.obj ts) args <;> rfl
    · rfl
  · rfl

mutual
theorem eval_sat (objects : List Obj) (s : State) : ∀ (g : Goal) (params args : List Obj),
    params.length = args.length → Goal.WF objects (params.map Obj.name) g →
    ∃ b, g.eval (ObjMap.create objects) params s args = .ok b ∧
      (b = true ↔ Sat objects (· ∈ s) (Env.none.bind params args) g)
  | .atom pred ts, params, args, hlen, hwf => by
    obtain ⟨b, h1, h2⟩ := evalAtom_sat objects s params args pred ts hlen hwf
    exact ⟨b, by simpa [Goal.eval] using h1, by simpa [Sat] using h2⟩
  | .conj gs, params, args, hlen, hwf => by
    obtain ⟨b, h1, h2⟩ := evalAll_sat objects s gs params args hlen (by simpa [Goal.WF] using hwf)
    exact ⟨b, by simpa [Goal.eval] using h1, by simpa [Sat] using h2⟩
  | .disj gs, params, args, hlen, hwf => by
    obtain ⟨b, h1, h2⟩ := evalAny_sat objects s gs params args hlen (by simpa [Goal.WF] using hwf)
    exact ⟨b, by simpa [Goal.eval] using h1, by simpa [Sat] using h2⟩
  | .neg g, params, args, hlen, hwf => by
    obtain ⟨b, h1, h2⟩ := eval_sat objects s g params args hlen (by simpa [Goal.WF] using hwf)
    refine ⟨!b, by rw [Goal.eval, evalNeg_state, h1]; rfl, ?_⟩
    simp only [Sat, ← h2]; simp
  | .all vars g, params, args, hlen, hwf => by
    obtain ⟨hv, hwf⟩ := by simpa only [Goal.WF] using hwf
    obtain ⟨l, hl, hmem⟩ := gen_create objects vars hv
    obtain ⟨b, h1, h2⟩ := loopAll_ok (l := l)
      (f := fun os => g.eval (ObjMap.create objects) (params ++ vars) s (args ++ os))
      (p := fun os => Sat objects (· ∈ s) ((Env.none.bind params args).bind vars os) g) (by
        intro os hos
        have hw := (hmem os).1 hos
        rw [← Env.bind_append _ _ _ _ _ hlen]
        exact eval_sat objects s g _ _ (by simp [hlen, hw.length]) (by simpa using hwf))
    refine ⟨b, by simp only [Goal.eval, hl, Res.bind_ok, h1], ?_⟩
    rw [h2]
    simp only [Sat, hmem]
  | .ex vars g, params, args, hlen, hwf => by
    obtain ⟨hv, hwf⟩ := by simpa only [Goal.WF] using hwf
    obtain ⟨l, hl, hmem⟩ := gen_create objects vars hv
    obtain ⟨b, h1, h2⟩ := loopAny_ok (l := l)
      (f := fun os => g.eval (ObjMap.create objects) (params ++ vars) s (args ++ os))
      (p := fun os => Sat objects (· ∈ s) ((Env.none.bind params args).bind vars os) g) (by
        intro os hos
        have hw := (hmem os).1 hos
        rw [← Env.bind_append _ _ _ _ _ hlen]
        exact eval_sat objects s g _ _ (by simp [hlen, hw.length]) (by simpa using hwf))
    refine ⟨b, by simp only [Goal.eval, hl, Res.bind_ok, h1], ?_⟩
    rw [h2]
    simp only [Sat, hmem]
  | .other, _, _, _, hwf => by simp [Goal.WF] at hwf

theorem evalAll_sat (objects : List Obj) (s : State) : ∀ (gs : List Goal) (params args : List Obj),
    params.length = args.length → Goal.WFs objects (params.map Obj.name) gs →
    ∃ b, Goal.evalAll gs (ObjMap.create objects) params s args = .ok b ∧
      (b = true ↔ SatAll objects (· ∈ s) (Env.none.bind params args) gs)
  | [], _, _, _, _ => ⟨true, by simp [Goal.evalAll], by simp [SatAll]⟩
  | g :: gs, params, args, hlen, hwf => by
    obtain ⟨hg, hgs⟩ := by simpa only [Goal.WFs] using hwf
    obtain ⟨b, h1, h2⟩ := eval_sat objects s g params args hlen hg
    obtain ⟨c, h3, h4⟩ := evalAll_sat objects s gs params args hlen hgs
    cases b with
    | true => exact ⟨c, by simp [Goal.evalAll, h1, h3], by simp [SatAll, h4, ← h2]⟩
    | false => exact ⟨false, by simp [Goal.evalAll, h1], by simp [SatAll, ← h2]⟩

theorem evalAny_sat (objects : List Obj) (s : State) : ∀ (gs : List Goal) (params args : List Obj),
    params.length = args.length → Goal.WFs objects (params.map Obj.name) gs →
    ∃ b, Goal.evalAny gs (ObjMap.create objects) params s args = .ok b ∧
      (b = true ↔ SatAny objects (· ∈ s) (Env.none.bind params args) gs)
  | [], _, _, _, _ => ⟨false, by simp [Goal.evalAny], by simp [SatAny]⟩
  | g :: gs, params, args, hlen, hwf => by
    obtain ⟨hg, hgs⟩ := by simpa only [Goal.WFs] using hwf
    obtain ⟨b, h1, h2⟩ := eval_sat objects s g params args hlen hg
    obtain ⟨c, h3, h4⟩ := evalAny_sat objects s gs params args hlen hgs
    cases b with
    | true => exact ⟨true, by simp [Goal.evalAny, h1], by simp [SatAny, ← h2]⟩
    | false => exact ⟨c, by simp [Goal.evalAny, h1, h3], by simp [SatAny, h4, ← h2]⟩
end

end Symbolic
