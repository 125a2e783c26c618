import Verif.Lemmas.CascadeCompare
import Verif.Props.Axioms
import Verif.Spec.OnePass

/-!
# Applying an axiom to a State settles it
-/

namespace Symbolic

section
variable {objects : List Obj} {S T : Atom → Prop}

mutual
theorem makes_agree {sign : Bool} : ∀ (e : Eff) (env : Env) (x : Atom), (∀ y : Atom, e.Reads y.pred → (S y ↔ T y)) →
    (Makes objects S sign env e x ↔ Makes objects T sign env e x)
  | .mk fs adds dels cs, env, x, h => by
    simp only [Makes]
    rw [makesF_agree fs env x (fun y hy => h y (by simp only [Eff.Reads]; exact .inl hy)),
      makesC_agree cs env x (fun y hy => h y (by simp only [Eff.Reads]; exact .inr hy))]
theorem makesF_agree {sign : Bool} : ∀ (e : FList) (env : Env) (x : Atom), (∀ y : Atom, e.Reads y.pred → (S y ↔ T y)) →
    (MakesF objects S sign env e x ↔ MakesF objects T sign env e x)
  | .nil, _, _, _ => by simp only [MakesF]
  | .cons vars e rest, env, x, h => by
    simp only [MakesF]
    rw [makesF_agree rest env x (fun y hy => h y (by simp only [FList.Reads]; exact .inr hy))]
    have := fun env => makes_agree (sign := sign) e env x (fun y hy => h y (by simp only [FList.Reads]; exact .inl hy))
    simp only [this]
theorem makesC_agree {sign : Bool} : ∀ (e : CList) (env : Env) (x : Atom), (∀ y : Atom, e.Reads y.pred → (S y ↔ T y)) →
    (MakesC objects S sign env e x ↔ MakesC objects T sign env e x)
  | .nil, _, _, _ => by simp only [MakesC]
  | .cons g e rest, env, x, h => by
    simp only [MakesC]
    rw [makesC_agree rest env x (fun y hy => h y (by simp only [CList.Reads]; exact .inr (.inr hy))),
      makes_agree e env x (fun y hy => h y (by simp only [CList.Reads]; exact .inr (.inl hy))),
      sat_congr (fun y hy => h y (by simp only [CList.Reads]; exact .inl hy))]
end

end

variable [StrHash] {t : Ptree} {P : Pddl} {up : Name → List Name}

omit [StrHash] in
/-- If the context of an instance is true in one state and not in another, its literal is new. -/
theorem context_new {objects : List Obj} {S S' : Atom → Prop} {op : Op} {pred : Name} {cargs as : List Obj}
    (hc : contextOf op.pre = .ok (op.ctxSign, pred, cargs)) (hwf : op.pre.WF objects (op.params.map Obj.name))
    (hw : WellTyped objects op.params as) (h' : Sat objects S' (Env.none.bind op.params as) op.pre)
    (h : ¬ Sat objects S (Env.none.bind op.params as) op.pre) :
    ∃ x, op.ContextIs objects as x ∧ Is S' op.ctxSign x ∧ ¬ Is S op.ctxSign x := by
  obtain ⟨e1, -, hpre⟩ := contextOf_ok hc
  generalize op.ctxSign = sg at hpre hc ⊢
  have hsc : ∀ t ∈ op.ctx, t.Scoped (op.params.map Obj.name) := by
    rw [hpre] at hwf
    cases sg
    · simp only [Bool.false_eq_true, if_false, Goal.WF] at hwf
      exact hwf.1
    · simp only [if_true, Goal.WF] at hwf
      exact hwf.1
  have hd := (forall₂_denotes hw.length hsc _).2 rfl
  refine ⟨_, ⟨hw, _, hd, rfl⟩, ?_⟩
  rw [e1]
  rw [hpre] at h h'
  by_cases hp : pred ≠ n!"=" ∧ ¬ IsType objects pred
  · cases sg
    · simp only [Bool.false_eq_true, if_false, Sat, satAtom_lit hp.1 hp.2 hd] at h h'
      simp only [Is, Bool.false_eq_true, iff_false, iff_true]
      exact ⟨h', h⟩
    · simp only [if_true, Sat, satAtom_lit hp.1 hp.2 hd] at h h'
      simp only [Is, Bool.false_eq_true, iff_false, iff_true]
      exact ⟨h', h⟩
  · exfalso
    have : SatAtom objects S (Env.none.bind op.params as) pred op.ctx ↔ SatAtom objects S' (Env.none.bind op.params as) pred op.ctx := by
      simp only [SatAtom]
      exact or_congr_right (or_congr_right ⟨fun h => absurd ⟨h.1, h.2.1⟩ hp, fun h => absurd ⟨h.1, h.2.1⟩ hp⟩)
    cases sg
    · simp only [Bool.false_eq_true, if_false, Sat, this] at h h'
      exact h h'
    · simp only [if_true, Sat, this] at h h'
      exact h h'

/-- The implications of all instances whose context is true in `s` are so, except for those `Todo`. -/
def SettledBut (t : Ptree) (s : State) (Todo : Op → List Obj → Prop) : Prop :=
  ∀ op ∈ t.ops, op.isAxiom = true → ∀ as, WellTyped (t.constants ++ t.objects) op.params as →
    Sat (t.constants ++ t.objects) (· ∈ s) (Env.none.bind op.params as) op.pre →
    (∀ sign y, Makes (t.constants ++ t.objects) (· ∈ s) sign (Env.none.bind op.params as) op.eff y → Is (· ∈ s) sign y) ∨
      Todo op as

/-- What the theorems about one pass assume. -/
structure OnePassTree (t : Ptree) (up : Name → List Name) : Prop where
  checked : t.TypeChecked up
  plain : t.PlainEffects
  undo : t.NoUndoing
  static : t.StaticConds
  closed : t.ContextsClosed

omit [StrHash] in
theorem OnePassTree.causes (_ : OnePassTree t up) {S : Atom → Prop} {so : Bool → Atom → Prop} {op : Op} (ho : op ∈ t.ops)
    (ha : op.isAxiom = true) {as : List Obj} {sign : Bool} {x : Atom} (hx : t.Causes S so op as sign x) :
    AxiomTouches t.ops sign x.pred := by
  cases hx with
  | own h => exact ⟨op, ho, ha, touches_of_makes _ _ _ _ _ _ h⟩
  | triggered h1 h2 _ _ _ h => exact ⟨_, h1, h2, touches_of_makes _ _ _ _ _ _ h⟩

omit [StrHash] in
theorem OnePassTree.opposite (h : OnePassTree t up) {sign : Bool} {p : Name} (h1 : AxiomTouches t.ops sign p)
    (h2 : AxiomTouches t.ops (!sign) p) : False := by
  cases sign
  · exact h.undo p ⟨h2, h1⟩
  · exact h.undo p ⟨h1, h2⟩

/-- Applying one instance. -/
theorem OnePassTree.step (h : OnePassTree t up) (B : P.Built t) {op : Op} (ho : op ∈ t.ops) (ha : op.isAxiom = true)
    {as : List Obj} (hw : WellTyped (t.constants ++ t.objects) op.params as) {s : State}
    (hv : Sat (t.constants ++ t.objects) (· ∈ s) (Env.none.bind op.params as) op.pre) {fuel : Nat}
    (hn : (declaredLits (t.constants ++ t.objects) t.preds).length ≤ fuel) {Todo : Op → List Obj → Prop}
    (hS : SettledBut t s Todo) :
    ∃ k s', op.apply P.omap P.axioms fuel as s = .ok (k, s') ∧
      SettledBut t s' (fun o a => Todo o a ∧ ¬ (o = op ∧ a = as)) ∧ (¬ Todo op as → k = 0 ∧ s' = s) := by
  obtain ⟨k, s', e, hm, hz⟩ := B.cascade_state h.checked h.plain ho hw (s := s)
    (fun x h1 h2 => h.opposite (h.causes ho ha h1) (h.causes ho ha h2))
    (fun sign x hx => ⟨fun hr => h.static op ho ha _ hr _ (h.causes ho ha hx),
      fun ax hm hax hr => h.static ax hm hax _ hr _ (h.causes ho ha hx)⟩) hn
  have hres : ∀ sign y, Is (· ∈ s') sign y ↔ t.CausesIn (· ∈ s) op as sign y ∨
      (Is (· ∈ s) sign y ∧ ¬ t.CausesIn (· ∈ s) op as (!sign) y) := by
    intro sign y
    have hno : t.CausesIn (· ∈ s) op as true y → ¬ t.CausesIn (· ∈ s) op as false y :=
      fun h1 h2 => h.opposite (h.causes ho ha h1) (h.causes ho ha h2)
    cases sign
    · simp only [Is, hm, Bool.not_false, Bool.false_eq_true, iff_false]
      tauto
    · simp only [Is, hm, Bool.not_true, iff_true]
  have hagree : ∀ ax ∈ t.ops, ax.isAxiom = true → ∀ y : Atom, ax.eff.Reads y.pred → (y ∈ s ↔ y ∈ s') := by
    intro ax hax haa y hr
    have n1 := fun hc => h.static ax hax haa _ hr _ (h.causes (so := Is (· ∈ s)) (S := (· ∈ s)) ho ha (as := as) (sign := true) (x := y) hc)
    have n2 := fun hc => h.static ax hax haa _ hr _ (h.causes (so := Is (· ∈ s)) (S := (· ∈ s)) ho ha (as := as) (sign := false) (x := y) hc)
    rw [hm]
    exact ⟨fun hy => .inr ⟨hy, n2⟩, fun hy => (hy.resolve_left n1).1⟩
  refine ⟨k, s', e, ?_, fun hT => ?_⟩
  · intro o ho' ha' as' hw' hk'
    have hmk : ∀ sign y, Makes (t.constants ++ t.objects) (· ∈ s') sign (Env.none.bind o.params as') o.eff y →
        Makes (t.constants ++ t.objects) (· ∈ s) sign (Env.none.bind o.params as') o.eff y :=
      fun sign y => (makes_agree o.eff _ y (hagree o ho' ha')).2
    by_cases hold : Sat (t.constants ++ t.objects) (· ∈ s) (Env.none.bind o.params as') o.pre
    · rcases hS o ho' ha' as' hw' hold with hd | hd
      · refine .inl fun sign y hy => (hres sign y).2 (.inr ⟨hd sign y (hmk _ _ hy), fun hc => ?_⟩)
        exact h.opposite ⟨o, ho', ha', touches_of_makes _ _ _ _ _ _ hy⟩ (h.causes ho ha hc)
      · by_cases heq : o = op ∧ as' = as
        · obtain ⟨rfl, rfl⟩ := heq
          exact .inl fun sign y hy => (hres sign y).2 (.inl (.own (hmk _ _ hy)))
        · exact .inr ⟨hd, heq⟩
    · obtain ⟨pred, cargs, hctx⟩ := B.contexts o ho' ha'
      obtain ⟨-, hwf, -, -⟩ := (h.checked.ops o ho').axiom_ ha'
      obtain ⟨x, hx, h1, h2⟩ := context_new hctx hwf hw' hk' hold
      refine .inl fun sign y hy => (hres sign y).2 (.inl (.triggered ho' ha' ?_ h2 hx (hmk _ _ hy)))
      exact ((hres _ _).1 h1).resolve_right fun h => h2 h.1
  · have hown : ∀ sign y, t.CausesIn (· ∈ s) op as sign y → Is (· ∈ s) sign y := by
      intro sign y hy
      induction hy with
      | own hy => exact ((hS op ho ha as hw hv).resolve_right hT) _ _ hy
      | triggered _ _ _ hnk _ _ ih => exact absurd ih hnk
    have he : s' = s := State.ext fun y => by
      have := hres true y
      simp only [Is, iff_true, Bool.not_true] at this
      rw [this]
      refine ⟨fun hy => hy.elim (fun hc => (hown true y hc).2 rfl) And.left, fun hy => .inr ⟨hy, fun hc => ?_⟩⟩
      have := (hown false y hc).1 hy
      simp at this
    exact ⟨hz.2 he, he⟩

/-- What is settled holds. -/
theorem OnePassTree.holds (h : OnePassTree t up) (B : P.Built t) {s : State} {Todo : Op → List Obj → Prop}
    (hS : SettledBut t s Todo) {op : Op} (ho : op ∈ t.ops) (ha : op.isAxiom = true) {as : List Obj}
    (hw : WellTyped (t.constants ++ t.objects) op.params as) (hT : ¬ Todo op as) :
    op.HoldsFor (t.constants ++ t.objects) (· ∈ s) as := by
  intro hv
  obtain ⟨k, s', e, -, h3⟩ := h.step B ho ha hw hv (Nat.le_refl _) hS
  obtain ⟨rfl, rfl⟩ := h3 hT
  rw [Op.apply, B.omap] at e
  exact (Eff.apply_says op.eff op.params as s' hw.length (h.checked.ops op ho).formed).1 e

/-- What holds is settled. -/
theorem OnePassTree.settled (h : OnePassTree t up) (s : State) : SettledBut t s fun op as =>
    ¬ op.HoldsFor (t.constants ++ t.objects) (· ∈ s) as := by
  intro op ho _ as _ hv
  by_cases hh : op.HoldsFor (t.constants ++ t.objects) (· ∈ s) as
  · exact .inl fun sign y hy => makes_says op.eff _ _ y (h.plain op ho) (hh hv) hy
  · exact .inr hh

/-- All instances of one axiom. -/
theorem OnePassTree.loop (h : OnePassTree t up) (B : P.Built t) {fuel : Nat}
    (hn : (declaredLits (t.constants ++ t.objects) t.preds).length ≤ fuel) {ax : Ax} (ho : ax.op ∈ t.ops)
    (ha : ax.op.isAxiom = true) : ∀ (l : List (List Obj)) (s : State) (Todo : Op → List Obj → Prop),
    (∀ as ∈ l, WellTyped (t.constants ++ t.objects) ax.op.params as) → SettledBut t s Todo →
    ∃ c s', axApplyLoop P.omap P.axioms fuel ax l s = .ok (c, s') ∧
      SettledBut t s' (fun o a => Todo o a ∧ ¬ (o = ax.op ∧ a ∈ l)) ∧ ((∀ as ∈ l, ¬ Todo ax.op as) → c = false ∧ s' = s)
  | [], s, Todo, _, hS => ⟨false, s, rfl, fun o h1 h2 a h3 h4 => (hS o h1 h2 a h3 h4).imp id fun h => ⟨h, by simp⟩,
      fun _ => ⟨rfl, rfl⟩⟩
  | as :: l, s, Todo, hw, hS => by
    have hwa := hw as (by simp)
    obtain ⟨-, hwf, -, -⟩ := (h.checked.ops _ ho).axiom_ ha
    obtain ⟨v, e1, hv⟩ := eval_sat (t.constants ++ t.objects) s ax.op.pre ax.op.params as hwa.length hwf
    have e1 : ax.op.isValid P.omap s as = .ok v := by rw [B.omap]; exact e1
    obtain ⟨k, s₁, e2, h1, h2⟩ : ∃ k s₁, (if v = true then ax.op.apply P.omap P.axioms fuel as s else pure (0, s)) = .ok (k, s₁) ∧
        SettledBut t s₁ (fun o a => Todo o a ∧ ¬ (o = ax.op ∧ a = as)) ∧ (¬ Todo ax.op as → k = 0 ∧ s₁ = s) := by
      cases v
      · refine ⟨0, s, rfl, fun o h1 h2 a h3 h4 => ?_, fun _ => ⟨rfl, rfl⟩⟩
        refine (hS o h1 h2 a h3 h4).imp id fun h => ⟨h, ?_⟩
        rintro ⟨rfl, rfl⟩
        exact absurd (hv.2 h4) (by simp)
      · exact h.step B ho ha hwa (hv.1 rfl) hn hS
    obtain ⟨c, s₂, e3, h3, h4⟩ := OnePassTree.loop h B hn ho ha l s₁ _ (fun a h => hw a (by simp [h])) h1
    refine ⟨decide (k ≠ 0) || c, s₂, by simp only [axApplyLoop, e1, e2, e3, Res.bind_ok]; rfl, fun o h5 h6 a h7 h8 => ?_, fun hT => ?_⟩
    · refine (h3 o h5 h6 a h7 h8).imp id ?_
      rintro ⟨⟨h1, h2⟩, h3⟩
      refine ⟨h1, ?_⟩
      rintro ⟨rfl, h⟩
      rcases List.mem_cons.1 h with rfl | h
      · exact h2 ⟨rfl, rfl⟩
      · exact h3 ⟨rfl, h⟩
    · obtain ⟨rfl, rfl⟩ := h2 (hT as (by simp))
      obtain ⟨rfl, rfl⟩ := h4 fun a h h' => hT a (by simp [h]) h'.1
      exact ⟨rfl, rfl⟩

/-- One axiom. -/
theorem OnePassTree.apply (h : OnePassTree t up) (B : P.Built t) {fuel : Nat}
    (hn : (declaredLits (t.constants ++ t.objects) t.preds).length ≤ fuel) {ax : Ax} (hm : ax ∈ P.axioms) (s : State)
    {Todo : Op → List Obj → Prop} (hS : SettledBut t s Todo) : ∃ c s', ax.apply P.omap P.axioms fuel s = .ok (c, s') ∧
      SettledBut t s' (fun o a => Todo o a ∧ o ≠ ax.op) ∧ ((∀ as, ¬ Todo ax.op as) → c = false ∧ s' = s) := by
  obtain ⟨ho, ha, -⟩ := B.ax hm
  obtain ⟨hne, hwf, -, -⟩ := (h.checked.ops _ ho).axiom_ ha
  obtain ⟨h1, h2⟩ := B.arguments h.checked.names hm hne hwf (h.closed _ ho ha)
  obtain ⟨c, s', e, h3, h4⟩ := h.loop B hn ho ha ax.arguments s Todo h1 hS
  refine ⟨c, s', e, fun o h5 h6 a h7 h8 => ?_, fun hT => h4 fun as _ => hT as⟩
  refine (h3 o h5 h6 a h7 h8).imp id ?_
  rintro ⟨h9, h10⟩
  refine ⟨h9, ?_⟩
  rintro rfl
  exact h2 a h7 (fun hin => h10 ⟨rfl, hin⟩) _ h8

/-- All axioms. -/
theorem OnePassTree.pass (h : OnePassTree t up) (B : P.Built t) {fuel : Nat}
    (hn : (declaredLits (t.constants ++ t.objects) t.preds).length ≤ fuel) :
    ∀ (l : List Ax) (s : State) (Todo : Op → List Obj → Prop), (∀ ax ∈ l, ax ∈ P.axioms) → SettledBut t s Todo →
    ∃ c s', Pddl.consistentPass P.omap P.axioms fuel l s = .ok (c, s') ∧
      SettledBut t s' (fun o a => Todo o a ∧ ¬ ∃ ax ∈ l, o = ax.op) ∧ ((∀ o a, ¬ Todo o a) → c = false ∧ s' = s)
  | [], s, Todo, _, hS => ⟨false, s, rfl, fun o h1 h2 a h3 h4 => (hS o h1 h2 a h3 h4).imp id fun h => ⟨h, by simp⟩,
      fun _ => ⟨rfl, rfl⟩⟩
  | ax :: l, s, Todo, hl, hS => by
    obtain ⟨c, s₁, e1, h1, h2⟩ := h.apply B hn (hl ax (by simp)) s hS
    obtain ⟨c', s₂, e2, h3, h4⟩ := OnePassTree.pass h B hn l s₁ _ (fun a h => hl a (by simp [h])) h1
    refine ⟨c || c', s₂, by simp only [Pddl.consistentPass, e1, e2, Res.bind_ok]; rfl, fun o h5 h6 a h7 h8 => ?_, fun hT => ?_⟩
    · refine (h3 o h5 h6 a h7 h8).imp id ?_
      rintro ⟨⟨h1, h2⟩, h3⟩
      refine ⟨h1, ?_⟩
      rintro ⟨b, hb, rfl⟩
      rcases List.mem_cons.1 hb with rfl | hb
      · exact h2 rfl
      · exact h3 ⟨b, hb, rfl⟩
    · obtain ⟨rfl, rfl⟩ := h2 (hT _)
      obtain ⟨rfl, rfl⟩ := h4 fun o a h => hT o a h.1
      exact ⟨rfl, rfl⟩

end Symbolic
