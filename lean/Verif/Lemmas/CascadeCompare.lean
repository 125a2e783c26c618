import Verif.Lemmas.CascadeBuilt
import Verif.Lemmas.SameObjects

/-!
# What an action causes in different states
-/

namespace Symbolic

/-! ## Results -/

section
variable {σ : Type} [StateLike σ] [SignedState σ] [SignedLaw σ] {W : Bool × Atom → Prop} {s s' : σ}

/-- What is so afterwards. -/
theorem FrameW.result (hf : FrameW W s s') (hd : ∀ sx, W sx → SignedState.Holds s' sx) (sx : Bool × Atom) :
    SignedState.Holds s' sx ↔ W sx ∨ (SignedState.Holds s sx ∧ ¬ W (!sx.1, sx.2)) := by
  constructor
  · intro h
    by_cases h0 : SignedState.Holds s sx
    · exact .inr ⟨h0, fun hw => SignedLaw.excl s' sx h (hd _ hw)⟩
    · exact .inl ((hf sx).1 h0 h)
  · rintro (h | ⟨h, hn⟩)
    · exact hd sx h
    · by_contra h'
      exact hn ((hf sx).2 h h')

end

/-! ## Conditions with the same truth values -/

section
variable {objects : List Obj} {S T : Atom → Prop} {L : Bool → Name → List Term → List Obj → List Obj → Prop}
  {C : Goal → List Obj → List Obj → Prop}

mutual
theorem makes_each (hc : ∀ g ps as, C g ps as → (Sat objects S (Env.none.bind ps as) g ↔ Sat objects T (Env.none.bind ps as) g))
    (sign : Bool) : ∀ (e : Eff) (ps as : List Obj) (x : Atom), ps.length = as.length → e.Each objects L C ps as →
    (Makes objects S sign (Env.none.bind ps as) e x ↔ Makes objects T sign (Env.none.bind ps as) e x)
  | .mk fs adds dels cs, ps, as, x, hl, h => by
    simp only [Eff.Each] at h
    simp only [Makes, makesF_each hc sign fs ps as x hl h.1, makesC_each hc sign cs ps as x hl h.2.2.2]
theorem makesF_each (hc : ∀ g ps as, C g ps as → (Sat objects S (Env.none.bind ps as) g ↔ Sat objects T (Env.none.bind ps as) g))
    (sign : Bool) : ∀ (e : FList) (ps as : List Obj) (x : Atom), ps.length = as.length → e.Each objects L C ps as →
    (MakesF objects S sign (Env.none.bind ps as) e x ↔ MakesF objects T sign (Env.none.bind ps as) e x)
  | .nil, _, _, _, _, _ => by simp [MakesF]
  | .cons vars e rest, ps, as, x, hl, h => by
    simp only [FList.Each] at h
    simp only [MakesF, makesF_each hc sign rest ps as x hl h.2.2]
    refine or_congr (exists_congr fun os => and_congr_right fun hw => ?_) Iff.rfl
    rw [← Env.bind_append _ _ _ _ _ hl]
    exact makes_each hc sign e _ _ x (by simp [hl, hw.length]) (h.2.1 os hw)
theorem makesC_each (hc : ∀ g ps as, C g ps as → (Sat objects S (Env.none.bind ps as) g ↔ Sat objects T (Env.none.bind ps as) g))
    (sign : Bool) : ∀ (e : CList) (ps as : List Obj) (x : Atom), ps.length = as.length → e.Each objects L C ps as →
    (MakesC objects S sign (Env.none.bind ps as) e x ↔ MakesC objects T sign (Env.none.bind ps as) e x)
  | .nil, _, _, _, _, _ => by simp [MakesC]
  | .cons g e rest, ps, as, x, hl, h => by
    simp only [CList.Each] at h
    simp only [MakesC, makesC_each hc sign rest ps as x hl h.2.2, makes_each hc sign e ps as x hl h.2.1, hc g ps as h.1]
end

end

/-! ## Implications that hold -/

section
variable {objects : List Obj} {S : Atom → Prop}

theorem satAtom_lit {env : Env} {pred : Name} {ts : List Term} {os : List Obj} (h1 : pred ≠ n!"=") (h2 : ¬ IsType objects pred)
    (hd : List.Forall₂ (Denotes env) ts os) : SatAtom objects S env pred ts ↔ S ⟨pred, os.map Obj.name⟩ := by
  constructor
  · rintro (⟨h, -⟩ | ⟨-, h, -⟩ | ⟨-, -, us, hu, h⟩)
    · exact absurd h h1
    · exact absurd h h2
    · rwa [denotes_unique hu hd] at h
  · exact fun h => .inr (.inr ⟨h1, h2, os, hd, h⟩)

mutual
theorem makes_says {sign : Bool} : ∀ (e : Eff) (scope : List Name) (env : Env) (x : Atom), e.WF objects scope →
    e.Says objects S env → Makes objects S sign env e x → Is S sign x
  | .mk fs adds dels cs, scope, env, x, hf, ht, h => by
    simp only [Eff.WF] at hf
    simp only [Eff.Says] at ht
    simp only [Makes] at h
    rcases h with h | ⟨rfl, pred, ts, os, hm, hd, rfl⟩ | ⟨rfl, pred, ts, os, hm, hd, rfl⟩ | h
    · exact makesF_says fs scope env x hf.1 ht.1 h
    · obtain ⟨-, h2, h3⟩ := hf.2.1 _ _ hm
      have := (satAtom_lit h2 h3 hd).1 (ht.2.1 _ _ hm)
      exact ⟨fun _ => rfl, fun _ => this⟩
    · obtain ⟨-, h2, h3⟩ := hf.2.2.1 _ _ hm
      have := fun h => ht.2.2.1 _ _ hm ((satAtom_lit (S := S) h2 h3 hd).2 h)
      exact ⟨fun h => absurd h this, fun h => by simp at h⟩
    · exact makesC_says cs scope env x hf.2.2.2 ht.2.2.2 h
theorem makesF_says {sign : Bool} : ∀ (e : FList) (scope : List Name) (env : Env) (x : Atom), e.WF objects scope →
    e.Says objects S env → MakesF objects S sign env e x → Is S sign x
  | .nil, _, _, _, _, _, h => by simp [MakesF] at h
  | .cons vars e rest, scope, env, x, hf, ht, h => by
    simp only [FList.WF] at hf
    simp only [FList.Says] at ht
    simp only [MakesF] at h
    rcases h with ⟨os, hw, h⟩ | h
    · exact makes_says e _ _ x hf.2.1 (ht.1 os hw) h
    · exact makesF_says rest scope env x hf.2.2 ht.2 h
theorem makesC_says {sign : Bool} : ∀ (e : CList) (scope : List Name) (env : Env) (x : Atom), e.WF objects scope →
    e.Says objects S env → MakesC objects S sign env e x → Is S sign x
  | .nil, _, _, _, _, _, h => by simp [MakesC] at h
  | .cons g e rest, scope, env, x, hf, ht, h => by
    simp only [CList.WF] at hf
    simp only [CList.Says] at ht
    simp only [MakesC] at h
    rcases h with ⟨hg, h⟩ | h
    · exact makes_says e _ _ x hf.2.1 (ht.1 hg) h
    · exact makesC_says rest scope env x hf.2.2 ht.2 h
end

/-- The context of an instance holds if its literal is so. -/
theorem context_sat {op : Op} {pos : Bool} {pred : Name} {cargs as : List Obj}
    (hc : contextOf op.pre = .ok (pos, pred, cargs)) {x : Atom} (hp : x.pred ≠ n!"=" ∧ ¬ IsType objects x.pred)
    (hx : op.ContextIs objects as x) (hs : Is S pos x) : Sat objects S (Env.none.bind op.params as) op.pre := by
  obtain ⟨e1, -, hpre⟩ := contextOf_ok hc
  obtain ⟨-, os, hd, rfl⟩ := hx
  simp only [e1] at hp hs
  rw [hpre]
  cases pos
  · simp only [Bool.false_eq_true, if_false, Sat]
    rw [satAtom_lit hp.1 hp.2 hd]
    exact fun h => by simpa using hs.1 h
  · simp only [if_true, Sat]
    rw [satAtom_lit hp.1 hp.2 hd]
    exact hs.2 rfl

end

section
variable [StrHash] {t : Ptree} {P : Pddl} {up : Name → List Name}

omit [StrHash] in
theorem Ptree.Causes.plain (ht : t.TypeChecked up) (hp : t.PlainEffects) {S : Atom → Prop} {so : Bool → Atom → Prop} {op : Op}
    (ho : op ∈ t.ops) {args : List Obj} (hw : WellTyped (t.constants ++ t.objects) op.params args) {sign : Bool} {x : Atom}
    (h : t.Causes S so op args sign x) : x.pred ≠ n!"=" ∧ ¬ IsType (t.constants ++ t.objects) x.pred := by
  cases h with
  | own h => exact (makes_respects op.eff _ _ x (hp op ho) (ht.effTyped ho hw) h).1
  | triggered hm _ _ _ hc h => exact (makes_respects _ _ _ _ (hp _ hm) (ht.effTyped hm hc.1) h).1

omit [StrHash] in
/-- If the conditions have the same truth values and more triggers, more is caused. -/
theorem Ptree.Causes.mono {S T : Atom → Prop} {so so' : Bool → Atom → Prop} {op : Op} (ho : op ∈ t.ops) {args : List Obj}
    (hw : WellTyped (t.constants ++ t.objects) op.params args)
    (hm : ∀ ax ∈ t.ops, ax = op ∨ ax.isAxiom = true → ∀ as, WellTyped (t.constants ++ t.objects) ax.params as → ∀ sign x,
      Makes (t.constants ++ t.objects) S sign (Env.none.bind ax.params as) ax.eff x →
      Makes (t.constants ++ t.objects) T sign (Env.none.bind ax.params as) ax.eff x)
    (hso : ∀ sign x, so' sign x → so sign x) {sign : Bool} {x : Atom} (h : t.Causes S so op args sign x) :
    t.Causes T so' op args sign x := by
  induction h with
  | own h => exact .own (hm op ho (.inl rfl) args hw _ _ h)
  | triggered h1 h2 _ h4 h5 h6 ih => exact .triggered h1 h2 ih (fun h => h4 (hso _ _ h)) h5 (hm _ h1 (.inr h2) _ h5.1 _ _ h6)

omit [StrHash] in
/-- Where the axioms hold, everything triggered by more than what is new is so already. -/
theorem Ptree.Causes.known (ht : t.TypeChecked up) (hp : t.PlainEffects)
    (hctx : ∀ ax ∈ t.ops, ax.isAxiom = true → ∃ pred cargs, contextOf ax.pre = .ok (ax.ctxSign, pred, cargs))
    {S : Atom → Prop} {so : Bool → Atom → Prop} {op : Op} (ho : op ∈ t.ops) {args : List Obj}
    (hw : WellTyped (t.constants ++ t.objects) op.params args) (hA : AxiomsHold (t.constants ++ t.objects) t.ops S)
    {sign : Bool} {x : Atom} (h : t.Causes S so op args sign x) : t.CausesIn S op args sign x ∨ Is S sign x := by
  induction h with
  | own h => exact .inl (.own h)
  | @triggered ax as x sign y h1 h2 h3 _ h5 h6 ih =>
    by_cases hs : Is S ax.ctxSign x
    · obtain ⟨pred, cargs, hc⟩ := hctx ax h1 h2
      exact .inr (makes_says ax.eff _ _ y (hp ax h1)
        (hA ax h1 h2 as h5.1 (context_sat hc (h3.plain ht hp ho hw) h5 hs)) h6)
    · rcases ih with ih | ih
      · exact .inl (.triggered h1 h2 ih hs h5 h6)
      · exact absurd ih hs

theorem Pddl.Built.contexts (B : P.Built t) :
    ∀ ax ∈ t.ops, ax.isAxiom = true → ∃ pred cargs, contextOf ax.pre = .ok (ax.ctxSign, pred, cargs) := by
  intro op ho ha
  obtain ⟨ax, hm, rfl⟩ := B.axiom_mem ho ha
  obtain ⟨-, -, h, -⟩ := B.ax hm
  rw [← (B.context hm).1]
  exact ⟨_, _, h⟩

/-- Conditions over known atoms have the same truth values in all compatible states. -/
theorem makes_known (ht : t.TypeChecked up) (hp : t.PlainEffects) {op : Op} {K : PartialState}
    (hk : Knows (t.constants ++ t.objects) (· ∈ K.pos) (· ∈ K.neg) (t.MayAsk op)) (hcl : t.AllCondsClosed op)
    (hcons : ∀ x ∈ K.pos, x ∉ K.neg) {S T : State} (hS : Compatible (· ∈ K.pos) (· ∈ K.neg) (· ∈ S))
    (hT : Compatible (· ∈ K.pos) (· ∈ K.neg) (· ∈ T)) :
    ∀ ax ∈ t.ops, ax = op ∨ ax.isAxiom = true → ∀ as, WellTyped (t.constants ++ t.objects) ax.params as → ∀ sign x,
      Makes (t.constants ++ t.objects) (· ∈ S) sign (Env.none.bind ax.params as) ax.eff x →
      Makes (t.constants ++ t.objects) (· ∈ T) sign (Env.none.bind ax.params as) ax.eff x := by
  intro ax hm ha as hw sign x
  have hc' := ht.ops ax hm
  have he := Eff.each_plainTyped (K := True) (M := t.MayAsk op) (sig := sigOf (t.constants ++ t.objects) t.preds) ax.eff
    ax.params as hw.length hc'.names (fun _ h => (WellTyped.mem hw h).1) (hp ax hm) hc'.fresh (ht.effTyped hm hw)
    (fun _ => hcl ax hm ha) (fun _ _ h => ⟨ax, hm, ha, h⟩)
  refine (makes_each (fun g ps as hg => ?_) sign ax.eff _ _ x hw.length he).1
  obtain ⟨b, e1, h1⟩ := condEnds_partial (W := fun _ => False) (by simp) hk hcons hS S (fun _ => Iff.rfl) g ps as K hg (.refl K)
  obtain ⟨b', e2, h2⟩ := condEnds_partial (W := fun _ => False) (by simp) hk hcons hT T (fun _ => Iff.rfl) g ps as K hg (.refl K)
  rw [e1, Res.ok.injEq] at e2
  subst e2
  exact h1.symm.trans h2

/-! ## States and partial states -/

theorem Pddl.Built.cascade_state (B : P.Built t) (ht : t.TypeChecked up) (hp : t.PlainEffects) {op : Op} (ho : op ∈ t.ops)
    {args : List Obj} (hw : WellTyped (t.constants ++ t.objects) op.params args) {s : State}
    (hfree : NoConflict (t.CausesIn (· ∈ s) op args)) (hread : t.NotRead op (t.CausesIn (· ∈ s) op args)) {fuel : Nat}
    (hn : (declaredLits (t.constants ++ t.objects) t.preds).length ≤ fuel) :
    ∃ k s', op.apply P.omap P.axioms fuel args s = .ok (k, s') ∧
      (∀ x, x ∈ s' ↔ t.CausesIn (· ∈ s) op args true x ∨ (x ∈ s ∧ ¬ t.CausesIn (· ∈ s) op args false x)) ∧
      (k = 0 ↔ s' = s) := by
  obtain ⟨k, s', e, hf, hd, hk, hz, -⟩ := B.cascade ht hp ho hw (S := (· ∈ s)) (s := s) hfree (K := False) (M := t.MayAsk op)
    (fun h => h.elim) (fun ax hm ha _ _ h => ⟨ax, hm, ha, h⟩)
    (condEnds_state (by
      rintro pred n ⟨ax, hm, ha, h⟩ ⟨sg, x⟩ hx rfl
      have := hread sg x hx
      rcases ha with rfl | ha
      · exact this.1 (Eff.asks_reads h)
      · exact this.2 ax hm ha (Eff.asks_reads h))) hn
  refine ⟨k, s', e, fun x => ?_, hz, ?_⟩
  · have := hf.result (fun sx h => hd sx.1 sx.2 h) (true, x)
    have e : ∀ r : State, SignedState.Holds r (true, x) ↔ x ∈ r := fun r => ⟨fun h => h.2 rfl, fun h => ⟨fun _ => rfl, fun _ => h⟩⟩
    rw [e, e] at this
    exact this
  · rintro rfl
    by_contra h
    obtain ⟨sg, x, h1, h2⟩ := hk h
    exact h2 (hd sg x h1)

theorem known_holds (K : PartialState) : (fun sg y => SignedState.Holds K (sg, y)) = Known (· ∈ K.pos) (· ∈ K.neg) := by
  funext sg y
  cases sg <;> rfl

theorem keeps_consistent (objects : List Obj) (sig : Name → List Name) :
    KeepsTyped objects sig (fun K : PartialState => ∀ x ∈ K.pos, x ∉ K.neg) where
  insert := by
    intro K pred os _ h x hx hn
    generalize Atom.ofObjs pred os = y at hx hn
    have hx : x ∈ (K.pos.insert y).2 := hx
    have hn : x ∈ (K.neg.erase y).2 := hn
    rw [State.mem_insert] at hx
    rw [State.mem_erase] at hn
    rcases hx with rfl | hx
    · exact hn.1 rfl
    · exact h x hx hn.2
  erase := by
    intro K pred os _ h x hx hn
    generalize Atom.ofObjs pred os = y at hx hn
    have hx : x ∈ (K.pos.erase y).2 := hx
    have hn : x ∈ (K.neg.insert y).2 := hn
    rw [State.mem_insert] at hn
    rw [State.mem_erase] at hx
    rcases hn with rfl | hn
    · exact hx.1 rfl
    · exact h x hx.2 hn

theorem Pddl.Built.cascade_partial (B : P.Built t) (ht : t.TypeChecked up) (hp : t.PlainEffects) {op : Op} (ho : op ∈ t.ops)
    {args : List Obj} (hw : WellTyped (t.constants ++ t.objects) op.params args) {K : PartialState}
    (hcons : ∀ x ∈ K.pos, x ∉ K.neg)
    (hk : Knows (t.constants ++ t.objects) (· ∈ K.pos) (· ∈ K.neg) (t.MayAsk op)) (hcl : t.AllCondsClosed op)
    (hfree : NoConflict (t.Causes (· ∈ K.pos) (Known (· ∈ K.pos) (· ∈ K.neg)) op args))
    (hread : t.NotRead op (t.Causes (· ∈ K.pos) (Known (· ∈ K.pos) (· ∈ K.neg)) op args)) {fuel : Nat}
    (hn : (declaredLits (t.constants ++ t.objects) t.preds).length ≤ fuel) :
    ∃ k K', op.apply P.omap P.axioms fuel args K = .ok (k, K') ∧ (∀ x ∈ K'.pos, x ∉ K'.neg) ∧
      (∀ x, x ∈ K'.pos ↔ t.Causes (· ∈ K.pos) (Known (· ∈ K.pos) (· ∈ K.neg)) op args true x ∨
        (x ∈ K.pos ∧ ¬ t.Causes (· ∈ K.pos) (Known (· ∈ K.pos) (· ∈ K.neg)) op args false x)) ∧
      (∀ x, x ∈ K'.neg ↔ t.Causes (· ∈ K.pos) (Known (· ∈ K.pos) (· ∈ K.neg)) op args false x ∨
        (x ∈ K.neg ∧ ¬ t.Causes (· ∈ K.pos) (Known (· ∈ K.pos) (· ∈ K.neg)) op args true x)) ∧ (k = 0 ↔ K' = K) ∧
      (1 < k → ∃ sign x, t.Causes (· ∈ K.pos) (Known (· ∈ K.pos) (· ∈ K.neg)) op args sign x ∧
        Known (· ∈ K.pos) (· ∈ K.neg) (!sign) x) := by
  have hmin : Compatible (· ∈ K.pos) (· ∈ K.neg) (· ∈ K.pos) := ⟨fun _ h => h, fun a h h' => hcons a h' h⟩
  rw [← known_holds] at hfree hread ⊢
  obtain ⟨k, K', e, hf, hd, hk', hz, h2⟩ := B.cascade ht hp ho hw (S := (· ∈ K.pos)) (s := K) hfree (K := True) (M := t.MayAsk op)
    (fun _ => hcl) (fun ax hm ha _ _ h => ⟨ax, hm, ha, h⟩)
    (condEnds_partial (by
      rintro pred n ⟨ax, hm, ha, h⟩ ⟨sg, x⟩ hx rfl
      have := hread sg x hx
      rcases ha with rfl | ha
      · exact this.1 (Eff.asks_reads h)
      · exact this.2 ax hm ha (Eff.asks_reads h)) hk hcons hmin K.pos (fun _ => Iff.rfl)) hn
  have hcons' : ∀ x ∈ K'.pos, x ∉ K'.neg := by
    have ho' := ht.ops op ho
    exact Eff.apply_typed (keeps_consistent _ _) (fireN_typed (keeps_consistent _ _) (B.sortedAx ht) fuel) op.eff op.params args
      K (k, K') hw.length ho'.names ho'.formed ho'.fresh (ht.effTyped ho hw) hcons (by rw [← B.omap]; exact e)
  have hres := hf.result (fun sx h => hd sx.1 sx.2 h)
  refine ⟨k, K', e, hcons', fun x => ?_, fun x => ?_, ⟨hz, ?_⟩, h2⟩
  · have e1 : SignedState.Holds K' (true, x) ↔ x ∈ K'.pos := ⟨fun h => h.1, fun h => ⟨h, hcons' x h⟩⟩
    have e2 : SignedState.Holds K (true, x) ↔ x ∈ K.pos := ⟨fun h => h.1, fun h => ⟨h, hcons x h⟩⟩
    have := hres (true, x)
    rw [e1, e2] at this
    exact this
  · have e1 : SignedState.Holds K' (false, x) ↔ x ∈ K'.neg := ⟨fun h => h.1, fun h => ⟨h, fun h' => hcons' x h' h⟩⟩
    have e2 : SignedState.Holds K (false, x) ↔ x ∈ K.neg := ⟨fun h => h.1, fun h => ⟨h, fun h' => hcons x h' h⟩⟩
    have := hres (false, x)
    rw [e1, e2] at this
    exact this
  · rintro rfl
    by_contra h
    obtain ⟨sg, x, h1, h2⟩ := hk' h
    exact h2 (hd sg x h1)

/-- What is caused in a compatible state and what is caused by what is known. -/
theorem causes_compare (B : P.Built t) (ht : t.TypeChecked up) (hp : t.PlainEffects) {op : Op} (ho : op ∈ t.ops)
    {args : List Obj} (hw : WellTyped (t.constants ++ t.objects) op.params args) {K : PartialState}
    (hcons : ∀ x ∈ K.pos, x ∉ K.neg)
    (hk : Knows (t.constants ++ t.objects) (· ∈ K.pos) (· ∈ K.neg) (t.MayAsk op)) (hcl : t.AllCondsClosed op) {S : State}
    (hS : Compatible (· ∈ K.pos) (· ∈ K.neg) (· ∈ S)) :
    (∀ sign x, t.CausesIn (· ∈ S) op args sign x → t.Causes (· ∈ K.pos) (Known (· ∈ K.pos) (· ∈ K.neg)) op args sign x) ∧
    (AxiomsHold (t.constants ++ t.objects) t.ops (· ∈ S) → ∀ sign x,
      t.Causes (· ∈ K.pos) (Known (· ∈ K.pos) (· ∈ K.neg)) op args sign x →
      t.CausesIn (· ∈ S) op args sign x ∨ Is (· ∈ S) sign x) := by
  have hmin : Compatible (· ∈ K.pos) (· ∈ K.neg) (· ∈ K.pos) := ⟨fun _ h => h, fun a h h' => hcons a h' h⟩
  constructor
  · intro sign x h
    refine h.mono ho hw (makes_known ht hp hk hcl hcons hS hmin) fun sg y hy => ?_
    cases sg
    · exact ⟨fun h => absurd h (hS.2 y hy.1), fun h => by simp at h⟩
    · exact ⟨fun _ => rfl, fun _ => hS.1 y hy.1⟩
  · intro hA sign x h
    exact Ptree.Causes.known ht hp B.contexts ho hw hA
      (h.mono ho hw (makes_known ht hp hk hcl hcons hmin hS) (so' := Known (· ∈ K.pos) (· ∈ K.neg)) fun _ _ h => h)

/-! ## The order of declarations -/

omit [StrHash] in
theorem causes_objects {t₁ t₂ : Ptree} (ho : ∀ o, o ∈ t₁.constants ++ t₁.objects ↔ o ∈ t₂.constants ++ t₂.objects)
    (hops : ∀ op, op ∈ t₁.ops ↔ op ∈ t₂.ops) {S : Atom → Prop} {so : Bool → Atom → Prop} {op : Op} {args : List Obj} {sign : Bool}
    {x : Atom} (h : t₁.Causes S so op args sign x) : t₂.Causes S so op args sign x := by
  induction h with
  | own h => exact .own ((makes_objects ho S _ _ _ _).1 h)
  | triggered h1 h2 _ h4 h5 h6 ih =>
    exact .triggered ((hops _).1 h1) h2 ih h4 ⟨(wellTyped_congr ho).1 h5.1, h5.2⟩ ((makes_objects ho S _ _ _ _).1 h6)

end

end Symbolic
