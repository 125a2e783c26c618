import Verif.Lemmas.CascadeFire
import Verif.Props.Returns
import Verif.Props.TypeSound

/-!
# What an action of a constructed Pddl does together with the axioms
-/

namespace Symbolic

/-- All literals over the declared atoms. -/
def declaredLits (objects : List Obj) (preds : List PredDecl) : List (Bool × Atom) :=
  preds.flatMap fun d => (nameTuples (objects.map Obj.name) d.params.length).flatMap fun ns =>
    [(true, ⟨d.name, ns⟩), (false, ⟨d.name, ns⟩)]

theorem mem_declaredLits {objects : List Obj} {preds : List PredDecl} {x : Atom} (h : Declared objects preds x) (sign : Bool) :
    (sign, x) ∈ declaredLits objects preds := by
  obtain ⟨d, hd, os, hw, rfl⟩ := h
  refine List.mem_flatMap.2 ⟨d, hd, List.mem_flatMap.2 ⟨os.map Obj.name, ?_, ?_⟩⟩
  · have := mem_nameTuples (N := objects.map Obj.name) (ns := os.map Obj.name) (fun n hn => by
      obtain ⟨o, ho, rfl⟩ := List.mem_map.1 hn
      exact List.mem_map_of_mem (hw.mem ho).1)
    rwa [List.length_map, ← hw.length] at this
  · cases sign <;> simp [Atom.ofObjs]

section
variable [StrHash] {t : Ptree} {P : Pddl} {up : Name → List Name}

theorem Pddl.Built.axiom_mem (B : P.Built t) {op : Op} (ho : op ∈ t.ops) (ha : op.isAxiom = true) : ∃ ax ∈ P.axioms, ax.op = op := by
  have key : ∀ {ops : List Op} {axs : List Ax},
      List.Forall₂ (fun op ax => ∃ axs, Ax.make ⟨t.constants ++ t.objects, P.omap, []⟩ axs op = .ok ax) ops axs →
      op ∈ ops → ∃ ax ∈ axs, ax.op = op := by
    intro ops axs h hm
    induction h with
    | nil => simp at hm
    | cons h1 _ ih =>
      rcases List.mem_cons.1 hm with rfl | hm
      · obtain ⟨axs, h1⟩ := h1
        exact ⟨_, by simp, (Ax.make_ok h1).2.1⟩
      · obtain ⟨ax, ho, h2⟩ := ih hm
        exact ⟨ax, by simp [ho], h2⟩
  exact key B.axioms (List.mem_filter.2 ⟨ho, by simpa using ha⟩)

omit [StrHash] in
theorem Ptree.TypeChecked.effTyped (ht : t.TypeChecked up) {op : Op} (ho : op ∈ t.ops) {args : List Obj}
    (hw : WellTyped (t.constants ++ t.objects) op.params args) :
    op.eff.Typed (t.constants ++ t.objects) (sigOf (t.constants ++ t.objects) t.preds) (Env.none.bind op.params args) :=
  have hc := ht.ops op ho
  Eff.Checked.typed ht.hier ht.objects ht.predNames op.eff op.params _ hc.fits (envFits_vars hc.names hw) hc.fresh hc.eff

omit [StrHash] in
/-- What an action causes are declared atoms. -/
theorem Ptree.Causes.declared (ht : t.TypeChecked up) (hp : t.PlainEffects) {S : Atom → Prop} {so : Bool → Atom → Prop} {op : Op}
    (ho : op ∈ t.ops) {args : List Obj} (hw : WellTyped (t.constants ++ t.objects) op.params args) {sign : Bool} {x : Atom}
    (h : t.Causes S so op args sign x) : Declared (t.constants ++ t.objects) t.preds x := by
  have key : ∀ op ∈ t.ops, ∀ args, WellTyped (t.constants ++ t.objects) op.params args → ∀ sign x,
      Makes (t.constants ++ t.objects) S sign (Env.none.bind op.params args) op.eff x →
      Declared (t.constants ++ t.objects) t.preds x := by
    intro op ho args hw sign x h
    obtain ⟨-, os, h1, h2⟩ := makes_respects op.eff _ _ x (hp op ho) (ht.effTyped ho hw) h
    rw [h2]
    exact sigOf_declared h1
  cases h with
  | own h => exact key op ho args hw _ _ h
  | triggered hm _ _ _ hc h => exact key _ hm _ hc.1 _ _ h

open Classical in
/-- The core of the theorems about actions with axioms. -/
theorem Pddl.Built.cascade {σ : Type} [StateLike σ] [SignedState σ] [SignedLaw σ] (B : P.Built t) (ht : t.TypeChecked up)
    (hp : t.PlainEffects) {op : Op} (ho : op ∈ t.ops) {args : List Obj}
    (hw : WellTyped (t.constants ++ t.objects) op.params args) {S : Atom → Prop} {s : σ}
    (hfree : ∀ x, t.Causes S (fun sg y => SignedState.Holds s (sg, y)) op args true x →
      ¬ t.Causes S (fun sg y => SignedState.Holds s (sg, y)) op args false x) {K : Prop} {M : Name → Nat → Prop}
    (hK : K → ∀ ax ∈ t.ops, ax = op ∨ ax.isAxiom = true → ax.eff.CondsClosed (t.constants ++ t.objects))
    (hM : ∀ ax ∈ t.ops, ax = op ∨ ax.isAxiom = true → ∀ pred n, ax.eff.Asks pred n → M pred n)
    (hc : CondEnds (t.constants ++ t.objects) (CondK K (t.constants ++ t.objects) M)
      (fun sx => t.Causes S (fun sg y => SignedState.Holds s (sg, y)) op args sx.1 sx.2) S s) {fuel : Nat}
    (hn : (declaredLits (t.constants ++ t.objects) t.preds).length ≤ fuel) :
    ∃ k s', op.apply P.omap P.axioms fuel args s = .ok (k, s') ∧
      FrameW (fun sx => t.Causes S (fun sg y => SignedState.Holds s (sg, y)) op args sx.1 sx.2) s s' ∧
      (∀ sign x, t.Causes S (fun sg y => SignedState.Holds s (sg, y)) op args sign x → SignedState.Holds s' (sign, x)) ∧
      (k ≠ 0 → ∃ sign x, t.Causes S (fun sg y => SignedState.Holds s (sg, y)) op args sign x ∧
        ¬ SignedState.Holds s (sign, x)) ∧ (k = 0 → s' = s) ∧
      (1 < k → ∃ sign x, t.Causes S (fun sg y => SignedState.Holds s (sg, y)) op args sign x ∧
        SignedState.Holds s (!sign, x)) := by
  set W : Bool × Atom → Prop := fun sx => t.Causes S (fun sg y => SignedState.Holds s (sg, y)) op args sx.1 sx.2 with hWd
  set objects := t.constants ++ t.objects with hobj
  have hax : ∀ ax ∈ P.axioms, CascadeAx K objects (sigOf objects t.preds) M ax := by
    intro ax hm
    obtain ⟨h1, h2, -⟩ := B.ax hm
    exact ⟨B.sortedAx ht ax hm, hp _ h1, fun k => hK k _ h1 (.inr h2), hM _ h1 (.inr h2)⟩
  have hC : Closure W (Trig objects P.axioms S) s ((declaredLits objects t.preds).filter (fun sx => W sx)) := by
    refine ⟨?_, ?_, ?_⟩
    · rintro ⟨sg, x⟩ h h'
      cases sg
      · exact hfree x h' h
      · exact hfree x h h'
    · rintro ⟨sg, x⟩ h hn ⟨sg', y⟩ ⟨ax, hm, hpos, as, hctx, hy⟩
      obtain ⟨h1, h2, -⟩ := B.ax hm
      have hs := (B.context hm).1
      have hpos : ax.pos = sg := hpos
      rw [hs] at hpos
      subst hpos
      exact .triggered h1 h2 h hn hctx hy
    · rintro ⟨sg, x⟩
      simp only [List.mem_filter, decide_eq_true_eq]
      exact ⟨fun h => h.2, fun h => ⟨mem_declaredLits (Ptree.Causes.declared ht hp ho hw h) sg, h⟩⟩
  have hc' := ht.ops op ho
  have hE := apply_cascade (sig := sigOf objects t.preds) hC ht.names hax hc (op := op) (args := args) hw.length
    (Eff.each_plainTyped op.eff _ _ hw.length hc'.names (fun _ h => (WellTyped.mem hw h).1) (hp op ho) hc'.fresh
      (ht.effTyped ho hw) (fun k => hK k op ho (.inl rfl)) (hM op ho (.inl rfl)))
    (fun sx h => .own h) (n := fuel) (le_trans (gap_le _ _) (le_trans (List.length_filter_le _ _) hn))
  obtain ⟨k, s', e, hr, hk, hz, ht'⟩ := hE
  refine ⟨k, s', by rw [B.omap]; exact e, hr.frame, ?_, ?_, hz, fun h => ?_⟩
  · intro sign x hx
    induction hx with
    | own h => exact hr.done (_, _) h
    | @triggered ax as x sg y hm ha _ hn hctx hy ih =>
      obtain ⟨ax', hm', rfl⟩ := B.axiom_mem hm ha
      exact hr.trig _ hn ih (_, _) ⟨ax', hm', (B.context hm').1, as, hctx, hy⟩
  · intro h
    obtain ⟨sx, h1, h2, -⟩ := hk h
    exact ⟨sx.1, sx.2, h1, h2⟩
  · obtain ⟨sx, h1, h2⟩ := ht' h
    exact ⟨sx.1, sx.2, h1, h2⟩

end

end Symbolic
