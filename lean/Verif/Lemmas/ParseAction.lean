import Verif.Lemmas.Parse
import Verif.Lemmas.Construct
import Verif.Lemmas.Object
import Verif.Spec.Typing

namespace Symbolic

variable [StrHash]

theorem getOp_ok (P : Pddl) (n : Name) (op : Op) : P.getOp n = .ok op ↔ NamedOp P.tree.ops n op := by
  unfold Pddl.getOp NamedOp
  cases h : P.tree.ops.find? (fun op => decide (op.name = n)) with
  | none =>
    simp only [reduceCtorEq, false_iff]
    rintro ⟨l1, l2, h1, h2, -⟩
    rw [List.find?_eq_none] at h
    have := h op (by simp [h1])
    simp [h2] at this
  | some o =>
    rw [List.find?_eq_some_iff_append] at h
    obtain ⟨h1, l1, l2, h2, h3⟩ := h
    simp only [decide_eq_true_eq] at h1
    constructor
    · intro h; cases h
      exact ⟨l1, l2, h2, h1, fun o' ho' => by simpa using h3 o' ho'⟩
    · rintro ⟨k1, k2, g1, g2, g3⟩
      show Res.ok o = Res.ok op
      congr 1
      rw [h2] at g1
      rcases List.append_eq_append_iff.1 g1 with ⟨x, hx1, hx2⟩ | ⟨x, hx1, hx2⟩
      · cases x with
        | nil => simp at hx2; exact hx2.1
        | cons y ys =>
          simp only [List.cons_append, List.cons.injEq] at hx2
          exact absurd h1 (g3 o (by simp [hx1, hx2.1]))
      · cases x with
        | nil => simp at hx2; exact hx2.1.symm
        | cons y ys =>
          simp only [List.cons_append, List.cons.injEq] at hx2
          have := h3 op (by simp [hx1, hx2.1])
          simp [g2] at this

theorem getOp_cases (P : Pddl) (n : Name) : (∃ op, P.getOp n = .ok op) ∨ P.getOp n = .exc .runtimeError := by
  unfold Pddl.getOp
  cases P.tree.ops.find? (fun op => decide (op.name = n)) with
  | none => exact Or.inr rfl
  | some o => exact Or.inl ⟨o, rfl⟩

omit [StrHash] in
theorem checkTypes_ok (ps as : List Obj) (h : ps.length = as.length) :
    (Pddl.checkTypes ps as = .ok () ∧ List.Forall₂ (fun p a => HasType a p.typeName) ps as) ∨
    (Pddl.checkTypes ps as = .exc .invalidArgument ∧ ¬ List.Forall₂ (fun p a => HasType a p.typeName) ps as) := by
  induction ps generalizing as with
  | nil =>
    cases as with
    | nil => left; exact ⟨rfl, .nil⟩
    | cons => simp at h
  | cons p ps ih =>
    cases as with
    | nil => simp at h
    | cons a as =>
      simp only [Pddl.checkTypes, List.forall₂_cons]
      by_cases hs : a.isSubtype p.typeName = true
      · rw [if_pos hs]
        rcases ih as (by simpa using h) with ⟨h1, h2⟩ | ⟨h1, h2⟩
        · left; exact ⟨h1, (Obj.isSubtype_iff _ _).1 hs, h2⟩
        · right; exact ⟨h1, fun h => h2 h.2⟩
      · rw [if_neg hs]
        right
        exact ⟨rfl, fun h => hs ((Obj.isSubtype_iff _ _).2 h.1)⟩

/-- The whole story of `Action::Parse`: it succeeds, or throws. -/
theorem parseAction_cases (P : Pddl) (hops : ∀ op ∈ P.tree.ops, op.create P.omap P.axioms = .ok ())
    (s head : Name) (ws : List Name) (hs : CallShape s head ws) :
    (∃ op args, P.parseAction s = .ok (op, args) ∧ NamedOp P.tree.ops head op ∧
      List.Forall₂ (Named P.symbols) ws args ∧ List.Forall₂ (fun p a => HasType a p.typeName) op.params args) ∨
    ((∃ e, P.parseAction s = .exc e) ∧
      ¬ ∃ op args, NamedOp P.tree.ops head op ∧ List.Forall₂ (Named P.symbols) ws args ∧
        List.Forall₂ (fun p a => HasType a p.typeName) op.params args) := by
  unfold Pddl.parseAction
  rw [hs.head_eq, parseArguments, hs.words_eq]
  rcases getOp_cases P head with ⟨op, hop⟩ | hop
  · have hn := (getOp_ok _ _ _).1 hop
    have hmem : op ∈ P.tree.ops := by obtain ⟨l1, l2, h, -⟩ := hn; rw [h]; simp
    simp only [hop, Res.bind_ok, hops op hmem]
    rcases lookupAll_cases P.symbols ws with ⟨args, ha⟩ | ha
    · have hf := (lookupAll_ok _ _ _).1 ha
      simp only [ha, Res.bind_ok]
      by_cases hl : op.params.length = args.length
      · rw [if_neg (by simpa using hl)]
        rcases checkTypes_ok _ _ hl with ⟨h1, h2⟩ | ⟨h1, h2⟩
        · left; exact ⟨op, args, by simp [h1], hn, hf, h2⟩
        · right
          refine ⟨⟨_, by rw [h1]; rfl⟩, ?_⟩
          rintro ⟨op', args', g1, g2, g3⟩
          have e1 := (getOp_ok _ _ _).2 g1
          rw [hop] at e1; cases e1
          have e2 := (lookupAll_ok _ _ _).2 g2
          rw [ha] at e2; cases e2
          exact h2 g3
      · rw [if_pos hl]
        right
        refine ⟨⟨_, rfl⟩, ?_⟩
        rintro ⟨op', args', g1, g2, g3⟩
        have e1 := (getOp_ok _ _ _).2 g1
        rw [hop] at e1; cases e1
        have e2 := (lookupAll_ok _ _ _).2 g2
        rw [ha] at e2; cases e2
        exact hl g3.length_eq
    · right
      refine ⟨⟨_, by rw [ha]; rfl⟩, ?_⟩
      rintro ⟨op', args', g1, g2, g3⟩
      have e2 := (lookupAll_ok _ _ _).2 g2
      rw [ha] at e2; cases e2
  · right
    refine ⟨⟨_, by rw [hop]; rfl⟩, ?_⟩
    rintro ⟨op', args', g1, g2, g3⟩
    have e1 := (getOp_ok _ _ _).2 g1
    rw [hop] at e1; cases e1

/-- What a parsed call consists of. -/
theorem parseAction_ok {P : Pddl} {call : Name} {op : Op} {args : List Obj} (h : P.parseAction call = .ok (op, args)) :
    op ∈ P.tree.ops ∧ WellTyped P.symbols op.params args := by
  simp only [Pddl.parseAction, Res.bind_eq_ok] at h
  obtain ⟨op', h1, ⟨⟩, -, args', h2, h3⟩ := h
  split at h3
  · simp at h3
  · rename_i hl
    simp only [Res.bind_eq_ok, Res.pure_eq, Res.ok.injEq, Prod.mk.injEq] at h3
    obtain ⟨⟨⟩, h4, rfl, rfl⟩ := h3
    have hl' : op'.params.length = args'.length := by simpa using hl
    obtain ⟨l1, l2, ho, -⟩ := (getOp_ok _ _ _).1 h1
    refine ⟨by rw [ho]; simp, ?_⟩
    have hf := (lookupAll_ok _ _ _).1 h2
    have hm : ∀ a ∈ args', a ∈ P.symbols := by
      clear h2 h4 hl hl'
      generalize tokenizeArguments call = ws at hf
      induction hf with
      | nil => simp
      | cons g _ ih =>
        intro a ha
        rcases List.mem_cons.1 ha with rfl | ha
        · exact g.mem
        · exact ih a ha
    rcases checkTypes_ok _ _ hl' with ⟨-, h5⟩ | ⟨h5, -⟩
    · clear h4 hf h2 h1 hl hl'
      unfold WellTyped
      generalize op'.params = ps at h5
      induction h5 with
      | nil => exact .nil
      | cons g _ ih => exact .cons ⟨hm _ (by simp), g⟩ (ih (fun a ha => hm a (by simp [ha])))
    · rw [h5] at h4; simp at h4

theorem insertParsed_spec (table : List Obj) (strs : List Name) (atoms : List Atom) (s : State)
    (h : List.Forall₂ (fun str a => parseAtom table str = .ok a) strs atoms) :
    ∃ s', insertParsed table s strs = .ok s' ∧ ∀ x, x ∈ s' ↔ x ∈ atoms ∨ x ∈ s := by
  induction h generalizing s with
  | nil => exact ⟨s, rfl, by simp⟩
  | @cons str a strs atoms h _ ih =>
    obtain ⟨s', h1, h2⟩ := ih (s.insert a).2
    refine ⟨s', by simp [insertParsed, h, h1], fun x => ?_⟩
    rw [h2, State.mem_insert, List.mem_cons]
    tauto

end Symbolic
