import Verif.Spec.Construct
import Verif.Lemmas.Accept
import Verif.Props.StringApi

/-!
# C67: which domains the constructor accepts
-/

namespace Symbolic

section
variable [StrHash]

/-- **C67.** A domain and a problem are constructed (without `apply_axioms`) iff there is a predicate, all conditions are
built from atoms, conjunctions, disjunctions, negations and quantifiers, the condition of every axiom is a literal that
does not deny what is always true, and no axiom adds and deletes the same atom. -/
theorem C67_constructor (t : Ptree) (n : Nat) (ht : t.ContextsFit) :
    (∃ P, Pddl.make t false n = .ok P) ↔ t.Constructible := by
  have hm := ObjMap.nonEmpty_create (t.constants ++ t.objects)
  have hmem : ∀ op, op ∈ t.ops.filter (·.isAxiom) ↔ op ∈ t.ops ∧ op.isAxiom = true := fun op => by simp
  constructor
  · rintro ⟨P, hP⟩
    have B := Pddl.built hP
    have hfit : ∀ op ∈ t.ops, Fits P.axioms (fun sign => op.eff.Writes sign) := by
      intro op hop sign p k hw ax hax h1 h2
      obtain ⟨g1, g2, g3, -⟩ := B.ax hax
      obtain ⟨ts, g4, g5⟩ := contextOf_iff.1 g3
      subst h1 h2
      rw [g5, List.length_map]
      exact ht.arities op hop _ _ k hw ax.op g1 g2 ts g4
    have hax : ∀ op ∈ t.ops, op.isAxiom = true → (∃ sign p ts, op.pre.IsLiteral sign p ts) ∧
        (∀ p ts, op.pre = .neg (.atom p ts) → ¬ AlwaysTrue (t.constants ++ t.objects) op.params p ts) ∧
        ConflictFree (t.constants ++ t.objects) (fun _ => False) (Env.none.bind op.params op.params) op.eff := by
      intro op hop ha
      obtain ⟨ax, axs, h⟩ := forall₂_exists_of_mem B.axioms ((hmem op).2 ⟨hop, ha⟩)
      rw [B.omap] at h
      obtain ⟨-, -, h2, -⟩ := Ax.make_ok h
      obtain ⟨ts, h3, -⟩ := contextOf_iff.1 h2
      obtain ⟨hwf, hcst⟩ := ht.contexts op hop ha ⟨_, _, ts, h3⟩
      exact ⟨⟨_, _, ts, h3⟩, (stringify_iff h3 (ht.params op hop ha) hwf hcst (ht.effects op hop ha).1
        (ht.effects op hop ha).2 ht.eqNoType _).1 (Ax.make_stringify h)⟩
    refine ⟨B.preds_ne, fun op hop => (Op.create_iff (B.omap ▸ hm) op (hfit op hop)).1 (B.ops op hop),
      (createDrvs_iff (B.omap ▸ hm) _).1 B.drvs, (Goal.create_iff (B.omap ▸ hm) _).1 B.goal,
      fun op hop ha => (hax op hop ha).1, fun op hop ha => (hax op hop ha).2.1, fun op hop ha => (hax op hop ha).2.2⟩
  · intro hc
    have hno : ∀ op : Op, Fits [] (fun sign => op.eff.Writes sign) := fun op sign p k _ ax hax => by simp at hax
    obtain ⟨axs0, h0⟩ := (makeAxioms_iff (c := ⟨t.constants ++ t.objects, ObjMap.create (t.constants ++ t.objects), []⟩)
      (axs := []) (t.ops.filter (·.isAxiom))).2 fun op hop => by
        obtain ⟨h1, h2⟩ := (hmem op).1 hop
        exact (Ax.make_iff ht h1 h2 (hno op)).2 ⟨hc.ops op h1, hc.contexts op h1 h2, hc.possible op h1 h2,
          hc.conflictFree op h1 h2⟩
    have hfit : ∀ axs' axs, Pddl.makeAxioms ⟨t.constants ++ t.objects, ObjMap.create (t.constants ++ t.objects), []⟩ axs'
        (t.ops.filter (·.isAxiom)) = .ok axs → ∀ op ∈ t.ops, Fits axs (fun sign => op.eff.Writes sign) := by
      intro axs' axs h op hop sign p k hw ax hax h1 h2
      have := makeAxioms_ok h
      obtain ⟨o, ho, hmk⟩ := forall₂_exists_of_mem' this hax
      obtain ⟨-, g1, g3, -⟩ := Ax.make_ok hmk
      obtain ⟨ts, g4, g5⟩ := contextOf_iff.1 g3
      obtain ⟨k1, k2⟩ := (hmem o).1 ho
      subst h1 h2
      rw [g5, List.length_map]
      exact ht.arities op hop _ _ k hw o k1 k2 ts g4
    obtain ⟨axs, h1⟩ := (makeAxioms_iff (c := ⟨t.constants ++ t.objects, ObjMap.create (t.constants ++ t.objects), []⟩)
      (axs := axs0) (t.ops.filter (·.isAxiom))).2 fun op hop => by
        obtain ⟨g1, g2⟩ := (hmem op).1 hop
        exact (Ax.make_iff ht g1 g2 (hfit _ _ h0 op g1)).2 ⟨hc.ops op g1, hc.contexts op g1 g2,
          hc.possible op g1 g2, hc.conflictFree op g1 g2⟩
    have h2 := (createOps_iff (m := ObjMap.create (t.constants ++ t.objects)) (axs := axs)
      (t.ops.filter (!·.isAxiom))).2 fun op hop => by
        have hop := (List.mem_filter.1 hop).1
        exact (Op.create_iff hm op (hfit _ _ h1 op hop)).2 (hc.ops op hop)
    have hp : ¬ t.preds.isEmpty = true := by simpa using hc.preds
    refine ⟨⟨t, t.constants, t.constants ++ t.objects, ObjMap.create (t.constants ++ t.objects), axs,
        t.ops.filter (!·.isAxiom), State.ofList t.init⟩, ?_⟩
    simp only [Pddl.make, h0, Res.bind_ok, createPreds_ok hm, (createDrvs_iff hm _).2 hc.drvs, if_neg hp,
        (Goal.create_iff hm _).2 hc.goal, h1, h2, Bool.false_eq_true, if_false, Res.pure_eq]

/-- **C67.** With `apply_axioms` the initial state must moreover have a closure under the axioms; it becomes the initial
state, and nothing else changes. -/
theorem C67_apply_axioms (t : Ptree) (n : Nat) (ht : t.ContextsFit) :
    (∃ P, Pddl.make t true n = .ok P) ↔
      t.Constructible ∧ ∃ P s, Pddl.make t false n = .ok P ∧ P.initial = State.ofList t.init ∧
        P.consistentState n P.initial = .ok s := by
  constructor
  · rintro ⟨P, hP⟩
    obtain ⟨Q, hQ⟩ : ∃ Q, Pddl.make t false n = .ok Q := by
      simp only [Pddl.make, Res.bind_eq_ok] at hP
      obtain ⟨axs0, h1, _, h2, _, h3, h4⟩ := hP
      split at h4
      · cases h4
      rename_i hne
      simp only [Res.bind_eq_ok] at h4
      obtain ⟨_, h5, axs, h6, _, h7, -⟩ := h4
      exact ⟨⟨t, t.constants, t.constants ++ t.objects, ObjMap.create (t.constants ++ t.objects), axs,
        t.ops.filter (!·.isAxiom), State.ofList t.init⟩, by
          simp only [Pddl.make, h1, h2, h3, h5, h6, h7, if_neg hne, Res.bind_ok, Bool.false_eq_true, if_false,
            Res.pure_eq]⟩
    have hi := Pddl.make_false_initial hQ
    obtain ⟨c, h1, -⟩ := (Pddl.make_true_iff hQ P).1 hP
    exact ⟨(C67_constructor t n ht).1 ⟨Q, hQ⟩, Q, c, hQ, hi, by rw [hi]; exact h1⟩
  · rintro ⟨-, P, s, hP, hi, h⟩
    rw [hi] at h
    exact ⟨_, (Pddl.make_true_iff hP _).2 ⟨s, h, rfl⟩⟩

end

/-- **C16, construction.** A formula can be constructed iff only supported connectives occur in it. -/
theorem C16_constructor (objects : List Obj) (g : Goal) (params : List Obj) :
    (∃ F, Formula.make (ObjMap.create objects) g params = .ok F) ↔ g.Supported := by
  rw [← Goal.create_iff (ObjMap.nonEmpty_create objects) g]
  simp only [Formula.make]
  cases Goal.create g (ObjMap.create objects) <;> simp

example : (∃ F, Formula.make (ObjMap.create [Demo.a]) (.neg (.atom n!"inhand" [.const Demo.a])) [] = .ok F) ∧
    ¬ ∃ F, Formula.make (ObjMap.create [Demo.a]) (.conj [.atom n!"inhand" [.const Demo.a], .other]) [] = .ok F := by
  simp only [C16_constructor, Goal.Supported, Goal.SupportedAll]
  simp

section
open Demo
attribute [local instance] lenHash

theorem tree_contextsFit : tree.ContextsFit where
  names := by decide
  contexts := by
    intro op hop ha _
    simp only [tree, List.mem_cons, List.not_mem_nil, or_false] at hop
    rcases hop with rfl | rfl | rfl
    · cases ha
    · cases ha
    · simp [held, Goal.WF, Goal.HasConst, Term.Scoped, IsType, HasType, tree, a, b, table, tBox, tObj]
  arities := by
    intro op hop sign p k hw ax hax ha ts hl
    simp only [tree, List.mem_cons, List.not_mem_nil, or_false] at hop hax
    rcases hax with rfl | rfl | rfl
    · cases ha
    · cases ha
    simp only [held, Goal.IsLiteral, Goal.atom.injEq, reduceCtorEq, and_false, or_false] at hl
    obtain ⟨rfl, rfl, rfl⟩ := hl
    rcases hop with rfl | rfl | rfl <;>
      simp [pick, place, held, Eff.Writes, FList.Writes, CList.Writes] at hw ⊢
    all_goals omega
  eqNoType := by simp [IsType, HasType, tree, a, b, table, tBox, tObj, kDefaultType]
  params := by
    intro op hop ha
    simp only [tree, List.mem_cons, List.not_mem_nil, or_false] at hop
    rcases hop with rfl | rfl | rfl
    · cases ha
    · cases ha
    · decide
  effects := by
    intro op hop ha
    simp only [tree, List.mem_cons, List.not_mem_nil, or_false] at hop
    rcases hop with rfl | rfl | rfl
    · cases ha
    · cases ha
    · simp [held, Eff.WF, FList.WF, CList.WF, WFLits, Eff.NoCond, FList.NoCond, Term.Scoped, IsType, HasType, tree, a, b,
        table, tBox, tObj, x, z]

/-- The domain of the examples is accepted. -/
example : ∃ P, Pddl.make tree false 0 = .ok P := by
  refine (C67_constructor tree 0 tree_contextsFit).2 ⟨by simp [tree], ?_, ?_, ?_, ?_, ?_, ?_⟩
  · simp [tree, pick, place, held, Goal.Supported, Goal.SupportedAll, Eff.Supported, FList.Supported, CList.Supported]
  · simp [tree, busy, Goal.Supported, Goal.SupportedAll]
  · simp [tree, Goal.Supported]
  · simp [tree, pick, place, held, Goal.IsLiteral]
  · simp [tree, pick, place, held]
  · simp [tree, pick, place, held, ConflictFree, Makes, MakesF, MakesC, Lists]

/-- An axiom with a conjunction as its condition: `(and (inhand ?x)) => (not (on ?x table))`. -/
def conjAxiom : Op := { held with pre := .conj [.atom n!"inhand" [.var x]] }
def conjTree : Ptree := { tree with ops := [pick, place, conjAxiom] }

/-- The constructor throws, even though the condition is equivalent to a literal. -/
example : ¬ ∃ P, Pddl.make conjTree false 5 = .ok P := by
  rw [C67_constructor]
  · intro h
    have := h.contexts conjAxiom (by simp [conjTree]) rfl
    simp [conjAxiom, Goal.IsLiteral] at this
  · refine ⟨by decide, ?_, ?_, by simp [IsType, HasType, conjTree, tree, a, b, table, tBox, tObj, kDefaultType], ?_, ?_⟩
    · intro op hop ha hl
      simp only [conjTree, List.mem_cons, List.not_mem_nil, or_false] at hop
      rcases hop with rfl | rfl | rfl
      · cases ha
      · cases ha
      · simp [conjAxiom, Goal.IsLiteral] at hl
    · intro op hop sign p k hw ax hax ha ts hl
      simp only [conjTree, List.mem_cons, List.not_mem_nil, or_false] at hax
      rcases hax with rfl | rfl | rfl
      · cases ha
      · cases ha
      · simp [conjAxiom, Goal.IsLiteral] at hl
    · intro op hop ha
      simp only [conjTree, List.mem_cons, List.not_mem_nil, or_false] at hop
      rcases hop with rfl | rfl | rfl
      · cases ha
      · cases ha
      · decide
    · intro op hop ha
      simp only [conjTree, List.mem_cons, List.not_mem_nil, or_false] at hop
      rcases hop with rfl | rfl | rfl
      · cases ha
      · cases ha
      · simp [conjAxiom, conjTree, held, Eff.WF, FList.WF, CList.WF, WFLits, Eff.NoCond, FList.NoCond, Term.Scoped, IsType,
          HasType, tree, a, b, table, tBox, tObj, x, z]

/-- `inhand` with two arguments in the effect of an operator, although the axiom's context has one. -/
def wideOp : Op := { pick with eff := .mk .nil [(n!"inhand", [.var x, .var x])] [] .nil }
def wideTree : Ptree := { tree with ops := [wideOp, held] }

/-- **C67, refuted** without the condition on the number of arguments: an effect with more arguments than the context of
an axiom about the same predicate makes the constructor read past the end of the context's arguments. -/
theorem C67_arity_refuted : wideTree.Constructible ∧ Pddl.make wideTree false 5 = .ub := by
  have h : (match Pddl.make wideTree false 5 with | .ub => true | _ => false) = true := by decide +kernel
  refine ⟨⟨by simp [wideTree, tree], ?_, ?_, ?_, ?_, ?_, ?_⟩, by revert h; split <;> simp_all⟩
  · simp [wideTree, wideOp, pick, held, Goal.Supported, Goal.SupportedAll, Eff.Supported, FList.Supported,
      CList.Supported]
  · simp [wideTree, tree, busy, Goal.Supported, Goal.SupportedAll]
  · simp [wideTree, tree, Goal.Supported]
  · simp [wideTree, wideOp, pick, held, Goal.IsLiteral]
  · simp [wideTree, wideOp, pick, held]
  · simp [wideTree, wideOp, pick, held, ConflictFree, Makes, MakesF, MakesC, Lists]

/-- An axiom whose condition denies the declared type of its parameter: `(not (box ?x)) => (not (on ?x ?z))` for all
`?z`, with `?x - box`. -/
def denyAxiom : Op := { held with pre := .neg (.atom n!"box" [.var x]) }
def denyTree : Ptree := { tree with ops := [pick, place, denyAxiom] }

/-- An axiom that adds and deletes the same atom: `(inhand ?x) => (on ?x ?x) and (not (on ?x ?x))`. -/
def bothAxiom : Op := { held with eff := .mk .nil [(n!"on", [.var x, .var x])] [(n!"on", [.var x, .var x])] .nil }
def bothTree : Ptree := { tree with ops := [pick, place, bothAxiom] }

/-- **C67, refuted** for axioms that can never apply or never hold: the constructor does not throw, it dereferences the
empty normal form in order to print the axiom. -/
theorem C67_unprintable_refuted : Pddl.make denyTree false 5 = .ub ∧ Pddl.make bothTree false 5 = .ub := by
  have h1 : (match Pddl.make denyTree false 5 with | .ub => true | _ => false) = true := by decide +kernel
  have h2 : (match Pddl.make bothTree false 5 with | .ub => true | _ => false) = true := by decide +kernel
  exact ⟨by revert h1; split <;> simp_all, by revert h2; split <;> simp_all⟩

/-- An axiom with a contradictory conditional effect:
`(inhand ?x) => (when (and (box ?x)) (and (on ?x ?x) (not (on ?x ?x))))`,
with `?x - box`. -/
def whenBothAxiom : Op := { held with
  eff := .mk .nil [] [] (.cons (.conj [.atom n!"box" [.var x]])
    (.mk .nil [(n!"on", [.var x, .var x])] [(n!"on", [.var x, .var x])] .nil) .nil) }
def whenBothTree : Ptree := { tree with ops := [pick, place, whenBothAxiom] }

/-- **C67** says nothing about axioms with conditional effects. Here the normal form of the effect throws, unlike that of the
same effect without condition (`C67_unprintable_refuted`), and the exception is caught while printing: the constructor returns,
and with `apply_axioms` too as long as the condition of the axiom does not hold. -/
theorem C67_exception_caught :
    (match whenBothAxiom.eff.dnf ⟨[table, a, b], ObjMap.create [table, a, b], [x]⟩ [x] [x] with
      | .exc _ => true
      | _ => false) = true ∧
    (Pddl.make whenBothTree false 5).isOk = true ∧ (Pddl.make whenBothTree true 5).isOk = true := by
  refine ⟨?_, ?_, ?_⟩ <;> decide +kernel

end

end Symbolic
