import Verif.Lemmas.EffectRel
import Verif.Examples.Demo

/-!
# C21-C25: effects of actions
-/

namespace Symbolic

/-! ## C21 -/

/-- **C21.** An action with adds, deletes and universal effects and without conditional effects. If its universal effects
do not contradict each other, applying it returns, and afterwards an atom holds iff it is not deleted and was added, or
added by a universal effect, or held before and was not deleted by a universal effect. -/
theorem C21_exact_effects [StrHash] (objects : List Obj) (name : Name) (params : List Obj) (pre : Goal) (fs : FList)
    (adds dels : List (Name × List Term)) (hwf : (Eff.mk fs adds dels .nil).WF objects (params.map Obj.name))
    (hnc : (Eff.mk fs adds dels .nil).NoCond) (args : List Obj) (hlen : args.length = params.length)
    (hconf : ∀ x, MakesF objects (fun _ => False) true (Env.none.bind params args) fs x →
      ¬ MakesF objects (fun _ => False) false (Env.none.bind params args) fs x) (fuel : Nat) (s : State) :
    ∃ n s', (Op.mk name params pre (.mk fs adds dels .nil) false).apply (ObjMap.create objects) [] fuel args s =
        .ok (n, s') ∧
      ∀ x, x ∈ s' ↔ ¬ Lists (Env.none.bind params args) dels x ∧
        (Lists (Env.none.bind params args) adds x ∨
          MakesF objects (fun _ => False) true (Env.none.bind params args) fs x ∨
          (x ∈ s ∧ ¬ MakesF objects (fun _ => False) false (Env.none.bind params args) fs x)) := by
  have hq : Quiet (fireN (σ := State) (ObjMap.create objects) [] fuel) := quiet_nil _ _
  simp only [Eff.WF] at hwf
  simp only [Eff.NoCond] at hnc
  obtain ⟨ops1, h1, m1⟩ := FList.apply_runs (R := fun _ => False) (s₀ := State.empty) hq fs params args s hlen.symm hwf.1
    (fun _ h => h.elim) (fun p hr => FList.noCond_reads fs hnc.1 p hr) (fun _ _ _ h => h)
  have e0 : (fun x : Atom => x ∈ State.empty) = fun _ => False := by
    funext x; simp [State.not_mem_empty]
  rw [e0] at m1
  have h2 := applySimples_quiet (objects := objects) hq true params args hlen.symm adds (runOps ops1 s).2 hwf.2.1
  have h3 := fun t => applySimples_quiet (objects := objects) hq false params args hlen.symm dels t hwf.2.2.1
  have happ : ∃ n, (Op.mk name params pre (.mk fs adds dels .nil) false).apply (ObjMap.create objects) [] fuel args s =
      .ok (n, (runOps (dels.map fun pt => (false, Atom.ofObjs pt.1 (pt.2.map (Term.value params args))))
        (runOps (adds.map fun pt => (true, Atom.ofObjs pt.1 (pt.2.map (Term.value params args))))
          (runOps ops1 s).2).2).2) := by
    simp only [Op.apply, Eff.apply, h1, h2, h3, CList.apply, Res.bind_ok, Res.pure_eq]
    exact ⟨_, rfl⟩
  obtain ⟨n, happ⟩ := happ
  refine ⟨n, _, happ, ?_⟩
  · intro x
    rw [mem_runOps (by intro y hy; simp at hy), mem_runOps (by intro y _ hy; simp at hy),
      mem_runOps (fun y hy => fun hy' => hconf y ((m1 _ _).1 hy) ((m1 _ _).1 hy')), lists_iff hlen.symm hwf.2.1,
      lists_iff hlen.symm hwf.2.2.1, m1, m1]
    simp only [List.mem_map, Prod.mk.injEq, Bool.true_eq_false, false_and, and_false, exists_false,
      Bool.false_eq_true, true_and, not_false_eq_true, and_true, false_or]
    rw [and_comm]
    simp only [eq_comm (a := x)]

section
open Demo
attribute [local instance] lenHash

/-- `clear(?x)`: remove everything from `?x` and put it on the table: a universal delete, an add and a delete. -/
def clearOp : Op where
  name := n!"clear"
  params := [x]
  pre := .conj []
  eff := .mk (.cons [u] (.mk .nil [] [(n!"on", [.var u, .var x])] .nil) .nil) [(n!"on", [.var x, .const table])]
    [(n!"inhand", [.var x])] .nil

/-- The hypotheses of C21 hold for it, and it does what it should. -/
example : clearOp.eff.WF [table, a, b] (clearOp.params.map Obj.name) ∧ clearOp.eff.NoCond ∧
    (∀ x, MakesF [table, a, b] (fun _ => False) true (Env.none.bind clearOp.params [a])
      (.cons [u] (.mk .nil [] [(n!"on", [.var u, .var Demo.x])] .nil) .nil) x → False) := by
  refine ⟨?_, by simp [clearOp, Eff.NoCond, FList.NoCond], ?_⟩
  · simp [clearOp, Eff.WF, FList.WF, CList.WF, WFLits, Term.Scoped, IsType, HasType, a, b, table, Demo.x, u, tBox, tObj]
  · intro x
    simp [MakesF, Makes, MakesC, Lists]

example : clearOp.apply (ObjMap.create [table, a, b]) [] 0 [a] (State.ofList [on b a, on b table, inhand a]) =
    .ok (1, State.ofList [on b table, on a table]) := by decide +kernel

end

/-! ## C22 -/

theorem frame_rel [StrHash] (p : Name) : StepRel (σ := State) (fun _ q => q ≠ p)
    (fun _ s t => ∀ x : Atom, x.pred = p → (x ∈ t ↔ x ∈ s)) (fun s t => ∀ x : Atom, x.pred = p → (x ∈ t ↔ x ∈ s)) where
  refl _ _ _ := Iff.rfl
  comp h1 h2 x hx := (h2 x hx).trans (h1 x hx)
  insert s y hy x hx := by
    have := mem_stepOp (sign := true) (x := y) (y := x) (s := s)
    rw [if_neg (by rintro rfl; exact hy hx)] at this
    exact this
  erase s y hy x hx := by
    have := mem_stepOp (sign := false) (x := y) (y := x) (s := s)
    rw [if_neg (by rintro rfl; exact hy hx)] at this
    exact this
  fire h1 h2 x hx := (h2 x hx).trans (h1 x hx)
  toR h := h
  reflR _ _ _ := Iff.rfl
  transR h1 h2 x hx := (h2 x hx).trans (h1 x hx)

/-- **C22.** Applying an action, with all its conditional and universal effects, and with whatever axioms it
triggers, keeps the truth value of every atom whose predicate occurs in no add or delete effect of the action and of the
axioms. For every action, also ones that are not well-formed, and every argument list. -/
theorem C22_frame [StrHash] (m : ObjMap) (axs : List Ax) (op : Op) (fuel : Nat) (args : List Obj) (s s' : State)
    (n : Nat) (h : op.apply m axs fuel args s = .ok (n, s')) (x : Atom)
    (hop : ∀ sign, ¬ op.eff.Touches sign x.pred) (hax : ∀ ax ∈ axs, ∀ sign, ¬ ax.op.eff.Touches sign x.pred) :
    x ∈ s' ↔ x ∈ s :=
  Op.apply_rel (frame_rel x.pred) (fun ax ha sign _ ht e => hax ax ha sign (e ▸ ht))
    (fun sign _ ht e => hop sign (e ▸ ht)) h x rfl

section
open Demo
attribute [local instance] lenHash

/-- `pick(a)` triggers the axiom that takes `a` off the table; `busy` facts are not touched. -/
example : ∃ s', pick.apply P.omap P.axioms 5 [a] (State.ofList [on a table, busyA b]) = .ok (1, s') ∧
    busyA b ∈ s' ∧ (on a table ∉ s') ∧ inhand a ∈ s' :=
  ⟨State.ofList [inhand a, busyA b], by decide +kernel, by decide +kernel, by decide +kernel, by decide +kernel⟩

example : (∀ sign, ¬ pick.eff.Touches sign (busyA b).pred) ∧
    ∀ sign, ¬ held.eff.Touches sign (busyA b).pred := by
  constructor <;> intro sign <;>
    simp [pick, held, Eff.Touches, FList.Touches, CList.Touches, ListsPred, busyA]

end

/-! ## C23 -/

/-- **C23.** If `Action::Apply(args, &state)` reports 0, the State is what it was. For every action, every argument list,
every axiom set. -/
theorem C23_no_change [StrHash] (m : ObjMap) (axs : List Ax) (op : Op) (fuel : Nat) (args : List Obj) (s s' : State)
    (h : op.apply m axs fuel args s = .ok (0, s')) : s' = s :=
  Eff.apply_zero m _ op.eff _ _ _ _ h

/-- **C23**, on PartialStates: neither the true nor the false facts change. -/
theorem C23_no_change_partial_state [StrHash] (m : ObjMap) (axs : List Ax) (op : Op) (fuel : Nat) (args : List Obj)
    (s s' : PartialState) (h : op.apply m axs fuel args s = .ok (0, s')) : s' = s :=
  Eff.apply_zero m _ op.eff _ _ _ _ h

section
open Demo
attribute [local instance] lenHash

example : pick.apply P.omap P.axioms 5 [a] (State.ofList [inhand a, on b table]) =
    .ok (0, State.ofList [inhand a, on b table]) := by decide +kernel

example : pick.apply P.omap P.axioms 5 [a] (⟨State.ofList [inhand a], State.ofList [on a b]⟩ : PartialState) =
    .ok (0, ⟨State.ofList [inhand a], State.ofList [on a b]⟩) := by decide +kernel

end

/-! ## C24 -/

section
open Demo
attribute [local instance] lenHash

/-- `move(?x, ?y)` with `(not (at ?x))` and `(at ?y)`. -/
def moveOp : Op where
  name := n!"move"
  params := [x, y]
  pre := .conj []
  eff := .mk .nil [(n!"at", [.var y])] [(n!"at", [.var x])] .nil

def at' (o : Obj) : Atom := ⟨n!"at", [o.name]⟩

/-- **C24, refuted.** `move(a, a)` in a state without `at(a)` reports a change; the state is the same. -/
theorem C24_change_refuted : moveOp.apply (ObjMap.create [a, b]) [] 0 [a, a] State.empty = .ok (1, State.empty) := by
  decide +kernel

/-- **C25, refuted.** Deletes win: `move(a, a)` in a state with `at(a)` loses `at(a)`, although the action adds it. -/
theorem C25_add_wins_refuted :
    moveOp.apply (ObjMap.create [a, b]) [] 0 [a, a] (State.ofList [at' a]) = .ok (1, State.empty) ∧
    PddlResult [a, b] (· ∈ State.ofList [at' a]) (Env.none.bind moveOp.params [a, a]) moveOp.eff (at' a) := by
  refine ⟨by decide +kernel, Or.inl ?_⟩
  simp only [moveOp, Makes]
  refine Or.inr (Or.inl ⟨trivial, n!"at", [.var y], [a], by simp, ?_, rfl⟩)
  exact .cons (by rfl) .nil

/-- `toggle(?x)`: `(lit ?x)`, `(when (lit ?x) (hot ?x))`. -/
def toggleOp : Op where
  name := n!"toggle"
  params := [x]
  pre := .conj []
  eff := .mk .nil [(n!"lit", [.var x])] [] (.cons (.atom n!"lit" [.var x]) (.mk .nil [(n!"hot", [.var x])] [] .nil) .nil)

def lit (o : Obj) : Atom := ⟨n!"lit", [o.name]⟩
def hot (o : Obj) : Atom := ⟨n!"hot", [o.name]⟩

/-- **C25, refuted.** Conditions see the effects that were applied before them: `toggle(a)` in the empty state makes
`hot(a)` true, whose condition `lit(a)` was false before the action. -/
theorem C25_condition_pre_state_refuted :
    toggleOp.apply (ObjMap.create [a, b]) [] 0 [a] State.empty = .ok (1, State.ofList [lit a, hot a]) ∧
    ¬ PddlResult [a, b] (· ∈ State.empty) (Env.none.bind toggleOp.params [a]) toggleOp.eff (hot a) := by
  refine ⟨by decide +kernel, ?_⟩
  have hno : ∀ x : Atom, ¬ x ∈ State.empty := State.not_mem_empty
  rintro (h | ⟨h, -⟩)
  · simp only [toggleOp, Makes, MakesF, MakesC, Sat, SatAtom, false_or, or_false] at h
    rcases h with ⟨-, pred, ts, os, hm, -, e⟩ | ⟨-, h⟩ | ⟨h, -⟩
    · simp only [List.mem_singleton, Prod.mk.injEq] at hm
      obtain ⟨rfl, -⟩ := hm
      simp [hot] at e
    · simp [Lists] at h
    · rcases h with ⟨h, -⟩ | ⟨-, h, -⟩ | ⟨-, -, os, -, h⟩
      · simp at h
      · simp [IsType, HasType, a, b, tBox] at h
      · exact hno _ h
  · exact hno _ h

end

/-- **C24, partial.** If no predicate is both added and deleted by the action and the axioms, a reported change is a
change. All conditional and universal effects, all axioms. Missing: actions that add and delete atoms of one
predicate (see `C24_conflict_free_partial`), where the code can report a change that was undone. -/
theorem C24_change_partial [StrHash] (m : ObjMap) (axs : List Ax) (op : Op) (fuel : Nat) (args : List Obj)
    (s s' : State) (n : Nat) (h : op.apply m axs fuel args s = .ok (n, s')) (hn : n ≠ 0)
    (hsep : ∀ p, ¬ ((op.eff.Touches true p ∨ ∃ ax ∈ axs, ax.op.eff.Touches true p) ∧
      (op.eff.Touches false p ∨ ∃ ax ∈ axs, ax.op.eff.Touches false p))) : s' ≠ s := by
  let A : Bool → Name → Prop := fun sign p => op.eff.Touches sign p ∨ ∃ ax ∈ axs, ax.op.eff.Touches sign p
  let Kept : State → State → Prop := fun s t => (∀ x : Atom, A true x.pred → x ∈ s → x ∈ t) ∧
    ∀ x : Atom, A false x.pred → x ∈ t → x ∈ s
  let Changed : State → State → Prop := fun s t => (∃ x : Atom, A true x.pred ∧ x ∈ t ∧ x ∉ s) ∨
    ∃ x : Atom, A false x.pred ∧ x ∉ t ∧ x ∈ s
  have trans : ∀ {s t u}, Kept s t → Kept t u → Kept s u := fun h1 h2 =>
    ⟨fun x hx hs => h2.1 x hx (h1.1 x hx hs), fun x hx hs => h1.2 x hx (h2.2 x hx hs)⟩
  have keep : ∀ {s t u}, Changed s t → Kept t u → Changed s u := by
    rintro s t u (⟨x, hx, h1, h2⟩ | ⟨x, hx, h1, h2⟩) hk
    · exact Or.inl ⟨x, hx, hk.1 x hx h1, h2⟩
    · exact Or.inr ⟨x, hx, fun h => h1 (hk.2 x hx h), h2⟩
  have keep' : ∀ {s t u}, Kept s t → Changed t u → Changed s u := by
    rintro s t u hk (⟨x, hx, h1, h2⟩ | ⟨x, hx, h1, h2⟩)
    · exact Or.inl ⟨x, hx, h1, fun h => h2 (hk.1 x hx h)⟩
    · exact Or.inr ⟨x, hx, h1, hk.2 x hx h2⟩
  have step : ∀ sign (s : State) (x : Atom), A sign x.pred → Kept s (stepOp sign x s).2 ∧
      ((stepOp sign x s).1 ≠ 0 → Changed s (stepOp sign x s).2) := by
    intro sign s x hx
    refine ⟨⟨fun y hy hs => ?_, fun y hy hs => ?_⟩, fun hc => ?_⟩
    · rw [mem_stepOp]
      split
      · rename_i e; subst e
        cases sign
        · exact absurd ⟨hy, hx⟩ (hsep _)
        · rfl
      · exact hs
    · rw [mem_stepOp] at hs
      split at hs
      · rename_i e; subst e; subst hs
        exact absurd ⟨hx, hy⟩ (hsep _)
      · exact hs
    · rw [Ne, stepOp_code] at hc
      cases sign
      · refine Or.inr ⟨x, hx, ?_, ?_⟩
        · rw [mem_stepOp]; simp
        · simpa using hc
      · refine Or.inl ⟨x, hx, ?_, ?_⟩
        · rw [mem_stepOp]; simp
        · simpa using hc
  have hs : StepRel (σ := State) A (fun n s t => Kept s t ∧ (n ≠ 0 → Changed s t)) Kept :=
    { refl := fun s => ⟨⟨fun _ _ h => h, fun _ _ h => h⟩, fun h => absurd rfl h⟩
      comp := fun {n k s t u} h1 h2 => ⟨trans h1.1 h2.1, fun h => by
        by_cases h0 : n = 0
        · exact keep' h1.1 (h2.2 (by omega))
        · exact keep (h1.2 h0) h2.1⟩
      insert := fun s x hx => step true s x hx
      erase := fun s x hx => step false s x hx
      fire := fun h1 h2 => ⟨trans h1.1 h2, fun h => keep (h1.2 h) h2⟩
      toR := fun h => h.1
      reflR := fun s => ⟨fun _ _ h => h, fun _ _ h => h⟩
      transR := trans }
  have := (Op.apply_rel hs (fun ax ha sign p ht => Or.inr ⟨ax, ha, ht⟩) (fun sign p ht => Or.inl ht) h).2 hn
  rintro rfl
  rcases this with ⟨x, -, h1, h2⟩ | ⟨x, -, h1, h2⟩
  · exact h2 h1
  · exact h1 h2

/-! ## C25 -/

/-- **C24/C25, partial.** An action without triggered axioms whose conditions only mention predicates it does not
change, applied to arguments for which it does not add and delete the same atom: the result is the PDDL result, and the
change report is exact. Missing: adds that are also deleted, and conditions about changed predicates, where the code is
wrong. -/
theorem C25_pddl_semantics_partial [StrHash] (objects : List Obj) (op : Op)
    (hwf : op.eff.WF objects (op.params.map Obj.name))
    (hreads : ∀ p, op.eff.Reads p → ∀ sign, ¬ op.eff.Touches sign p) (args : List Obj)
    (hlen : args.length = op.params.length) (fuel : Nat) (s : State)
    (hconf : ConflictFree objects (· ∈ s) (Env.none.bind op.params args) op.eff) :
    ∃ n s', op.apply (ObjMap.create objects) [] fuel args s = .ok (n, s') ∧
      (∀ x, x ∈ s' ↔ PddlResult objects (· ∈ s) (Env.none.bind op.params args) op.eff x) ∧ (n ≠ 0 ↔ s' ≠ s) := by
  obtain ⟨ops, h1, h2⟩ := Eff.apply_runs (R := op.eff.Reads) (s₀ := s) (quiet_nil (ObjMap.create objects) fuel) op.eff
    op.params args s hlen.symm hwf (fun _ _ => Iff.rfl) (fun _ h => h) (fun sign p ht hr => hreads p hr sign ht)
  have hc : ∀ x, (true, x) ∈ ops → (false, x) ∉ ops := fun x hx hx' =>
    hconf x ((h2 _ _).1 hx) ((h2 _ _).1 hx')
  refine ⟨_, _, h1, fun x => ?_, ?_⟩
  · rw [mem_runOps hc, h2, h2]; rfl
  · constructor
    · exact runOps_changed hc
    · intro hne h0
      exact hne (runOps_zero h0)

section
open Demo
attribute [local instance] lenHash

/-- `drop(?x)`: `(not (inhand ?x))`, `(on ?x table)`, `(when (wet ?x) (dirty table))`. -/
def dropOp : Op where
  name := n!"drop"
  params := [x]
  pre := .conj []
  eff := .mk .nil [(n!"on", [.var x, .const table])] [(n!"inhand", [.var x])]
    (.cons (.atom n!"wet" [.var x]) (.mk .nil [(n!"dirty", [.const table])] [] .nil) .nil)

def wet : Atom := ⟨n!"wet", [n!"a"]⟩
def dirty : Atom := ⟨n!"dirty", [n!"table"]⟩

example : dropOp.eff.WF [table, a, b] (dropOp.params.map Obj.name) ∧
    (∀ p, dropOp.eff.Reads p → ∀ sign, ¬ dropOp.eff.Touches sign p) ∧
    ConflictFree [table, a, b] (· ∈ State.ofList [inhand a, wet]) (Env.none.bind dropOp.params [a]) dropOp.eff := by
  refine ⟨?_, ?_, ?_⟩
  · simp [dropOp, Eff.WF, FList.WF, CList.WF, WFLits, Goal.WF, Term.Scoped, IsType, HasType, a, b, table, Demo.x, tBox,
      tObj]
  · intro p hr sign
    simp only [dropOp, Eff.Reads, FList.Reads, CList.Reads, Goal.Mentions, or_false, false_or] at hr
    obtain ⟨_, rfl, -⟩ := hr
    simp [dropOp, Eff.Touches, FList.Touches, CList.Touches, ListsPred]
  · intro x h1 h2
    have t1 := touches_of_makes _ _ _ _ _ _ h1
    have t2 := touches_of_makes _ _ _ _ _ _ h2
    simp [dropOp, Eff.Touches, FList.Touches, CList.Touches, ListsPred] at t1 t2
    rw [t2] at t1
    simp at t1

example : dropOp.apply (ObjMap.create [table, a, b]) [] 0 [a] (State.ofList [inhand a, wet]) =
    .ok (1, State.ofList [on a table, wet, dirty]) := by decide +kernel

/-- No predicate is both added and deleted by `drop` and the axiom `held`. -/
example : ∀ p, ¬ ((dropOp.eff.Touches true p ∨ ∃ ax ∈ ([] : List Ax), ax.op.eff.Touches true p) ∧
    (dropOp.eff.Touches false p ∨ ∃ ax ∈ ([] : List Ax), ax.op.eff.Touches false p)) := by
  intro p
  simp only [dropOp, Eff.Touches, FList.Touches, CList.Touches, ListsPred]
  rintro ⟨h1, h2⟩
  simp at h1 h2
  rw [h2] at h1
  simp at h1

end

end Symbolic
