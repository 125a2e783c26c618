import Verif.Lemmas.PartialApply
import Verif.Props.Partial
import Verif.Props.Returns
import Verif.Props.TypeSound

/-!
# C86: applying an action to a PartialState agrees with applying it to its completions
-/

namespace Symbolic

section
variable [StrHash] {t : Ptree} {P : Pddl}

theorem Pddl.Built.plainPair (B : P.Built t) {op : Op} (hf : op.eff.Formed (t.constants ++ t.objects) (op.params.map Obj.name))
    (hc : op.eff.CondsClosed (t.constants ++ t.objects)) (hu : Untriggered t.ops op.eff) {args : List Obj}
    (hlen : op.params.length = args.length) (hargs : ∀ o ∈ args, o ∈ t.constants ++ t.objects) {K : PartialState}
    (hk : Knows (t.constants ++ t.objects) (· ∈ K.pos) (· ∈ K.neg) op.eff.Asks) (fuel : Nat) {S : State}
    (hS : Compatible (· ∈ K.pos) (· ∈ K.neg) (· ∈ S)) :
    Pair (Twin K op.eff.Touches S) (op.apply P.omap P.axioms fuel args K) (op.apply P.omap P.axioms fuel args S) := by
  rw [B.omap]
  exact Eff.apply_pair (pairLits_none _ _ fuel) (pairConds hk) op.eff op.params args K S
    (Eff.each_plain op.eff _ _ hlen hargs hf hc (fun _ _ h => h) (fun _ _ h => h) (B.untriggered hu))
    ⟨hS, fun _ h => h, fun _ _ _ => Iff.rfl, .refl _ _⟩

theorem Pddl.Built.plainTotal (B : P.Built t) {op : Op} (hu : Untriggered t.ops op.eff) {σ : Type} [StateLike σ]
    [TotalState σ] (fuel : Nat) (args : List Obj) (s : σ) : op.apply P.omap P.axioms fuel args s ≠ .fuel := by
  rw [B.omap]
  refine Eff.apply_ne_fuel (A := op.eff.Touches) _ (fun sign pred ps es as s ha => ?_) op.eff _ _ s (fun _ _ h => h)
  rw [fireN_none (fun ax hm => ?_)]
  · simp
  · rintro ⟨rfl, rfl⟩
    exact B.untriggered hu ax hm ha

end

/-- **C86, agreement.** If the action triggers no axiom and all atoms that its conditions mention are known in the
PartialState, then for every State that agrees with the PartialState both calls throw the same exception, or both return,
the results agree, and a code 0 for the PartialState means a code 0 for the State.

Missing for the full claim: conditions about unknown atoms, see `C86_unknown_condition_refuted`; triggered axioms, see
`C86_axioms_partial` and `C86_axiom_refuted`. -/
theorem C86_sound_partial [StrHash] (t : Ptree) (b : Bool) (n : Nat) (P : Pddl) (hP : Pddl.make t b n = .ok P) (op : Op)
    (hf : op.eff.Formed (t.constants ++ t.objects) (op.params.map Obj.name))
    (hc : op.eff.CondsClosed (t.constants ++ t.objects)) (hu : Untriggered t.ops op.eff) (args : List Obj)
    (hlen : op.params.length = args.length) (hargs : ∀ o ∈ args, o ∈ t.constants ++ t.objects) (K : PartialState)
    (hk : Knows (t.constants ++ t.objects) (· ∈ K.pos) (· ∈ K.neg) op.eff.Asks) (fuel : Nat) (S : State)
    (hS : Compatible (· ∈ K.pos) (· ∈ K.neg) (· ∈ S)) :
    (∃ e, op.apply P.omap P.axioms fuel args K = .exc e ∧ op.apply P.omap P.axioms fuel args S = .exc e) ∨
      ∃ i K' j S', op.apply P.omap P.axioms fuel args K = .ok (i, K') ∧ op.apply P.omap P.axioms fuel args S = .ok (j, S') ∧
        (i = 0 → j = 0) ∧ Compatible (· ∈ K'.pos) (· ∈ K'.neg) (· ∈ S') := by
  have B := Pddl.built hP
  rcases B.plainPair hf hc hu hlen hargs hk fuel hS with h | h | h | ⟨i, K', j, S', h1, h2, h3, h4⟩
  · exact absurd h (B.plainTotal hu fuel args K)
  · exact absurd h (B.plainTotal hu fuel args S)
  · exact .inl h
  · exact .inr ⟨i, K', j, S', h1, h2, h3, h4.compat⟩

/-- **C86, exactness.** Under the same conditions, if the PartialState does not contradict itself, the result knows an atom
to be true exactly if it is in the result for every State that agrees with the PartialState, and false exactly if it is in
none of them. -/
theorem C86_exact_partial [StrHash] (t : Ptree) (b : Bool) (n : Nat) (P : Pddl) (hP : Pddl.make t b n = .ok P) (op : Op)
    (hf : op.eff.Formed (t.constants ++ t.objects) (op.params.map Obj.name))
    (hc : op.eff.CondsClosed (t.constants ++ t.objects)) (hu : Untriggered t.ops op.eff) (args : List Obj)
    (hlen : op.params.length = args.length) (hargs : ∀ o ∈ args, o ∈ t.constants ++ t.objects) (K : PartialState)
    (hk : Knows (t.constants ++ t.objects) (· ∈ K.pos) (· ∈ K.neg) op.eff.Asks) (hcons : ∀ x ∈ K.pos, x ∉ K.neg)
    (fuel : Nat) (i : Nat) (K' : PartialState) (h : op.apply P.omap P.axioms fuel args K = .ok (i, K')) (x : Atom) :
    (x ∈ K'.pos ↔ ∀ (S : State) j S', Compatible (· ∈ K.pos) (· ∈ K.neg) (· ∈ S) →
      op.apply P.omap P.axioms fuel args S = .ok (j, S') → x ∈ S') ∧
    (x ∈ K'.neg ↔ ∀ (S : State) j S', Compatible (· ∈ K.pos) (· ∈ K.neg) (· ∈ S) →
      op.apply P.omap P.axioms fuel args S = .ok (j, S') → x ∉ S') := by
  have B := Pddl.built hP
  have key : ∀ S : State, Compatible (· ∈ K.pos) (· ∈ K.neg) (· ∈ S) →
      ∃ j S', op.apply P.omap P.axioms fuel args S = .ok (j, S') ∧ Twin K op.eff.Touches S K' S' := by
    intro S hS
    rcases B.plainPair hf hc hu hlen hargs hk fuel hS with h' | h' | ⟨e, h', -⟩ | ⟨_, _, j, S', h1, h2, -, h4⟩
    · exact absurd h' (B.plainTotal hu fuel args K)
    · exact absurd h' (B.plainTotal hu fuel args S)
    · rw [h] at h'; simp at h'
    · rw [h] at h1; cases h1
      exact ⟨j, S', h2, h4⟩
  have hmin : Compatible (· ∈ K.pos) (· ∈ K.neg) (· ∈ K.pos) := ⟨fun _ h => h, fun a h h' => hcons a h' h⟩
  constructor
  · constructor
    · intro hx S j S' hS hr
      obtain ⟨_, _, e, T⟩ := key S hS
      rw [hr] at e; cases e
      exact T.compat.1 x hx
    · intro hall
      obtain ⟨j, S', e, T⟩ := key K.pos hmin
      have hx := hall _ j S' hmin e
      by_contra hn
      have hn' : x ∉ K'.neg := fun hn' => T.compat.2 x hn' hx
      have := (T.same x hn hn').1 hx
      rcases T.kept x (.inl this) with h1 | h1
      · exact hn h1
      · exact hn' h1
  · constructor
    · intro hx S j S' hS hr
      obtain ⟨_, _, e, T⟩ := key S hS
      rw [hr] at e; cases e
      exact T.compat.2 x hx
    · intro hall
      by_contra hn
      by_cases hxn : x ∈ K.neg
      · obtain ⟨j, S', e, T⟩ := key K.pos hmin
        rcases T.kept x (.inr hxn) with h1 | h1
        · exact hall _ j S' hmin e (T.compat.1 x h1)
        · exact hn h1
      · have hmax : Compatible (· ∈ K.pos) (· ∈ K.neg) (· ∈ (K.pos.insert x).2) := by
          refine ⟨fun a h => State.mem_insert.2 (.inr h), fun a h h' => ?_⟩
          rcases State.mem_insert.1 h' with rfl | h'
          · exact hxn h
          · exact hcons a h' h
        obtain ⟨j, S', e, T⟩ := key _ hmax
        have hx := hall _ j S' hmax e
        have hp : x ∉ K'.pos := fun h1 => hx (T.compat.1 x h1)
        exact hx ((T.same x hp hn).2 (State.mem_insert.2 (.inl rfl)))

/-- **C86, with axioms.** In a domain that passes the type checker, if the axioms that the action may trigger have no
conditional effects and write nothing that is also written the other way round, and the axioms hold in the State, then
again both calls throw the same exception, or both return, the results agree, and a code 0 for the PartialState means a
code 0 for the State (or triggering does not end for one of them).

Missing for the full claim: axioms without these conditions, see `C86_axiom_refuted` and `C86_broken_axiom_refuted`. -/
theorem C86_axioms_partial [StrHash] (t : Ptree) (b : Bool) (n : Nat) (P : Pddl) (hP : Pddl.make t b n = .ok P)
    (up : Name → List Name) (ht : t.TypeChecked up) (op : Op) (ho : op ∈ t.ops) (hw : t.OneWay op)
    (hc : op.eff.CondsClosed (t.constants ++ t.objects)) (args : List Obj)
    (hargs : WellTyped (t.constants ++ t.objects) op.params args) (K : PartialState)
    (hk : Knows (t.constants ++ t.objects) (· ∈ K.pos) (· ∈ K.neg) op.eff.Asks) (fuel : Nat) (S : State)
    (hA : AxiomsHold (t.constants ++ t.objects) t.ops (· ∈ S)) (hS : Compatible (· ∈ K.pos) (· ∈ K.neg) (· ∈ S)) :
    op.apply P.omap P.axioms fuel args K = .fuel ∨ op.apply P.omap P.axioms fuel args S = .fuel ∨
    (∃ e, op.apply P.omap P.axioms fuel args K = .exc e ∧ op.apply P.omap P.axioms fuel args S = .exc e) ∨
      ∃ i K' j S', op.apply P.omap P.axioms fuel args K = .ok (i, K') ∧ op.apply P.omap P.axioms fuel args S = .ok (j, S') ∧
        (i = 0 → j = 0) ∧ Compatible (· ∈ K'.pos) (· ∈ K'.neg) (· ∈ S') := by
  have B := Pddl.built hP
  have hax : ∀ ax ∈ P.axioms, OneWayAx (t.constants ++ t.objects) (sigOf (t.constants ++ t.objects) t.preds)
      (t.MayWrite op) S ax := by
    intro ax hm
    obtain ⟨h1, h2, -⟩ := B.ax hm
    obtain ⟨h3, h4⟩ := B.context hm
    have hs := B.sortedAx ht ax hm
    refine ⟨⟨hs.sorted, hs.ctx, hA _ h1 h2⟩, fun hmw => ?_⟩
    rw [h3, h4] at hmw
    obtain ⟨h5, h6⟩ := hw _ h1 h2 hmw
    exact ⟨h5, fun sign p hp => ⟨.triggered h1 h2 hmw hp, h6 sign p hp⟩⟩
  have ho' := ht.ops op ho
  have := Eff.apply_pair (pairLits (fireN_solo hax fuel) (fireN_both hk hax fuel)) (pairConds hk) op.eff op.params args K S
    (Eff.each_typed op.eff _ _ hargs.length ho'.names (fun o h => (WellTyped.mem hargs h).1) ho'.formed ho'.fresh
      (Eff.Checked.typed ht.hier ht.objects ht.predNames op.eff op.params _ ho'.fits (envFits_vars ho'.names hargs)
        ho'.fresh ho'.eff) hc (fun _ _ h => h) (fun _ _ h => .own h))
    ⟨hS, fun _ h => h, fun _ _ _ => Iff.rfl, .refl _ _⟩
  simp only [Op.apply, B.omap]
  rcases this with h | h | h | ⟨i, K', j, S', h1, h2, h3, h4⟩
  · exact .inl h
  · exact .inr (.inl h)
  · exact .inr (.inr (.inl h))
  · exact .inr (.inr (.inr ⟨i, K', j, S', h1, h2, h3, h4.compat⟩))

section
open Demo
attribute [local instance] lenHash

/-- `settle(?x - box, ?y - object)`: eff `(when (inhand ?x) (not (on ?x ?y)))`. -/
def settleOp : Op where
  name := n!"settle"
  params := [x, y]
  pre := .conj []
  eff := .mk .nil [] [] (.cons (.atom n!"inhand" [.var x]) (.mk .nil [] [(n!"on", [.var x, .var y])] .nil) .nil)

/-- `grab(?x - box, ?y - object)`: eff `(on ?x ?y)`, `(inhand ?x)`, in this order. -/
def grabOp : Op where
  name := n!"grab"
  params := [x, y]
  pre := .conj []
  eff := .mk .nil [(n!"on", [.var x, .var y]), (n!"inhand", [.var x])] [] .nil

def settleTree : Ptree := { tree with ops := [pick, place, held, settleOp, grabOp], drvs := [] }

theorem settleMade : (Pddl.make settleTree true 5).isOk = true := by decide +kernel
def settleP : Pddl := get _ settleMade
theorem settle_made : Pddl.make settleTree true 5 = .ok settleP := get_eq _ settleMade

/-- **C86.** False when a condition is about an unknown atom: it counts as false. It is known that `a` is on the table, not
whether it is in the hand. `settle(a, table)` on what is known leaves it as it is; applied to the possible State in which
`a` is in the hand, it deletes `(on a table)`. -/
theorem C86_unknown_condition_refuted :
    Pddl.make settleTree true 5 = .ok settleP ∧
    ∃ K K' : PartialState, ∃ S S' : State, ∃ j, Compatible (· ∈ K.pos) (· ∈ K.neg) (· ∈ S) ∧
      settleOp.apply settleP.omap settleP.axioms 5 [a, table] K = .ok (0, K') ∧
      settleOp.apply settleP.omap settleP.axioms 5 [a, table] S = .ok (j, S') ∧ j ≠ 0 ∧
      on a table ∈ K'.pos ∧ on a table ∉ S' := by
  refine ⟨settle_made, ⟨(State.ofList [on a table]), State.ofList []⟩, ⟨(State.ofList [on a table]), State.ofList []⟩,
    State.ofList [on a table, inhand a], State.ofList [inhand a], 1, ⟨?_, ?_⟩, by decide +kernel, by decide +kernel, by simp,
    by decide, by decide⟩
  · intro x hx
    simp only [State.mem_ofList, List.mem_cons, List.not_mem_nil, or_false] at hx ⊢
    exact .inl hx
  · intro x hx
    simp [State.mem_ofList] at hx

theorem settle_valid {s : State} (h : settleP.isValidState 5 s = .ok true) :
    AxiomsHold (settleTree.constants ++ settleTree.objects) settleTree.ops (· ∈ s) := by
  refine (C32_valid_iff_axioms_hold settleTree true 5 settleP settle_made (by decide) ?_ 5 _).1 h
  intro op hop ha
  simp only [settleTree, List.mem_cons, List.not_mem_nil, or_false] at hop
  rcases hop with rfl | rfl | rfl | rfl | rfl
  · simp [pick] at ha
  · simp [place] at ha
  · refine ⟨⟨by simp [held], ?_, ?_⟩, ?_⟩
    · simp [held, Goal.WF, Term.Scoped, IsType, HasType, settleTree, tree, a, b, table, tBox, tObj]
    · simp [held, Eff.Formed, FList.Formed, CList.Formed, AtomLits, Goal.WF, Term.Scoped, IsType, HasType, settleTree, tree,
        a, b, table, tBox, tObj]
    · simp [held, Goal.HasConst]
  · simp [settleOp] at ha
  · simp [grabOp] at ha

/-- **C86.** False when an axiom is triggered that undoes what the action does: nothing is known, and `grab(a, table)` gives
that `a` is in the hand and, by the axiom, not on the table. Applied to the possible State in which `a` is in the hand already,
which satisfies the axiom, the axiom is not triggered and `a` is on the table. -/
theorem C86_axiom_refuted :
    Pddl.make settleTree true 5 = .ok settleP ∧
    ∃ K K' : PartialState, ∃ S S' : State, ∃ i j, Compatible (· ∈ K.pos) (· ∈ K.neg) (· ∈ S) ∧
      AxiomsHold (settleTree.constants ++ settleTree.objects) settleTree.ops (· ∈ S) ∧
      grabOp.apply settleP.omap settleP.axioms 5 [a, table] K = .ok (i, K') ∧
      grabOp.apply settleP.omap settleP.axioms 5 [a, table] S = .ok (j, S') ∧
      on a table ∈ K'.neg ∧ on a table ∈ S' := by
  refine ⟨settle_made, ⟨State.ofList [], State.ofList []⟩, ⟨State.ofList [inhand a], State.ofList [on a table, on a a, on a b]⟩,
    State.ofList [inhand a], State.ofList [inhand a, on a table], 1, 1, ⟨?_, ?_⟩, settle_valid (by decide +kernel),
    by decide +kernel, by decide +kernel, by decide, by decide⟩
  · intro x hx
    simp [State.mem_ofList] at hx
  · intro x hx
    simp [State.mem_ofList] at hx

/-- **C86.** False for a State in which the axioms do not hold: nothing is known, and `pick(a)` gives that `a` is in the hand
and not on the table. Applied to the State in which `a` is in the hand and on the table, it does nothing. -/
theorem C86_broken_axiom_refuted :
    Pddl.make tree true 5 = .ok P ∧ tree.TypeChecked demoUp ∧
    ∃ K K' : PartialState, ∃ S : State, ∃ i, Compatible (· ∈ K.pos) (· ∈ K.neg) (· ∈ S) ∧
      pick.apply P.omap P.axioms 5 [a] K = .ok (i, K') ∧ pick.apply P.omap P.axioms 5 [a] S = .ok (0, S) ∧
      on a table ∈ K'.neg ∧ on a table ∈ S := by
  refine ⟨P_made, demo_checked, ⟨State.ofList [], State.ofList []⟩, ⟨State.ofList [inhand a], State.ofList [on a table, on a a, on a b]⟩,
    State.ofList [inhand a, on a table], 1, ⟨?_, ?_⟩, by decide +kernel, by decide +kernel, by decide, by decide⟩
  · intro x hx
    simp [State.mem_ofList] at hx
  · intro x hx
    simp [State.mem_ofList] at hx

/-! ## The theorems apply -/

/-- `settle` triggers no axiom. -/
theorem settle_untriggered : Untriggered settleTree.ops settleOp.eff := by
  intro ax hop ha
  simp only [settleTree, List.mem_cons, List.not_mem_nil, or_false] at hop
  rcases hop with rfl | rfl | rfl | rfl | rfl
  · simp [pick] at ha
  · simp [place] at ha
  · simp [settleOp, held, Eff.Touches, FList.Touches, CList.Touches, ListsPred, Op.ctxSign, Op.ctxPred]
  · simp [settleOp] at ha
  · simp [grabOp] at ha

theorem settle_formed : settleOp.eff.Formed (settleTree.constants ++ settleTree.objects) (settleOp.params.map Obj.name) := by
  simp [settleOp, Eff.Formed, FList.Formed, CList.Formed, AtomLits, Goal.WF, Term.Scoped, IsType, HasType, settleTree, tree, a, b,
    table, tBox, tObj]

theorem settle_closed : settleOp.eff.CondsClosed (settleTree.constants ++ settleTree.objects) := by
  simp [settleOp, Eff.CondsClosed, FList.CondsClosed, CList.CondsClosed, Goal.HasConst]

/-- What is in the hand is known: `a`, and nothing else; whether `b` is on the table is not. -/
def settleK : PartialState := ⟨State.ofList [inhand a, on a table], State.ofList [inhand b, inhand table]⟩

theorem settle_knows : Knows (settleTree.constants ++ settleTree.objects) (· ∈ settleK.pos) (· ∈ settleK.neg) settleOp.eff.Asks := by
  intro pred os hm ho
  simp only [settleOp, Eff.Asks, FList.Asks, CList.Asks, Goal.Mentions, or_false, false_or] at hm
  obtain ⟨rfl, hm⟩ := hm
  obtain ⟨o, rfl⟩ := List.length_eq_one_iff.1 (show os.length = 1 from hm)
  have := ho o (by simp)
  simp only [settleTree, tree, List.mem_append, List.mem_cons, List.not_mem_nil, or_false] at this
  rcases this with rfl | rfl | rfl <;> decide

theorem settle_cons : ∀ x ∈ settleK.pos, x ∉ settleK.neg := by
  intro x hx
  simp only [settleK, State.mem_ofList, List.mem_cons, List.not_mem_nil, or_false] at hx ⊢
  rcases hx with rfl | rfl <;> decide

/-- Whatever else is the case, after `settle(a, table)` it is known that `a` is not on the table, and whether `b` is remains
unknown. -/
example (S : State) (hS : Compatible (· ∈ settleK.pos) (· ∈ settleK.neg) (· ∈ S)) :
    ∃ j S', settleOp.apply settleP.omap settleP.axioms 5 [a, table] S = .ok (j, S') ∧ on a table ∉ S' ∧ inhand a ∈ S' := by
  have hr : settleOp.apply settleP.omap settleP.axioms 5 [a, table] settleK =
      .ok (2, ⟨State.ofList [inhand a], State.ofList [inhand b, inhand table, on a table]⟩) := by decide +kernel
  rcases C86_sound_partial settleTree true 5 settleP settle_made settleOp settle_formed settle_closed settle_untriggered [a, table]
    rfl (by decide) settleK settle_knows 5 S hS with ⟨e, h, -⟩ | ⟨i, K', j, S', h1, h2, -, h4⟩
  · rw [hr] at h; simp at h
  · rw [hr] at h1; cases h1
    exact ⟨j, S', h2, h4.2 _ (by decide), h4.1 _ (by decide)⟩

/-- `(on b table)` is not the same in all of the results. -/
example : ¬ ∀ (S : State) j S', Compatible (· ∈ settleK.pos) (· ∈ settleK.neg) (· ∈ S) →
      settleOp.apply settleP.omap settleP.axioms 5 [a, table] S = .ok (j, S') → on b table ∉ S' := by
  have hr : settleOp.apply settleP.omap settleP.axioms 5 [a, table] settleK =
      .ok (2, ⟨State.ofList [inhand a], State.ofList [inhand b, inhand table, on a table]⟩) := by decide +kernel
  rw [← (C86_exact_partial settleTree true 5 settleP settle_made settleOp settle_formed settle_closed settle_untriggered [a, table]
    rfl (by decide) settleK settle_knows settle_cons 5 _ _ hr (on b table)).2]
  decide

/-- What `pick` may write in the demo domain. -/
theorem pick_writes {sign : Bool} {p : Name} (h : tree.MayWrite pick sign p) :
    (sign = true ∧ p = n!"inhand") ∨ (sign = false ∧ p = n!"on") := by
  induction h with
  | own h =>
    left
    simpa [pick, Eff.Touches, FList.Touches, CList.Touches, ListsPred] using h
  | @triggered ax sign p h1 h2 _ h4 _ =>
    simp only [tree, List.mem_cons, List.not_mem_nil, or_false] at h1
    rcases h1 with rfl | rfl | rfl
    · simp [pick] at h2
    · simp [place] at h2
    · right
      simpa [held, Eff.Touches, FList.Touches, CList.Touches, ListsPred] using h4

theorem pick_oneWay : tree.OneWay pick := by
  intro ax hop ha _
  simp only [tree, List.mem_cons, List.not_mem_nil, or_false] at hop
  rcases hop with rfl | rfl | rfl
  · simp [pick] at ha
  · simp [place] at ha
  · refine ⟨by simp [held, Eff.NoCond, FList.NoCond], fun sign p h h' => ?_⟩
    have h : sign = false ∧ p = n!"on" := by
      simpa [held, Eff.Touches, FList.Touches, CList.Touches, ListsPred] using h
    obtain ⟨rfl, rfl⟩ := h
    rcases pick_writes h' with ⟨-, h⟩ | ⟨h, -⟩
    · exact absurd h (by decide)
    · simp at h

/-- Whatever the State is, if the axiom holds in it, then after `pick(a)`, box `a` is not on the table: that is known already
if nothing is known before. -/
example (S : State) (hA : AxiomsHold (tree.constants ++ tree.objects) tree.ops (· ∈ S)) :
    pick.apply P.omap P.axioms 5 [a] S = .fuel ∨
    ∃ j S', pick.apply P.omap P.axioms 5 [a] S = .ok (j, S') ∧ inhand a ∈ S' ∧ on a table ∉ S' := by
  have hr : pick.apply P.omap P.axioms 5 [a] (⟨State.ofList [], State.ofList []⟩ : PartialState) =
      .ok (1, ⟨State.ofList [inhand a], State.ofList [on a table, on a a, on a b]⟩) := by decide +kernel
  have hw : WellTyped (tree.constants ++ tree.objects) pick.params [a] :=
    .cons ⟨by decide, .inr (by decide)⟩ .nil
  rcases C86_axioms_partial tree true 5 P P_made demoUp demo_checked pick (by simp [tree]) pick_oneWay
    (by simp [pick, Eff.CondsClosed, FList.CondsClosed, CList.CondsClosed]) [a] hw ⟨State.ofList [], State.ofList []⟩
    (fun pred os hm => by simp [pick, Eff.Asks, FList.Asks, CList.Asks] at hm) 5 S hA
    ⟨fun x hx => by simp [State.mem_ofList] at hx, fun x hx => by simp [State.mem_ofList] at hx⟩ with
    h | h | ⟨e, h, -⟩ | ⟨i, K', j, S', h1, h2, -, h4⟩
  · rw [hr] at h; simp at h
  · exact .inl h
  · rw [hr] at h; simp at h
  · rw [hr] at h1; cases h1
    exact .inr ⟨j, S', h2, h4.1 _ (by decide), h4.2 _ (by decide)⟩

end

end Symbolic
