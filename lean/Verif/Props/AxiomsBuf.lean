import Verif.Props.SearchBuf

/-!
# C23, C31: with the argument buffers

Actions that report no change, and what `ConsistentState` and `IsValidState` have to do with each other, with the buffers of
Model/ActionBuf.lean and whatever they hold; for any axioms, also those that trigger themselves.
-/

namespace Symbolic

/-- What `x` returns, from any buffers, satisfies `Q`. -/
def Gives (x : BufM α) (Q : α → Prop) : Prop := ∀ st a, (x st).1 = .ok a → Q a

theorem Gives.lift {r : Res α} {Q : α → Prop} (h : ∀ a, r = .ok a → Q a) : Gives (BufM.lift r) Q := fun _ => h

theorem Gives.pure {a : α} {Q : α → Prop} (h : Q a) : Gives (pure a : BufM α) Q := fun _ b hb => by
  cases (show Res.ok a = .ok b from hb); exact h

theorem Gives.any (x : BufM α) : Gives x fun _ => True := fun _ _ _ => trivial

theorem Gives.bind {x : BufM α} {f : α → BufM β} {Q : α → Prop} {Q' : β → Prop} (hx : Gives x Q)
    (hf : ∀ a, Q a → Gives (f a) Q') : Gives (x >>= f) Q' := by
  intro st b hb
  rw [BufM.bind_run] at hb
  have hx := hx st
  generalize x st = y at hb hx
  obtain ⟨r1, t1⟩ := y
  cases r1 with
  | ok a => exact hf a (hx a rfl) t1 b hb
  | exc _ => cases hb
  | ub => cases hb
  | fuel => cases hb

section
variable {σ : Type} [StateLike σ] [LawfulCodes σ] {m : ObjMap} {fire : FireB σ}

/-- The code 0 means that `s` is unchanged. -/
def ZeroIs (s : σ) (r : Nat × σ) : Prop := r.1 = 0 → r.2 = s

omit [StateLike σ] [LawfulCodes σ] in
theorem ZeroIs.seq {s : σ} {q q' : Nat × σ} (h1 : ZeroIs s q) (h2 : ZeroIs q.2 q') : ZeroIs s (max q.1 q'.1, q'.2) := by
  intro h
  simp only at h ⊢
  rw [h2 (by omega), h1 (by omega)]

theorem runSimple_zero (l : Loc) (r : Ref) (s : σ) : Gives (runSimple m fire l r s) (ZeroIs s) := by
  unfold runSimple
  refine (Gives.any _).bind fun _ _ => (Gives.any _).bind fun os _ => ?_
  split
  · refine (Gives.any _).bind fun _ _ => (Gives.any _).bind fun _ _ => ?_
    split
    · exact .pure fun _ => rfl
    · exact .lift fun _ h => by cases h
  · refine (Gives.any _).bind fun _ _ => ?_
    split
    · exact .pure fun _ => rfl
    · exact .lift fun _ h => by cases h
  · generalize hq : (if l.sign then StateLike.insert s (Atom.ofObjs l.pred os) else StateLike.erase s (Atom.ofObjs l.pred os)) = q
    have hz : q.1 = 0 → q.2 = s := by
      subst hq
      split
      · exact LawfulCodes.insert _ _
      · exact LawfulCodes.erase _ _
    simp only
    split
    · exact .pure hz
    · rename_i h0
      exact (Gives.any _).bind fun _ _ => .pure fun h => absurd h h0

theorem runSimples_zero (op : Nat) (path : List Nat) (sign : Bool) (params : List Obj) (r : Ref) :
    ∀ (l : List (Name × List Term)) (k : Nat) (s : σ), Gives (runSimples m fire op path sign params r k l s) (ZeroIs s)
  | [], _, _ => .pure fun _ => rfl
  | (_, _) :: l, k, s => (runSimple_zero _ r s).bind fun _ h1 =>
    (runSimples_zero op path sign params r l (k + 1) _).bind fun _ h2 => .pure (h1.seq h2)

omit [StateLike σ] [LawfulCodes σ] in
theorem runLoop_zero {f : List Obj → σ → BufM (Nat × σ)} (hf : ∀ os s, Gives (f os s) (ZeroIs s)) :
    ∀ (l : List (List Obj)) (s : σ), Gives (runLoop f l s) (ZeroIs s)
  | [], _ => .pure fun _ => rfl
  | os :: l, s => (hf os s).bind fun _ h1 => (runLoop_zero hf l _).bind fun _ h2 => .pure (h1.seq h2)

mutual
theorem Eff.run_zero (op : Nat) : ∀ (e : Eff) (path : List Nat) (params : List Obj) (r : Ref) (s : σ),
    Gives (e.run m fire op path params r s) (ZeroIs s)
  | .mk fs adds dels cs, path, params, r, s => by
    simp only [Eff.run]
    refine (FList.run_zero op fs path 0 params r s).bind fun r1 h1 => (runSimples_zero op path true params r adds 0 _).bind
      fun r2 h2 => (runSimples_zero op path false params r dels 0 _).bind fun r3 h3 =>
      (CList.run_zero op cs path 0 params r _).bind fun r4 h4 => .pure fun h => ?_
    simp only at h ⊢
    rw [h4 (by omega), h3 (by omega), h2 (by omega), h1 (by omega)]
theorem FList.run_zero (op : Nat) : ∀ (e : FList) (path : List Nat) (k : Nat) (params : List Obj) (r : Ref) (s : σ),
    Gives (e.run m fire op path k params r s) (ZeroIs s)
  | .nil, _, _, _, _, _ => by simp only [FList.run]; exact .pure fun _ => rfl
  | .cons vars e rest, path, k, params, r, s => by
    simp only [FList.run]
    exact (Gives.any _).bind fun _ _ => (runLoop_zero (fun os s => (Gives.any _).bind fun _ _ => Eff.run_zero op e _ _ _ s) _ s).bind
      fun _ h1 => (FList.run_zero op rest path (k + 1) params r _).bind fun _ h2 => .pure (h1.seq h2)
theorem CList.run_zero (op : Nat) : ∀ (e : CList) (path : List Nat) (k : Nat) (params : List Obj) (r : Ref) (s : σ),
    Gives (e.run m fire op path k params r s) (ZeroIs s)
  | .nil, _, _, _, _, _ => by simp only [CList.run]; exact .pure fun _ => rfl
  | .cons g e rest, path, k, params, r, s => by
    simp only [CList.run]
    refine (Gives.any _).bind fun _ _ => (Gives.any _).bind fun b _ => Gives.bind (Q := ZeroIs s) ?_ fun _ h1 =>
      (CList.run_zero op rest path (k + 1) params r _).bind fun _ h2 => .pure (h1.seq h2)
    split
    · exact Eff.run_zero op e _ _ _ _
    · exact .pure fun _ => rfl
end
end

/-- **C23 (buffers).** An action that returns 0 (false) did not change the state, whatever the axioms and the buffers; for States and
PartialStates. -/
theorem C23_buffers [StrHash] (m : ObjMap) (axs : List Ax) (op : Op) (fuel id : Nat) (args : List Obj) (st : Store) :
    (∀ s s' : State, (op.run m axs fuel id args s st).1 = .ok (0, s') → s' = s) ∧
    ∀ s s' : PartialState, (op.run m axs fuel id args s st).1 = .ok (0, s') → s' = s :=
  ⟨fun s s' h => Eff.run_zero id op.eff [] op.params (.val args) s st (0, s') h rfl,
    fun s s' h => Eff.run_zero id op.eff [] op.params (.val args) s st (0, s') h rfl⟩

section
variable [StrHash] {m : ObjMap} {axs : List Ax} {fuel : Nat}

/-- The axiom with number `k` does not fire with the arguments, or changes nothing. -/
def QuietB (m : ObjMap) (axs : List Ax) (fuel k : Nat) (ax : Ax) (s : State) (as : List Obj) : Prop :=
  ax.op.isValid m s as = .ok false ∨
    ax.op.isValid m s as = .ok true ∧ ByValue (ax.op.run m axs fuel k as s) (.ok (0, s))

/-- All axioms of a list are quiet; the first has the number `k`. -/
def AllQuietB (m : ObjMap) (axs : List Ax) (fuel : Nat) (s : State) : Nat → List Ax → Prop
  | _, [] => True
  | k, ax :: l => (∀ as ∈ ax.arguments, QuietB m axs fuel k ax s as) ∧ AllQuietB m axs fuel s (k + 1) l

/-- A run that returns 0 is a quiet one. -/
theorem run_quiet {k : Nat} {ax : Ax} {s s' : State} {as : List Obj} {st : Store} (hi : BufInv st)
    (h : (ax.op.run m axs fuel k as s st).1 = .ok (0, s')) : s' = s ∧ ByValue (ax.op.run m axs fuel k as s) (.ok (0, s)) := by
  have e : s' = s := (C23_buffers m axs ax.op fuel k as st).1 s s' h
  subst e
  refine ⟨rfl, fun st' hi' => ?_⟩
  have := Op.run_det (m := m) (axs := axs) (fuel := fuel) k ax.op as s' st' st hi' hi (by simp)
  exact ⟨this.1.trans h, this.2.1⟩

theorem axApplyLoopB_quiet {k : Nat} {ax : Ax} {s : State} : ∀ l : List (List Obj), (∀ as ∈ l, QuietB m axs fuel k ax s as) →
    ByValue (axApplyLoopB m axs fuel k ax l s) (.ok (false, s))
  | [], _ => .pure _
  | as :: l, h => by
    have ih := axApplyLoopB_quiet l fun as ha => h as (by simp [ha])
    rw [axApplyLoopB]
    rcases h as (by simp) with hv | ⟨hv, hr⟩
    · rw [hv]
      refine (ByValue.lift (.ok false)).andThen ?_
      simp only [Bool.false_eq_true, if_false]
      exact (ByValue.pure _).andThen (ih.andThen (.pure _))
    · rw [hv]
      refine (ByValue.lift (.ok true)).andThen ?_
      simp only [if_true]
      exact hr.andThen (ih.andThen (.pure _))

theorem consistentLoopB_quiet {k : Nat} {ax : Ax} {s : State} : ∀ l : List (List Obj), (∀ as ∈ l, QuietB m axs fuel k ax s as) →
    ByValue (consistentLoopB m axs fuel k ax s l s) (.ok true)
  | [], _ => .pure _
  | as :: l, h => by
    have ih := consistentLoopB_quiet l fun as ha => h as (by simp [ha])
    rw [consistentLoopB]
    rcases h as (by simp) with hv | ⟨hv, hr⟩
    · rw [hv]
      refine (ByValue.lift (.ok false)).andThen ?_
      simp only [Bool.false_eq_true, if_false]
      exact ih
    · rw [hv]
      refine (ByValue.lift (.ok true)).andThen ?_
      simp only [if_true]
      exact (ByValue.catch hr : ByValue _ (.ok (some (0, s)))).andThen ih

theorem consistentPassB_quiet {s : State} : ∀ (l : List Ax) (k : Nat), AllQuietB m axs fuel s k l →
    ByValue (Pddl.consistentPassB m axs fuel k l s) (.ok (false, s))
  | [], _, _ => .pure _
  | ax :: l, k, h => by
    rw [Pddl.consistentPassB]
    exact (axApplyLoopB_quiet _ h.1).andThen ((consistentPassB_quiet l (k + 1) h.2).andThen (.pure _))

theorem validLoopB_quiet {s : State} : ∀ (l : List Ax) (k : Nat), AllQuietB m axs fuel s k l →
    ByValue (Pddl.validLoopB m axs fuel s k l) (.ok true)
  | [], _, _ => .pure _
  | ax :: l, k, h => by
    rw [Pddl.validLoopB]
    exact (consistentLoopB_quiet _ h.1).andThen (validLoopB_quiet l (k + 1) h.2)

theorem consistentFixB_quiet {s : State} (j : Nat) (h : AllQuietB m axs fuel s 0 axs) :
    ByValue (Pddl.consistentFixB m axs fuel (j + 1) s) (.ok s) := by
  rw [Pddl.consistentFixB]
  exact (consistentPassB_quiet axs 0 h).andThen (.pure _)

/-- Runs that change nothing show that all is quiet. -/
theorem axApplyLoopB_false {k : Nat} {ax : Ax} : ∀ (l : List (List Obj)) (s : State),
    Post (axApplyLoopB m axs fuel k ax l s) fun r => r.1 = false → r.2 = s ∧ ∀ as ∈ l, QuietB m axs fuel k ax s as
  | [], s => Post.pure fun _ => ⟨rfl, by simp⟩
  | as :: l, s => by
    rw [axApplyLoopB]
    refine Post.bind (Post.lift fun v hv => hv) fun v hv => ?_
    refine Post.bind (Q := fun r : Nat × State => r.1 = 0 → r.2 = s ∧ QuietB m axs fuel k ax s as) ?_ fun r hr =>
      (axApplyLoopB_false l r.2).bind fun r' hr' => Post.pure fun h => ?_
    · split
      · rename_i hv'
        subst hv'
        intro st hi
        refine ⟨(Op.run_det (m := m) (axs := axs) (fuel := fuel) k ax.op as s st st hi hi (by simp)).2.1, ?_⟩
        rintro ⟨n, s'⟩ h h0
        cases h0
        obtain ⟨h1, h2⟩ := run_quiet hi h
        exact ⟨h1, .inr ⟨hv, h2⟩⟩
      · rename_i hv'
        exact Post.pure fun _ => ⟨rfl, .inl (by simpa [hv'] using hv)⟩
    · simp only [Bool.or_eq_false_iff, decide_eq_false_iff_not, not_not] at h
      obtain ⟨h1, h2⟩ := hr h.1
      obtain ⟨h3, h4⟩ := hr' h.2
      rw [h1] at h3 h4
      refine ⟨h3, fun as' ha => ?_⟩
      rcases List.mem_cons.1 ha with rfl | ha
      · exact h2
      · exact h4 as' ha

theorem consistentPassB_false : ∀ (l : List Ax) (k : Nat) (s : State),
    Post (Pddl.consistentPassB m axs fuel k l s) fun r => r.1 = false → r.2 = s ∧ AllQuietB m axs fuel s k l
  | [], _, _ => Post.pure fun _ => ⟨rfl, trivial⟩
  | ax :: l, k, s => by
    rw [Pddl.consistentPassB]
    refine (axApplyLoopB_false ax.arguments s).bind fun r hr => (consistentPassB_false l (k + 1) r.2).bind fun r' hr' =>
      Post.pure fun h => ?_
    simp only [Bool.or_eq_false_iff] at h
    obtain ⟨h1, h2⟩ := hr h.1
    obtain ⟨h3, h4⟩ := hr' h.2
    rw [h1] at h3 h4
    exact ⟨h3, h2, h4⟩

theorem consistentFixB_post : ∀ (j : Nat) (s : State),
    Post (Pddl.consistentFixB m axs fuel j s) fun s' => AllQuietB m axs fuel s' 0 axs
  | 0, _ => Post.lift fun _ h => by cases h
  | j + 1, s => by
    rw [Pddl.consistentFixB]
    refine (consistentPassB_false axs 0 s).bind fun r hr => ?_
    split
    · exact consistentFixB_post j r.2
    · rename_i h
      obtain ⟨h1, h2⟩ := hr (by simpa using h)
      exact Post.pure (by rw [h1]; exact h2)

theorem consistentLoopB_true {k : Nat} {ax : Ax} {s : State} : ∀ (l : List (List Obj)),
    Post (consistentLoopB m axs fuel k ax s l s) fun b => b = true → ∀ as ∈ l, QuietB m axs fuel k ax s as
  | [] => Post.pure fun _ => by simp
  | as :: l => by
    have cons : QuietB m axs fuel k ax s as → Post (consistentLoopB m axs fuel k ax s l s)
        fun b => b = true → ∀ as' ∈ as :: l, QuietB m axs fuel k ax s as' := fun hq st hi => by
      obtain ⟨h1, h2⟩ := consistentLoopB_true l st hi
      refine ⟨h1, fun b hb ht as' ha => ?_⟩
      rcases List.mem_cons.1 ha with rfl | ha
      · exact hq
      · exact h2 b hb ht as' ha
    rw [consistentLoopB]
    refine Post.bind (Post.lift fun v hv => hv) fun v hv => ?_
    split
    · rename_i hv'
      subst hv'
      refine Post.bind (Q := fun r : Option (Nat × State) => ∀ s', r = some (0, s') → s' = s ∧ QuietB m axs fuel k ax s as) ?_ fun r hr => ?_
      · intro st hi
        refine ⟨(Op.run_det (m := m) (axs := axs) (fuel := fuel) k ax.op as s st st hi hi (by simp)).2.1, ?_⟩
        intro r h s' hr
        subst hr
        have h : catchExc (ax.op.run m axs fuel k as s st).1 = .ok (some (0, s')) := h
        have h : (ax.op.run m axs fuel k as s st).1 = .ok (0, s') := by
          generalize (ax.op.run m axs fuel k as s st).1 = y at h
          cases y <;> simp_all [catchExc]
        obtain ⟨h1, h2⟩ := run_quiet hi h
        exact ⟨h1, .inr ⟨hv, h2⟩⟩
      · rcases r with _ | ⟨n, s'⟩
        · exact Post.pure fun h => by cases h
        · simp only
          split
          · exact Post.pure fun h => by cases h
          · rename_i hn
            have hn : n = 0 := by simpa using hn
            subst hn
            obtain ⟨rfl, hq⟩ := hr s' rfl
            exact cons hq
    · rename_i hv'
      exact cons (.inl (by simpa [hv'] using hv))

theorem validLoopB_true {s : State} : ∀ (l : List Ax) (k : Nat),
    Post (Pddl.validLoopB m axs fuel s k l) fun b => b = true → AllQuietB m axs fuel s k l
  | [], _ => Post.pure fun _ => trivial
  | ax :: l, k => by
    rw [Pddl.validLoopB]
    refine (consistentLoopB_true ax.arguments).bind fun b hb => ?_
    split
    · rename_i ht
      intro st hi
      obtain ⟨h1, h2⟩ := validLoopB_true l (k + 1) st hi
      exact ⟨h1, fun b' hb' ht' => ⟨hb ht, h2 b' hb' ht'⟩⟩
    · exact Post.pure fun h => by cases h

variable (P : Pddl) (ids : Name → Nat) (n : Nat) (before after : List Pddl.AnyCall)

/-- **C31 (buffers).** If `ConsistentState(s)` returns `s'` after some calls, then after any calls `IsValidState(s')` is true and
`ConsistentState(s')` returns `s'`; for every Pddl, also when axioms trigger themselves. -/
theorem C31_buffers (s s' : State) (h : (P.consistentStateB n s (P.runAny ids n before Store.init)).1 = .ok s') :
    (P.isValidStateB n s' (P.runAny ids n after Store.init)).1 = .ok true ∧
    (P.consistentStateB n s' (P.runAny ids n after Store.init)).1 = .ok s' := by
  have hq := (consistentFixB_post n s _ (runAny_inv P ids n before BufInv.init)).2 s' h
  have ha := runAny_inv P ids n after BufInv.init
  refine ⟨(validLoopB_quiet P.axioms 0 hq _ ha).1, ?_⟩
  cases n with
  | zero => cases (show Res.fuel = Res.ok s' from h)
  | succ j => exact (consistentFixB_quiet j hq _ ha).1

/-- **C31 (buffers).** If `IsValidState(s)` is true then `ConsistentState(s)` returns `s`. -/
theorem C31_buffers_valid (s : State) (h : (P.isValidStateB (n + 1) s (P.runAny ids (n + 1) before Store.init)).1 = .ok true) :
    (P.consistentStateB (n + 1) s (P.runAny ids (n + 1) after Store.init)).1 = .ok s :=
  (consistentFixB_quiet n ((validLoopB_true P.axioms 0 _ (runAny_inv P ids (n + 1) before BufInv.init)).2 true h rfl) _
    (runAny_inv P ids (n + 1) after BufInv.init)).1
end

namespace Buffers
open Demo
attribute [local instance] lenHash

/-- The closure under the axiom that triggers itself, with the atom that does not follow from it, is valid. -/
example (ids : Name → Nat) (after : List Pddl.AnyCall) :
    (rotP.isValidStateB 9 (State.ofList [p3 a b a, p3 b a a, p3 a a b, p3 a a a]) (rotP.runAny ids 9 after Store.init)).1 = .ok true :=
  (C31_buffers rotP ids 9 [] after (State.ofList [p3 a b a]) _ C55_calls_refuted.1).1

/-- A state that the axiom changes. -/
example : (rotP.isValidStateB 9 (State.ofList [p3 a b a]) Store.init).1 = .ok false := by decide +kernel

/-- An action that changes nothing. -/
example : (put.run rotP.omap rotP.axioms 4 0 [a, b, a] (State.ofList [p3 a b a]) Store.init).1 = .ok (0, State.ofList [p3 a b a]) := by
  decide +kernel
end Buffers

end Symbolic
