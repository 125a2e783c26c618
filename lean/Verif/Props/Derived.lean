import Verif.Lemmas.DerivedTerm
import Verif.Lemmas.Construct
import Verif.Lemmas.Fire
import Verif.Examples.Demo

/-!
# C28-C30: derived predicates
-/

namespace Symbolic

/-! ## C28 -/

/-- **C28.** If `DerivedState(s)` returns `s'`, every rule (with parameters) is a true equivalence in `s'` for every
well-typed argument list, all other atoms are as in `s`, and `DerivedState(s')` returns `s'`. Any recursion or negation is
allowed. -/
theorem C28_derived_state_is_fixpoint [StrHash] (t : Ptree) (b : Bool) (fuel : Nat) (P : Pddl)
    (hP : Pddl.make t b fuel = .ok P) (hwf : ∀ d ∈ t.drvs, d.WF (t.constants ++ t.objects)) (s s' : State) (n : Nat)
    (h : P.derivedState n s = .ok s') :
    Fixpoint (t.constants ++ t.objects) t.drvs (· ∈ s') ∧
      SameBase (t.constants ++ t.objects) t.drvs (· ∈ s') (· ∈ s) ∧
      ∀ k, P.derivedState (k + 1) s' = .ok s' := by
  have B := Pddl.built hP
  have hd : P.drvs = t.drvs := by rw [Pddl.drvs, B.tree]
  simp only [Pddl.derivedState, Res.bind_eq_ok, Res.pure_eq, Res.ok.injEq, hd, B.omap] at h ⊢
  obtain ⟨r, h1, rfl⟩ := h
  obtain ⟨h2, h3, -⟩ := drvsFix_ok hwf _ _ _ h1
  refine ⟨fun d hd os ho => h2 d hd os ho, fun x hx => h3 x hx, fun k => ⟨_, drvsFix_stable hwf h2, rfl⟩⟩

/-- **C28.** The same for the state returned by `NextState`. -/
theorem C28_next_state_is_fixpoint [StrHash] (t : Ptree) (b : Bool) (fuel : Nat) (P : Pddl)
    (hP : Pddl.make t b fuel = .ok P) (hwf : ∀ d ∈ t.drvs, d.WF (t.constants ++ t.objects)) (s s' : State) (n : Nat)
    (call : Name) (h : P.nextState n s call = .ok s') :
    Fixpoint (t.constants ++ t.objects) t.drvs (· ∈ s') := by
  simp only [Pddl.nextState, Pddl.applyOp, Res.bind_eq_ok] at h
  obtain ⟨oa, -, r, -, h⟩ := h
  exact (C28_derived_state_is_fixpoint t b fuel P hP hwf r.2 s' n (by simpa [Pddl.derivedState, Res.bind_eq_ok] using h)).1

section
open Demo
attribute [local instance] lenHash

/-- The rule of the demo domain is well-formed. -/
example : ∀ d ∈ tree.drvs, d.WF (tree.constants ++ tree.objects) := by
  intro d hd
  simp only [tree, List.mem_singleton] at hd
  subst hd
  exact ⟨by simp [busy], by
    simp [tree, busy, Goal.WF, Goal.WFs, Term.Scoped, IsType, HasType, a, b, table, x, u, tBox, tObj]⟩

example : P.derivedState 5 (State.ofList [inhand a, on b a, busyA b]) =
    .ok (State.ofList [inhand a, on b a, busyA a]) := by decide +kernel

/-- `(:derived (alarm) (exists (?x - box) (inhand ?x)))`. -/
def alarm : Drv where
  head := n!"alarm"
  params := []
  body := .ex [x] (.atom n!"inhand" [.var x])

def alarmTree : Ptree := { tree with drvs := [alarm], preds := ⟨n!"alarm", []⟩ :: tree.preds }

end

/-- **C28, refuted for derived predicates without parameters**: they are never derived, and never removed. -/
theorem C28_nullary_refuted [StrHash] (P : Pddl) (h : ∀ d ∈ P.drvs, d.params = []) (s : State) (k : Nat) :
    P.derivedState (k + 1) s = .ok s := by
  have key : ∀ ds : List Drv, (∀ d ∈ ds, d.params = []) → drvsPass P.omap (k + 1) ds s = .ok (false, s) := by
    intro ds
    induction ds with
    | nil => intro _; rfl
    | cons d ds ih =>
      intro h
      have e : d.apply P.omap (k + 1) s = .ok (false, s) := by
        rw [Drv.apply, h d (by simp)]
        rfl
      simp [drvsPass, e, ih (fun d' hd' => h d' (by simp [hd']))]
  simp [Pddl.derivedState, drvsFix, key P.drvs h]

section
open Demo
attribute [local instance] lenHash

/-- The body of `alarm` holds in `inhand(a)`, the head is not derived. -/
theorem C28_nullary_witness :
    (do let P ← Pddl.make alarmTree true 5
        P.derivedState 5 (State.ofList [inhand a])) = .ok (State.ofList [inhand a]) ∧
    alarm.Holds (alarmTree.constants ++ alarmTree.objects) (· ∈ State.ofList [inhand a]) [] := by
  refine ⟨by decide +kernel, ?_⟩
  have hw : alarm.body.WF (alarmTree.constants ++ alarmTree.objects) [] := by
    simp [alarm, alarmTree, tree, Goal.WF, Term.Scoped, IsType, HasType, a, b, table, x, tBox, tObj]
  obtain ⟨r, h1, h2⟩ := eval_sat (alarmTree.constants ++ alarmTree.objects) (State.ofList [inhand a]) alarm.body [] [] rfl hw
  refine h2.1 ?_
  have : alarm.body.eval (ObjMap.create (alarmTree.constants ++ alarmTree.objects)) [] (State.ofList [inhand a]) [] =
      .ok true := by decide +kernel
  rw [this, Res.ok.injEq] at h1
  exact h1.symm

/-! ## C29 -/

/-- Two rules for one predicate, as PDDL allows: `busy` if in the hand, `busy` if something is on it. -/
def busy1 : Drv where
  head := n!"busy"
  params := [x]
  body := .atom n!"inhand" [.var x]

def busy2 : Drv where
  head := n!"busy"
  params := [x]
  body := .ex [u] (.atom n!"on" [.var u, .var x])

def busyTree : Ptree := { tree with drvs := [busy1, busy2] }

theorem busyMade : (Pddl.make busyTree true 5).isOk = true := by decide +kernel

def busyP : Pddl := get _ busyMade

/-- **C29, refuted.** With two rules for one head, `DerivedState` of a state in which one body is true and the other is
not runs for ever: the rules undo each other. The same for `NextState`, here with the valid action `pick(a)`. -/
theorem C29_two_rules_refuted : ∃ P, Pddl.make busyTree true 5 = .ok P ∧
    (∀ fuel, P.derivedState fuel (State.ofList [inhand a]) = .fuel) ∧
    P.isValidAction State.empty n!"pick(a)" = .ok true ∧
    ∀ fuel, P.nextState fuel State.empty n!"pick(a)" = .fuel := by
  refine ⟨busyP, get_eq _ _, ?_, by decide +kernel, ?_⟩
  all_goals
    have B : busyP.Built busyTree := Pddl.built (get_eq _ busyMade)
    have hd : busyP.drvs = [busy1, busy2] := by rw [Pddl.drvs, B.tree]; rfl
    have hm : busyP.omap = ObjMap.create [table, a, b] := B.omap
    have loop : ∀ fuel k, drvsFix (ObjMap.create [table, a, b]) fuel [busy1, busy2] k (State.ofList [inhand a]) = .fuel := by
      intro fuel k
      have h1 : genLoop (paramTypes (ObjMap.create [table, a, b]) [x]) = .ok [[a], [b]] := by decide +kernel
      have p1 : drvPass (ObjMap.create [table, a, b]) busy1 [[a], [b]] (State.ofList [inhand a]) =
          .ok (true, State.ofList [inhand a, busyA a]) := by decide +kernel
      have p2 : drvPass (ObjMap.create [table, a, b]) busy1 [[a], [b]] (State.ofList [inhand a, busyA a]) =
          .ok (false, State.ofList [inhand a, busyA a]) := by decide +kernel
      have p3 : drvPass (ObjMap.create [table, a, b]) busy2 [[a], [b]] (State.ofList [inhand a, busyA a]) =
          .ok (true, State.ofList [inhand a]) := by decide +kernel
      have p4 : drvPass (ObjMap.create [table, a, b]) busy2 [[a], [b]] (State.ofList [inhand a]) =
          .ok (false, State.ofList [inhand a]) := by decide +kernel
      have e1 : busy1.params = [x] := rfl
      have e2 : busy2.params = [x] := rfl
      have pass : drvsPass (ObjMap.create [table, a, b]) fuel [busy1, busy2] (State.ofList [inhand a]) = .fuel ∨
          drvsPass (ObjMap.create [table, a, b]) fuel [busy1, busy2] (State.ofList [inhand a]) =
            .ok (true, State.ofList [inhand a]) := by
        match fuel with
        | 0 => left; simp [drvsPass, Drv.apply, e1, h1, drvFix]
        | 1 => left; simp [drvsPass, Drv.apply, e1, h1, drvFix, p1]
        | n + 2 => right; simp [drvsPass, Drv.apply, e1, e2, h1, drvFix, p1, p2, p3, p4]
      induction k with
      | zero => rfl
      | succ k ih =>
        rcases pass with h | h
        · simp [drvsFix, h]
        · simp [drvsFix, h, ih]
    intro fuel
  · simp [Pddl.derivedState, hd, hm, loop]
  · have hp : busyP.parseAction n!"pick(a)" = .ok (pick, [a]) := by rfl
    have hrun : pick.apply (ObjMap.create [table, a, b]) busyP.axioms fuel [a] State.empty = .fuel ∨
        ∃ n, pick.apply (ObjMap.create [table, a, b]) busyP.axioms fuel [a] State.empty =
          .ok (n, State.ofList [inhand a]) := by
      match fuel with
      | 0 => left; rfl
      | 1 => right; exact ⟨1, by decide +kernel⟩
      | n + 2 =>
        right
        refine ⟨1, ?_⟩
        have h1 : pick.apply (ObjMap.create [table, a, b]) busyP.axioms 1 [a] State.empty =
            .ok (1, State.ofList [inhand a]) := by decide +kernel
        rw [← h1]
        exact Op.apply_mono _ _ _ _ _ (by omega) (by rw [h1]; simp)
    simp only [Pddl.nextState, hp, Res.bind_ok, Pddl.applyOp, hm, hd]
    rcases hrun with h | ⟨n, h⟩
    · simp [h]
    · simp [h, loop]

/-- Three rules in a ring: `(p3 ?x) :- (p2 ?x)`, `(p2 ?x) :- (p1 ?x)`, `(p1 ?x) :- (p3 ?x)`. -/
def ring (h b : Name) : Drv := ⟨h, [x], .atom b [.var x]⟩

def ringTree : Ptree where
  constants := []
  objects := [a]
  ops := []
  preds := [⟨n!"p1", [x]⟩, ⟨n!"p2", [x]⟩, ⟨n!"p3", [x]⟩]
  drvs := [ring n!"p3" n!"p2", ring n!"p2" n!"p1", ring n!"p1" n!"p3"]
  init := []
  goal := .conj []

theorem ringMade : (Pddl.make ringTree true 5).isOk = true := by decide +kernel

def ringP : Pddl := get _ ringMade

/-- **C29, refuted.** Distinct heads and no negation do not suffice either: with three rules in a ring, `DerivedState`
never returns for a state that already contains one of the derived atoms. -/
theorem C29_positive_ring_refuted : ∃ P, Pddl.make ringTree true 5 = .ok P ∧
    ∀ fuel, P.derivedState fuel (State.ofList [⟨n!"p2", [n!"a"]⟩]) = .fuel := by
  refine ⟨ringP, get_eq _ _, fun fuel => ?_⟩
  have B : ringP.Built ringTree := Pddl.built (get_eq _ ringMade)
  have hd : ringP.drvs = ringTree.drvs := by rw [Pddl.drvs, B.tree]
  have hm : ringP.omap = ObjMap.create [a] := B.omap
  have h1 : genLoop (paramTypes (ObjMap.create [a]) [x]) = .ok [[a]] := by decide +kernel
  have flip : drvsPass (ObjMap.create [a]) 2 ringTree.drvs (State.ofList [⟨n!"p2", [n!"a"]⟩]) =
      .ok (true, State.ofList [⟨n!"p1", [n!"a"]⟩, ⟨n!"p3", [n!"a"]⟩]) := by decide +kernel
  have flop : drvsPass (ObjMap.create [a]) 2 ringTree.drvs (State.ofList [⟨n!"p1", [n!"a"]⟩, ⟨n!"p3", [n!"a"]⟩]) =
      .ok (true, State.ofList [⟨n!"p2", [n!"a"]⟩]) := by decide +kernel
  have more : ∀ n s r, drvsPass (ObjMap.create [a]) 2 ringTree.drvs s = .ok r →
      drvsPass (ObjMap.create [a]) (n + 2) ringTree.drvs s = .ok r := by
    intro n s r h
    have fix : ∀ d l s r, drvFix (ObjMap.create [a]) d l 2 s = .ok r → drvFix (ObjMap.create [a]) d l (n + 2) s = .ok r := by
      intro d l s r h
      simp only [drvFix, Res.bind_eq_ok] at h ⊢
      obtain ⟨r1, h1, h2⟩ := h
      refine ⟨r1, h1, ?_⟩
      split at h2
      · rename_i hb
        rw [if_pos hb]
        simp only [Res.bind_eq_ok] at h2 ⊢
        obtain ⟨r2, ⟨r3, h3, h4⟩, h5⟩ := h2
        refine ⟨r2, ⟨r3, h3, ?_⟩, h5⟩
        split at h4
        · simp at h4
        · rename_i hb'
          rw [if_neg hb']
          exact h4
      · rename_i hb
        rw [if_neg hb]
        exact h2
    have all : ∀ ds s r, drvsPass (ObjMap.create [a]) 2 ds s = .ok r → drvsPass (ObjMap.create [a]) (n + 2) ds s = .ok r := by
      intro ds
      induction ds with
      | nil => intro s r h; exact h
      | cons d ds ih =>
        intro s r h
        simp only [drvsPass, Drv.apply, Res.bind_eq_ok] at h ⊢
        obtain ⟨r1, ⟨l, h1, h2⟩, r2, h3, h4⟩ := h
        exact ⟨r1, ⟨l, h1, fix _ _ _ _ h2⟩, r2, ih _ _ h3, h4⟩
    exact all _ _ _ h
  have loop : ∀ n k, drvsFix (ObjMap.create [a]) (n + 2) ringTree.drvs k (State.ofList [⟨n!"p2", [n!"a"]⟩]) = .fuel ∧
      drvsFix (ObjMap.create [a]) (n + 2) ringTree.drvs k (State.ofList [⟨n!"p1", [n!"a"]⟩, ⟨n!"p3", [n!"a"]⟩]) = .fuel := by
    intro n k
    induction k with
    | zero => exact ⟨rfl, rfl⟩
    | succ k ih => exact ⟨by simp [drvsFix, more n _ _ flip, ih.2], by simp [drvsFix, more n _ _ flop, ih.1]⟩
  match fuel with
  | 0 => rfl
  | 1 => decide +kernel
  | n + 2 => simp [Pddl.derivedState, hd, hm, (loop n _).1]

end

/-- **C29, partial.** Rules that are not recursive (in any order, with any negation) and have distinct heads:
`DerivedState` returns for every State. -/
theorem C29_acyclic_terminates_partial [StrHash] (t : Ptree) (b : Bool) (fuel : Nat) (P : Pddl)
    (hP : Pddl.make t b fuel = .ok P) (hwf : ∀ d ∈ t.drvs, d.WF (t.constants ++ t.objects))
    (hn : ((t.constants ++ t.objects).map Obj.name).Nodup) (hh : (t.drvs.map Drv.head).Nodup) (rank : Name → Nat)
    (ha : Acyclic rank t.drvs) (N : Nat) (hN : ∀ d ∈ t.drvs, rank d.head < N) (s : State) (n : Nat) (hfuel : N + 2 ≤ n) :
    ∃ s', P.derivedState n s = .ok s' := by
  have B := Pddl.built hP
  have hd : P.drvs = t.drvs := by rw [Pddl.drvs, B.tree]
  obtain ⟨m, rfl⟩ : ∃ m, n = m + 2 := ⟨n - 2, by omega⟩
  obtain ⟨r, h⟩ := drvsFix_acyclic hwf hn hh ha hN m (m + 1) 0 s (by omega) (fun d _ h => by omega)
  exact ⟨r.2, by simp [Pddl.derivedState, hd, B.omap, h]⟩

/-- **C29, C30, partial.** Rules without negated derived predicates and with distinct heads (any recursion): from a State
without derived atoms, `DerivedState` returns the least model of the rules over its atoms. -/
theorem C30_positive_least_model_partial [StrHash] (t : Ptree) (b : Bool) (fuel : Nat) (P : Pddl)
    (hP : Pddl.make t b fuel = .ok P) (hwf : ∀ d ∈ t.drvs, d.WF (t.constants ++ t.objects))
    (hn : ((t.constants ++ t.objects).map Obj.name).Nodup) (hh : (t.drvs.map Drv.head).Nodup)
    (hp : Positive t.drvs) (s : State) (hs : ∀ x ∈ s, ¬ IsDerived (t.constants ++ t.objects) t.drvs x) :
    ∃ s' N, (∀ n, N ≤ n → P.derivedState n s = .ok s') ∧
      ∀ x, x ∈ s' ↔ LeastModel (t.constants ++ t.objects) t.drvs (· ∈ s) x := by
  have B := Pddl.built hP
  have hd : P.drvs = t.drvs := by rw [Pddl.drvs, B.tree]
  obtain ⟨U, hU⟩ := supported_bound hwf s
  have hst := Supported.start hs
  have run : ∀ n, U.length < n → ∃ r, drvsFix (ObjMap.create (t.constants ++ t.objects)) n t.drvs n s = .ok r ∧
      ∀ x, x ∈ r.2 ↔ LeastModel (t.constants ++ t.objects) t.drvs (· ∈ s) x := by
    intro n hlen
    obtain ⟨r, h1, h2⟩ := drvsFix_pos hn hh hp hwf hU hlen n s hst (by omega)
    refine ⟨r, h1, fun x => ⟨h2.supp.least x, fun hx => ?_⟩⟩
    obtain ⟨h3, -, -⟩ := drvsFix_ok hwf _ _ _ h1
    exact hx (· ∈ r.2) h2.supp.base (fun d hd os ho hb => (h3 d hd os ho).2 hb)
  obtain ⟨r, h1, h2⟩ := run (U.length + 1) (by omega)
  refine ⟨r.2, U.length + 1, fun n hle => ?_, h2⟩
  obtain ⟨r', h3, h4⟩ := run n (by omega)
  have : r'.2 = r.2 := by ext x; rw [h4, h2]
  simp [Pddl.derivedState, hd, B.omap, h3, this]

/-- **C29, partial**: such rules terminate from States without derived atoms. -/
theorem C29_positive_terminates_partial [StrHash] (t : Ptree) (b : Bool) (fuel : Nat) (P : Pddl)
    (hP : Pddl.make t b fuel = .ok P) (hwf : ∀ d ∈ t.drvs, d.WF (t.constants ++ t.objects))
    (hn : ((t.constants ++ t.objects).map Obj.name).Nodup) (hh : (t.drvs.map Drv.head).Nodup)
    (hp : Positive t.drvs) (s : State) (hs : ∀ x ∈ s, ¬ IsDerived (t.constants ++ t.objects) t.drvs x) :
    ∃ s' N, ∀ n, N ≤ n → P.derivedState n s = .ok s' := by
  obtain ⟨s', N, h, -⟩ := C30_positive_least_model_partial t b fuel P hP hwf hn hh hp s hs
  exact ⟨s', N, h⟩

/-! ## C30 -/

section
open Demo
attribute [local instance] lenHash

/-- `(:derived (reach ?x) (or (start ?x) (exists (?u) (and (edge ?u ?x) (reach ?u)))))`. -/
def reach : Drv where
  head := n!"reach"
  params := [x]
  body := .disj [.atom n!"start" [.var x], .ex [u] (.conj [.atom n!"edge" [.var u, .var x], .atom n!"reach" [.var u]])]

/-- `leave(?x)` deletes `(start ?x)`. -/
def leave : Op where
  name := n!"leave"
  params := [x]
  pre := .atom n!"start" [.var x]
  eff := .mk .nil [] [(n!"start", [.var x])] .nil

def reachTree : Ptree where
  types := some [tBox, tObj]
  constants := []
  objects := [a, b]
  ops := [leave]
  preds := [⟨n!"start", [x]⟩, ⟨n!"edge", [x, u]⟩, ⟨n!"reach", [x]⟩]
  drvs := [reach]
  init := []
  goal := .conj []

def startA (p : Obj) : Atom := ⟨n!"start", [p.name]⟩
def edgeA (p q : Obj) : Atom := ⟨n!"edge", [p.name, q.name]⟩
def reachA (p : Obj) : Atom := ⟨n!"reach", [p.name]⟩

/-- **C30, refuted.** Leaving the only start `a` of the cycle `a -> b -> a` keeps `reach(a)` and `reach(b)`, which
support each other; derived from the same base atoms without them, neither is true. -/
theorem C30_stale_facts_refuted :
    (do let P ← Pddl.make reachTree true 5
        let s ← P.derivedState 5 (State.ofList [startA a, edgeA a b, edgeA b a])
        P.nextState 5 s n!"leave(a)") = .ok (State.ofList [edgeA a b, edgeA b a, reachA a, reachA b]) ∧
    (do let P ← Pddl.make reachTree true 5
        P.derivedState 5 (State.ofList [edgeA a b, edgeA b a, reachA a, reachA b])) =
      .ok (State.ofList [edgeA a b, edgeA b a, reachA a, reachA b]) ∧
    (do let P ← Pddl.make reachTree true 5
        P.derivedState 5 (State.ofList [edgeA a b, edgeA b a])) = .ok (State.ofList [edgeA a b, edgeA b a]) := by
  refine ⟨?_, ?_, ?_⟩ <;> decide +kernel

end

/-- **C30, partial.** For rules that are not recursive, the derived state depends only on the atoms that are not derived
(whatever derived atoms the given States contain). Missing: recursive rules. -/
theorem C30_acyclic_depends_on_base_partial [StrHash] (t : Ptree) (b : Bool) (fuel : Nat) (P : Pddl)
    (hP : Pddl.make t b fuel = .ok P) (hwf : ∀ d ∈ t.drvs, d.WF (t.constants ++ t.objects)) (rank : Name → Nat)
    (ha : Acyclic rank t.drvs) (s₁ s₂ s₁' s₂' : State)
    (hs : SameBase (t.constants ++ t.objects) t.drvs (· ∈ s₁) (· ∈ s₂)) (n₁ n₂ : Nat)
    (h1 : P.derivedState n₁ s₁ = .ok s₁') (h2 : P.derivedState n₂ s₂ = .ok s₂') : s₁' = s₂' := by
  obtain ⟨f1, b1, -⟩ := C28_derived_state_is_fixpoint t b fuel P hP hwf s₁ s₁' n₁ h1
  obtain ⟨f2, b2, -⟩ := C28_derived_state_is_fixpoint t b fuel P hP hwf s₂ s₂' n₂ h2
  ext x
  exact fixpoint_unique ha f1 f2 (fun y hy => (b1 y hy).trans ((hs y hy).trans (b2 y hy).symm)) _ x (Nat.lt_succ_self _)

section
open Demo
attribute [local instance] lenHash

/-- The demo rule is not recursive. -/
example : Acyclic (fun _ => 0) tree.drvs := by
  intro d hd p n hm hh
  simp only [tree, List.mem_singleton] at hd
  subst hd
  obtain ⟨d', hd', rfl⟩ := hh
  simp only [tree, List.mem_singleton] at hd'
  subst hd'
  simp [busy, Goal.Mentions, Goal.MentionsL] at hm

/-- A rule with negation on top of it: `(free ?x) :- (not (busy ?x))`; and two States that differ in derived atoms. -/
def free : Drv := ⟨n!"free", [x], .neg (.atom n!"busy" [.var x])⟩

example : Acyclic (fun p => if p = n!"free" then 1 else 0) [free, busy] ∧ ([free, busy].map Drv.head).Nodup := by
  refine ⟨?_, by decide⟩
  intro d hd p n hm hh
  simp only [List.mem_cons, List.not_mem_nil, or_false] at hd
  rcases hd with rfl | rfl
  · simp only [free, Goal.Mentions] at hm
    rw [hm.1]
    decide
  · obtain ⟨d', hd', rfl⟩ := hh
    simp only [List.mem_cons, List.not_mem_nil, or_false] at hd'
    rcases hd' with rfl | rfl <;> simp [busy, free, Goal.Mentions, Goal.MentionsL] at hm

/-- Reachability is a positive recursive rule, and the State below has no derived atoms. -/
example : Positive reachTree.drvs ∧ (reachTree.drvs.map Drv.head).Nodup ∧
    ((reachTree.constants ++ reachTree.objects).map Obj.name).Nodup ∧
    (∀ d ∈ reachTree.drvs, d.WF (reachTree.constants ++ reachTree.objects)) ∧
    ∀ q ∈ State.ofList [startA a, edgeA a b, edgeA b a], ¬ IsDerived (reachTree.constants ++ reachTree.objects)
      reachTree.drvs q := by
  refine ⟨?_, by decide, by decide, ?_, ?_⟩
  · intro d hd
    simp only [reachTree, List.mem_singleton] at hd
    subst hd
    simp [reach, Goal.Polar, Goal.PolarL]
  · intro d hd
    simp only [reachTree, List.mem_singleton] at hd
    subst hd
    exact ⟨by simp [reach], by
      simp [reachTree, reach, Goal.WF, Goal.WFs, Term.Scoped, IsType, HasType, a, b, x, u, tBox]⟩
  · intro q hq
    rw [State.mem_ofList] at hq
    rintro ⟨d, hd, os, -, e⟩
    simp only [reachTree, List.mem_singleton] at hd
    subst hd
    simp only [List.mem_cons, List.not_mem_nil, or_false] at hq
    rcases hq with rfl | rfl | rfl <;> simp [startA, edgeA, Drv.atom, reach] at e

end

end Symbolic
