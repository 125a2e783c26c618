import Verif.Props.Derived
import Verif.Lemmas.StrataLow
import Verif.Lemmas.Returns

/-!
# C90: stratified rules
-/

namespace Symbolic

theorem stdModel_mem {objects : List Obj} {ds ds' : List Drv} (h : ∀ d, d ∈ ds ↔ d ∈ ds') {strat : Name → Nat}
    {S : Atom → Prop} (k : Nat) : StdModel objects ds strat S k = StdModel objects ds' strat S k := by
  have hd : ∀ {l l' : List Drv}, (∀ d, d ∈ l ↔ d ∈ l') → ∀ x, IsDerived objects l x ↔ IsDerived objects l' x := by
    intro l l' h x
    constructor
    · rintro ⟨d, hd, h'⟩; exact ⟨d, (h d).1 hd, h'⟩
    · rintro ⟨d, hd, h'⟩; exact ⟨d, (h d).2 hd, h'⟩
  induction k with
  | zero =>
    funext x
    show (S x ∧ _) = (S x ∧ _)
    rw [hd h x]
  | succ k ih =>
    funext x
    show LeastModel objects _ _ x = LeastModel objects _ _ x
    have hf : ∀ d, d ∈ ds.filter (fun d => strat d.head = k) ↔ d ∈ ds'.filter (fun d => strat d.head = k) := by
      intro d
      rw [List.mem_filter, List.mem_filter, h]
    rw [ih]
    refine propext (forall_congr' (fun M => ?_))
    have h1 : SameBase objects (ds.filter (fun d => strat d.head = k)) M (StdModel objects ds' strat S k) ↔
        SameBase objects (ds'.filter (fun d => strat d.head = k)) M (StdModel objects ds' strat S k) := by
      unfold SameBase
      exact forall_congr' (fun y => by rw [hd hf y])
    have h2 : ClosedUnder objects (ds.filter (fun d => strat d.head = k)) M ↔
        ClosedUnder objects (ds'.filter (fun d => strat d.head = k)) M := by
      unfold ClosedUnder
      exact forall_congr' (fun d => by rw [hf d])
    rw [h1, h2]

theorem derivedState_more [StrHash] (P : Pddl) (s s' : State) {n k : Nat} (h : n ≤ k) (hr : P.derivedState n s = .ok s') :
    P.derivedState k s = .ok s' := by
  induction k, h using Nat.le_induction with
  | base => exact hr
  | succ k _ ih =>
    have hle : (P.derivedState k s).Le (P.derivedState (k + 1) s) := by
      simp only [Pddl.derivedState]
      exact (drvsFix_mono _ _ k k s).bind fun _ => .refl _
    rcases hle with h | h
    · rw [h] at ih; simp at ih
    · rw [h]; exact ih

/-- **C90, partial.** Rules that are declared in the order of their strata, each rule a stratum of its own (so heads are
distinct; a rule may mention its own head positively, and those before it in any way): from a State without derived atoms,
`DerivedState` returns the standard model. Missing: other orders, rules that are mutually recursive. -/
theorem C90_in_order_partial [StrHash] (t : Ptree) (b : Bool) (fuel : Nat) (P : Pddl)
    (hP : Pddl.make t b fuel = .ok P) (hwf : ∀ d ∈ t.drvs, d.WF (t.constants ++ t.objects))
    (hn : ((t.constants ++ t.objects).map Obj.name).Nodup) (strat : Name → Nat) (hst : Stratified strat t.drvs)
    (hord : InOrder strat t.drvs) (N : Nat) (hN : ∀ d ∈ t.drvs, strat d.head < N) (s : State)
    (hs : ∀ x ∈ s, ¬ IsDerived (t.constants ++ t.objects) t.drvs x) :
    ∃ s' K, (∀ n, K ≤ n → P.derivedState n s = .ok s') ∧
      ∀ x, x ∈ s' ↔ StdModel (t.constants ++ t.objects) t.drvs strat (· ∈ s) N x := by
  have B := Pddl.built hP
  have hd : P.drvs = t.drvs := by rw [Pddl.drvs, B.tree]
  obtain ⟨s', K, h1, h2, h3, h4⟩ := drvsFix_inOrder hwf hn hst hord hs
  refine ⟨s', K + 2, fun n hle => ?_, fun x => ?_⟩
  · obtain ⟨f, h5⟩ := h1 n n (by omega) (by omega)
    simp [Pddl.derivedState, hd, B.omap, h5]
  · rw [stdModel_eq hst h3 h2 h4]
    refine ⟨fun h => ⟨h, ?_⟩, fun h => h.1⟩
    rintro ⟨d, hd', os, -, rfl⟩
    exact hN d hd'

/-- **C90, partial.** Rules in any order, with distinct heads, of which only the lowest are recursive (positively, each with
any other) and the others use and negate what is below them: from a State without derived atoms of the lowest rules (there may
be others), `DerivedState` returns the standard model. Missing: recursion above a negation. -/
theorem C90_low_recursion_partial [StrHash] (t : Ptree) (b : Bool) (fuel : Nat) (P : Pddl)
    (hP : Pddl.make t b fuel = .ok P) (hwf : ∀ d ∈ t.drvs, d.WF (t.constants ++ t.objects))
    (hn : ((t.constants ++ t.objects).map Obj.name).Nodup) (hh : (t.drvs.map Drv.head).Nodup) (rank : Name → Nat)
    (hl : LowRecursion rank t.drvs) (N : Nat) (hN : ∀ d ∈ t.drvs, rank d.head < N) (s : State)
    (hs : ∀ x ∈ s, IsDerived (t.constants ++ t.objects) t.drvs x → rank x.pred ≠ 0) :
    ∃ s' K, (∀ n, K ≤ n → P.derivedState n s = .ok s') ∧
      ∀ x, x ∈ s' ↔ StdModel (t.constants ++ t.objects) t.drvs rank (· ∈ s) N x := by
  have B := Pddl.built hP
  have hd : P.drvs = t.drvs := by rw [Pddl.drvs, B.tree]
  obtain ⟨K, h1⟩ := drvsFix_lowRecursion hwf hn hh hl hN hs
  have std : ∀ n, K ≤ n → ∃ r, drvsFix (ObjMap.create (t.constants ++ t.objects)) n t.drvs n s = .ok r ∧
      ∀ x, x ∈ r.2 ↔ StdModel (t.constants ++ t.objects) t.drvs rank (· ∈ s) N x := by
    intro n hle
    obtain ⟨r, h2, h3, h4, h5⟩ := h1 n hle
    refine ⟨r, h2, fun x => ?_⟩
    rw [stdModel_eq hl.stratified h4 h3 h5]
    refine ⟨fun h => ⟨h, ?_⟩, fun h => h.1⟩
    rintro ⟨d, hd', os, -, rfl⟩
    exact hN d hd'
  obtain ⟨r, h2, h3⟩ := std K le_rfl
  refine ⟨r.2, K, fun n hle => ?_, h3⟩
  obtain ⟨r', h4, h5⟩ := std n hle
  have : r'.2 = r.2 := by ext x; rw [h5, h3]
  simp [Pddl.derivedState, hd, B.omap, h4, this]

/-- **C30, partial.** For such rules, two States that agree on the atoms that are not derived and have none of the lowest rules
have the same derived State. -/
theorem C30_low_recursion_partial [StrHash] (t : Ptree) (b : Bool) (fuel : Nat) (P : Pddl)
    (hP : Pddl.make t b fuel = .ok P) (hwf : ∀ d ∈ t.drvs, d.WF (t.constants ++ t.objects))
    (hn : ((t.constants ++ t.objects).map Obj.name).Nodup) (hh : (t.drvs.map Drv.head).Nodup) (rank : Name → Nat)
    (hl : LowRecursion rank t.drvs) (s₁ s₂ : State)
    (hs₁ : ∀ x ∈ s₁, IsDerived (t.constants ++ t.objects) t.drvs x → rank x.pred ≠ 0)
    (hs₂ : ∀ x ∈ s₂, IsDerived (t.constants ++ t.objects) t.drvs x → rank x.pred ≠ 0)
    (hs : SameBase (t.constants ++ t.objects) t.drvs (· ∈ s₁) (· ∈ s₂)) :
    ∃ s' K, ∀ n, K ≤ n → P.derivedState n s₁ = .ok s' ∧ P.derivedState n s₂ = .ok s' := by
  obtain ⟨N, hN⟩ : ∃ N, ∀ d ∈ t.drvs, rank d.head < N := by
    have : ∀ l : List Drv, ∃ N, ∀ d ∈ l, rank d.head < N := by
      intro l
      induction l with
      | nil => exact ⟨0, by simp⟩
      | cons d l ih =>
        obtain ⟨N, hN⟩ := ih
        refine ⟨max (rank d.head + 1) N, ?_⟩
        intro e he
        rcases List.mem_cons.1 he with rfl | he
        · omega
        · have := hN e he; omega
    exact this _
  obtain ⟨s1, K1, h1, h2⟩ := C90_low_recursion_partial t b fuel P hP hwf hn hh rank hl N hN s₁ hs₁
  obtain ⟨s2, K2, h3, h4⟩ := C90_low_recursion_partial t b fuel P hP hwf hn hh rank hl N hN s₂ hs₂
  have base : ∀ k, StdModel (t.constants ++ t.objects) t.drvs rank (· ∈ s₁) k =
      StdModel (t.constants ++ t.objects) t.drvs rank (· ∈ s₂) k := by
    intro k
    induction k with
    | zero =>
      funext x
      refine propext ⟨?_, ?_⟩
      · rintro ⟨ha, hb⟩; exact ⟨(hs x hb).1 ha, hb⟩
      · rintro ⟨ha, hb⟩; exact ⟨(hs x hb).2 ha, hb⟩
    | succ k ih =>
      show LeastModel _ _ _ = LeastModel _ _ _
      rw [ih]
  have e : s1 = s2 := by ext x; rw [h2, h4, base]
  subst e
  exact ⟨s1, max K1 K2, fun n hle => ⟨h1 n (by omega), h3 n (by omega)⟩⟩

section
open Demo
attribute [local instance] lenHash

/-! ### A domain with negation below recursion -/

/-- `(:derived (safe ?x) (guard ?x))`. -/
def safe : Drv := ⟨n!"safe", [x], .atom n!"guard" [.var x]⟩

/-- `(:derived (risky ?x) (or (not (safe ?x)) (exists (?u) (and (edge ?x ?u) (risky ?u)))))`. -/
def risky : Drv where
  head := n!"risky"
  params := [x]
  body := .disj [.neg (.atom n!"safe" [.var x]),
    .ex [u] (.conj [.atom n!"edge" [.var x, .var u], .atom n!"risky" [.var u]])]

def riskTree (ds : List Drv) : Ptree where
  types := some [tBox, tObj]
  constants := []
  objects := [a, b]
  ops := []
  preds := [⟨n!"guard", [x]⟩, ⟨n!"edge", [x, u]⟩, ⟨n!"safe", [x]⟩, ⟨n!"risky", [x]⟩]
  drvs := ds
  init := []
  goal := .conj []

def guardA (p : Obj) : Atom := ⟨n!"guard", [p.name]⟩
def safeA (p : Obj) : Atom := ⟨n!"safe", [p.name]⟩
def riskyA (p : Obj) : Atom := ⟨n!"risky", [p.name]⟩

/-- `safe` is below `risky`. -/
def riskStrat (p : Name) : Nat := if p = n!"risky" then 1 else 0

theorem risk_stratified {ds : List Drv} (h : ∀ d ∈ ds, d = safe ∨ d = risky) : Stratified riskStrat ds := by
  intro d hd
  rcases h d hd with rfl | rfl
  · simp only [safe, Goal.Polar]
    rintro ⟨e, he, hh⟩
    rcases h e he with rfl | rfl <;> revert hh <;> decide
  · simp only [risky, Goal.Polar, Goal.PolarL, and_true]
    refine ⟨fun _ => by decide, fun _ => by decide, fun _ => by decide⟩

theorem risk_wf {ds : List Drv} (h : ∀ d ∈ ds, d = safe ∨ d = risky) :
    ∀ d ∈ (riskTree ds).drvs, d.WF ((riskTree ds).constants ++ (riskTree ds).objects) := by
  intro d hd
  rcases h d hd with rfl | rfl
  · exact ⟨by simp [safe], by simp [riskTree, safe, Goal.WF, Term.Scoped, IsType, HasType, a, b, x, u, tBox]⟩
  · exact ⟨by simp [risky], by simp [riskTree, risky, Goal.WF, Goal.WFs, Term.Scoped, IsType, HasType, a, b, x, u, tBox]⟩

/-- Everything is guarded; there are edges both ways. -/
def riskState : State := State.ofList [guardA a, guardA b, edgeA a b, edgeA b a]

theorem risk_base {ds : List Drv} (h : ∀ d ∈ ds, d = safe ∨ d = risky) :
    ∀ q ∈ riskState, ¬ IsDerived ((riskTree ds).constants ++ (riskTree ds).objects) ds q := by
  intro q hq
  rw [riskState, State.mem_ofList] at hq
  rintro ⟨d, hd, os, -, e⟩
  simp only [List.mem_cons, List.not_mem_nil, or_false] at hq
  rcases h d hd with rfl | rfl <;> rcases hq with rfl | rfl | rfl | rfl <;>
    simp [guardA, edgeA, Drv.atom, safe, risky] at e

theorem riskMade1 : (Pddl.make (riskTree [safe, risky]) true 5).isOk = true := by decide +kernel

/-- With the rules in the order of their strata the hypotheses are met, and nothing is risky. -/
theorem risk_in_order : (∀ q ∈ State.ofList [guardA a, guardA b, edgeA a b, edgeA b a, safeA a, safeA b],
      StdModel [a, b] [safe, risky] riskStrat (· ∈ riskState) 2 q) ∧
    ∀ q, StdModel [a, b] [safe, risky] riskStrat (· ∈ riskState) 2 q →
      q ∈ State.ofList [guardA a, guardA b, edgeA a b, edgeA b a, safeA a, safeA b] := by
  have hall : ∀ d ∈ [safe, risky], d = safe ∨ d = risky := by simp
  obtain ⟨s', K, h1, h2⟩ := C90_in_order_partial (riskTree [safe, risky]) true 5 (get _ riskMade1) (get_eq _ _)
    (risk_wf hall) (by decide) riskStrat (risk_stratified hall)
    (by
      show List.Pairwise _ [safe, risky]
      simp only [List.pairwise_cons, List.mem_singleton, forall_eq, List.not_mem_nil, false_imp_iff, implies_true,
        List.Pairwise.nil, and_true]
      decide) 2
    (by intro d hd; rcases hall d hd with rfl | rfl <;> decide) riskState (risk_base hall)
  have h3 : (get _ riskMade1).derivedState 5 riskState =
      .ok (State.ofList [guardA a, guardA b, edgeA a b, edgeA b a, safeA a, safeA b]) := by decide +kernel
  have e : s' = State.ofList [guardA a, guardA b, edgeA a b, edgeA b a, safeA a, safeA b] := by
    have hm : (get _ riskMade1).derivedState (max K 5) riskState = .ok s' := h1 _ (by omega)
    have := derivedState_more _ _ _ (k := max K 5) (by omega) h3
    rw [hm, Res.ok.injEq] at this
    exact this
  subst e
  exact ⟨fun q hq => (h2 q).1 hq, fun q hq => (h2 q).2 hq⟩

theorem riskMade2 : (Pddl.make (riskTree [risky, safe]) true 5).isOk = true := by decide +kernel

/-- **C90, refuted.** The same rules, declared the other way round: when `risky` is evaluated for the first time nothing is
known to be safe, so that everything is risky; later `risky(a)` and `risky(b)` support each other. In the standard model
nothing is risky. -/
theorem C90_stratified_refuted : ∃ P, Pddl.make (riskTree [risky, safe]) true 5 = .ok P ∧
    Stratified riskStrat [risky, safe] ∧ ([risky, safe].map Drv.head).Nodup ∧
    (∀ q ∈ riskState, ¬ IsDerived [a, b] [risky, safe] q) ∧
    P.derivedState 5 riskState =
      .ok (State.ofList [guardA a, guardA b, edgeA a b, edgeA b a, safeA a, safeA b, riskyA a, riskyA b]) ∧
    ¬ StdModel [a, b] [risky, safe] riskStrat (· ∈ riskState) 2 (riskyA a) := by
  have hall : ∀ d ∈ [risky, safe], d = safe ∨ d = risky := by simp
  refine ⟨get _ riskMade2, get_eq _ _, risk_stratified hall, by decide, risk_base hall, by decide +kernel, ?_⟩
  rw [stdModel_mem (ds' := [safe, risky]) (by simp [or_comm])]
  intro h
  have := risk_in_order.2 _ h
  revert this
  decide +kernel

/-- Reachability with a negation on top, `(lost ?x) :- (not (reach ?x))`, declared first. -/
def lost : Drv := ⟨n!"lost", [x], .neg (.atom n!"reach" [.var x])⟩

example : LowRecursion (fun p => if p = n!"lost" then 1 else 0) [lost, reach] ∧ ([lost, reach].map Drv.head).Nodup := by
  refine ⟨⟨?_, ?_⟩, by decide⟩
  · intro d hd h0
    simp only [List.mem_cons, List.not_mem_nil, or_false] at hd
    rcases hd with rfl | rfl
    · exact absurd h0 (by decide)
    · simp only [reach, Goal.Polar, Goal.PolarL, and_true]
      refine ⟨fun _ => by decide, fun _ => by decide, fun _ => by decide⟩
  · intro d hd h0 p n hm _
    simp only [List.mem_cons, List.not_mem_nil, or_false] at hd
    rcases hd with rfl | rfl
    · simp only [lost, Goal.Mentions] at hm
      rw [hm.1]
      decide
    · exact absurd (by decide) h0

/-- The State has a stale atom of the upper rule. -/
example : (do let P ← Pddl.make { reachTree with drvs := [lost, reach], preds := ⟨n!"lost", [x]⟩ :: reachTree.preds } true 5
              P.derivedState 6 (State.ofList [startA a, edgeA a b, ⟨n!"lost", [n!"b"]⟩])) =
    .ok (State.ofList [startA a, edgeA a b, reachA a, reachA b]) := by decide +kernel

end

end Symbolic
