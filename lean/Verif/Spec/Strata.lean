import Verif.Spec.Derived

/-!
# Specification: stratified rules

The textbook semantics of derived predicates with negation (PDDL 2.2): predicates are put into strata such that rules use
predicates of their own stratum only positively and negate only predicates of lower strata. The strata are
evaluated one after the other, each with the least model of its rules.
-/

namespace Symbolic

/-- `strat` puts derived predicates into strata: bodies mention only derived predicates that are not higher, and negate only
lower ones. -/
def Stratified (strat : Name → Nat) (ds : List Drv) : Prop :=
  ∀ d ∈ ds, d.body.Polar (fun p => IsHead ds p → strat p ≤ strat d.head) (fun p => IsHead ds p → strat p < strat d.head)

/-- The model of the first `k` strata over the atoms of `S` that are not derived. -/
def StdModel (objects : List Obj) (ds : List Drv) (strat : Name → Nat) (S : Atom → Prop) : Nat → Atom → Prop
  | 0 => fun x => S x ∧ ¬ IsDerived objects ds x
  | k + 1 => LeastModel objects (ds.filter (fun d => strat d.head = k)) (StdModel objects ds strat S k)

/-- The strata of the rules are in the order of the rules, and no two rules are in the same. -/
def InOrder (strat : Name → Nat) (ds : List Drv) : Prop :=
  ds.Pairwise (fun d e => strat d.head < strat e.head)

/-- Recursion only in the lowest stratum, negation of derived predicates only above. -/
structure LowRecursion (rank : Name → Nat) (ds : List Drv) : Prop where
  low : ∀ d ∈ ds, rank d.head = 0 →
    d.body.Polar (fun p => IsHead ds p → rank p = 0) (fun p => ¬ IsHead ds p)
  high : ∀ d ∈ ds, rank d.head ≠ 0 → ∀ p n, d.body.Mentions p n → IsHead ds p → rank p < rank d.head

end Symbolic
