import Verif.Spec.Satisfaction

/-!
# Specification: derived predicates

Rules `head(params) :- body`. States are predicates on atoms.
-/

namespace Symbolic

/-- The body of the rule holds in `S` for the arguments `os`. -/
def Drv.Holds (objects : List Obj) (d : Drv) (S : Atom → Prop) (os : List Obj) : Prop :=
  Sat objects S (Env.none.bind d.params os) d.body

/-- The head atom of the rule for the arguments `os`. -/
def Drv.atom (d : Drv) (os : List Obj) : Atom := ⟨d.head, os.map Obj.name⟩

/-- A rule with parameters and a well-formed body. -/
structure Drv.WF (objects : List Obj) (d : Drv) : Prop where
  params : d.params ≠ []
  body : d.body.WF objects (d.params.map Obj.name)

/-- `x` is the head of a well-typed instance of some rule. -/
def IsDerived (objects : List Obj) (ds : List Drv) (x : Atom) : Prop :=
  ∃ d ∈ ds, ∃ os, WellTyped objects d.params os ∧ x = d.atom os

/-- For every rule and every well-typed argument list, the head is true iff the body is. -/
def Fixpoint (objects : List Obj) (ds : List Drv) (S : Atom → Prop) : Prop :=
  ∀ d ∈ ds, ∀ os, WellTyped objects d.params os → (S (d.atom os) ↔ d.Holds objects S os)

/-- `S` and `T` agree on the atoms that no rule derives. -/
def SameBase (objects : List Obj) (ds : List Drv) (S T : Atom → Prop) : Prop :=
  ∀ x, ¬ IsDerived objects ds x → (S x ↔ T x)

/-- Every rule true in `M` has its head in `M`. -/
def ClosedUnder (objects : List Obj) (ds : List Drv) (M : Atom → Prop) : Prop :=
  ∀ d ∈ ds, ∀ os, WellTyped objects d.params os → d.Holds objects M os → M (d.atom os)

/-- The textbook meaning of the rules: the least set with the base atoms of `S` that is closed under the rules. -/
def LeastModel (objects : List Obj) (ds : List Drv) (S : Atom → Prop) (x : Atom) : Prop :=
  ∀ M : Atom → Prop, SameBase objects ds M S → ClosedUnder objects ds M → M x

mutual
/-- Predicates that occur positively in the formula satisfy `up`, those that occur negatively `dn`. -/
def Goal.Polar : (up dn : Name → Prop) → Goal → Prop
  | up, _, .atom pred _ => up pred
  | up, dn, .conj gs => Goal.PolarL up dn gs
  | up, dn, .disj gs => Goal.PolarL up dn gs
  | up, dn, .neg g => Goal.Polar dn up g
  | up, dn, .all _ g => Goal.Polar up dn g
  | up, dn, .ex _ g => Goal.Polar up dn g
  | _, _, .other => True
def Goal.PolarL : (up dn : Name → Prop) → List Goal → Prop
  | _, _, [] => True
  | up, dn, g :: gs => Goal.Polar up dn g ∧ Goal.PolarL up dn gs
end

/-- `p` is the head of some rule. -/
def IsHead (ds : List Drv) (p : Name) : Prop := ∃ d ∈ ds, d.head = p

/-- No rule depends on the negation of a derived predicate. -/
def Positive (ds : List Drv) : Prop := ∀ d ∈ ds, d.body.Polar (fun _ => True) (fun p => ¬ IsHead ds p)

/-- The rules are not recursive: the derived predicates can be ranked such that bodies only mention smaller ones. -/
def Acyclic (rank : Name → Nat) (ds : List Drv) : Prop :=
  ∀ d ∈ ds, ∀ p n, d.body.Mentions p n → IsHead ds p → rank p < rank d.head

end Symbolic
