import Verif.Spec.WellFormed
import Verif.Spec.Trigger

/-!
# Specification: which domains the constructor accepts
-/

namespace Symbolic

mutual
/-- Only atoms, conjunctions, disjunctions, negations and quantifiers. -/
def Goal.Supported : Goal → Prop
  | .atom _ _ => True
  | .conj gs => Goal.SupportedAll gs
  | .disj gs => Goal.SupportedAll gs
  | .neg g => Goal.Supported g
  | .all _ g => Goal.Supported g
  | .ex _ g => Goal.Supported g
  | .other => False
def Goal.SupportedAll : List Goal → Prop
  | [] => True
  | g :: gs => Goal.Supported g ∧ Goal.SupportedAll gs
end

mutual
/-- The conditions of conditional effects are supported. -/
def Eff.Supported : Eff → Prop
  | .mk fs _ _ cs => FList.Supported fs ∧ CList.Supported cs
def FList.Supported : FList → Prop
  | .nil => True
  | .cons _ e rest => Eff.Supported e ∧ FList.Supported rest
def CList.Supported : CList → Prop
  | .nil => True
  | .cons g e rest => g.Supported ∧ Eff.Supported e ∧ CList.Supported rest
end

mutual
/-- The predicate occurs with `k` arguments in an add effect (`sign`) or a delete effect. -/
def Eff.Writes (sign : Bool) : Eff → Name → Nat → Prop
  | .mk fs adds dels cs, p, k =>
    FList.Writes sign fs p k ∨ (sign = true ∧ ∃ ts, (p, ts) ∈ adds ∧ ts.length = k) ∨
      (sign = false ∧ ∃ ts, (p, ts) ∈ dels ∧ ts.length = k) ∨ CList.Writes sign cs p k
def FList.Writes (sign : Bool) : FList → Name → Nat → Prop
  | .nil, _, _ => False
  | .cons _ e rest, p, k => Eff.Writes sign e p k ∨ FList.Writes sign rest p k
def CList.Writes (sign : Bool) : CList → Name → Nat → Prop
  | .nil, _, _ => False
  | .cons _ e rest, p, k => Eff.Writes sign e p k ∨ CList.Writes sign rest p k
end

/-- A positive or negative literal with these terms. -/
def Goal.IsLiteral (g : Goal) (sign : Bool) (p : Name) (ts : List Term) : Prop :=
  (sign = true ∧ g = .atom p ts) ∨ (sign = false ∧ g = .neg (.atom p ts))

/-- The atom is true whatever the state and the arguments are: it equates a term with itself, or tests for a type that
the term is declared to have. The parameters stand for themselves. -/
def AlwaysTrue (objects params : List Obj) (p : Name) (ts : List Term) : Prop :=
  (p = n!"=" ∧ ∃ o, List.Forall₂ (Denotes (Env.none.bind params params)) ts [o, o]) ∨
    (p ≠ n!"=" ∧ IsType objects p ∧ ∃ o, List.Forall₂ (Denotes (Env.none.bind params params)) ts [o] ∧ HasType o p)

/-- What the domain must satisfy to be constructed at all. -/
structure Ptree.Constructible (t : Ptree) : Prop where
  /-- There is a predicate. -/
  preds : t.preds ≠ []
  /-- Preconditions and conditions of operators are supported. -/
  ops : ∀ op ∈ t.ops, op.pre.Supported ∧ op.eff.Supported
  /-- So are the bodies of derived predicates -/
  drvs : ∀ d ∈ t.drvs, d.body.Supported
  /-- and the goal. -/
  goal : t.goal.Supported
  /-- The condition of an axiom is a literal. -/
  contexts : ∀ op ∈ t.ops, op.isAxiom = true → ∃ sign p ts, op.pre.IsLiteral sign p ts
  /-- It does not deny what is always true. -/
  possible : ∀ op ∈ t.ops, op.isAxiom = true → ∀ p ts, op.pre = .neg (.atom p ts) →
    ¬ AlwaysTrue (t.constants ++ t.objects) op.params p ts
  /-- The effects of an axiom do not add and delete the same atom; its parameters stand for themselves. -/
  conflictFree : ∀ op ∈ t.ops, op.isAxiom = true →
    ConflictFree (t.constants ++ t.objects) (fun _ => False) (Env.none.bind op.params op.params) op.eff

/-- What VAL checks in domains and problems, as far as construction depends on it: names are unique, `=` is not a type,
contexts of axioms are well-formed, and a predicate has as many arguments in effects as in the contexts of axioms (here: not more).
The effects of axioms are assumed to be unconditional, and their parameters not to be called like objects. -/
structure Ptree.ContextsFit (t : Ptree) : Prop where
  names : ((t.constants ++ t.objects).map Obj.name).Nodup
  contexts : ∀ op ∈ t.ops, op.isAxiom = true → (∃ sign p ts, op.pre.IsLiteral sign p ts) →
    op.pre.WF (t.constants ++ t.objects) (op.params.map Obj.name) ∧
      ∀ c, op.pre.HasConst c → c ∈ t.constants ++ t.objects
  arities : ∀ op ∈ t.ops, ∀ sign p k, op.eff.Writes sign p k → ∀ ax ∈ t.ops, ax.isAxiom = true →
    ∀ ts, ax.pre.IsLiteral sign p ts → k ≤ ts.length
  eqNoType : ¬ IsType (t.constants ++ t.objects) n!"="
  params : ∀ op ∈ t.ops, op.isAxiom = true → ((op.params ++ (t.constants ++ t.objects)).map Obj.name).Nodup
  effects : ∀ op ∈ t.ops, op.isAxiom = true →
    op.eff.WF (t.constants ++ t.objects) (op.params.map Obj.name) ∧ op.eff.NoCond

end Symbolic
