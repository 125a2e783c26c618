import Verif.Spec.Axioms

/-!
# Specification: axioms whose triggered instances are well typed

When an effect changes an atom, the library runs the axioms whose context matches the atom without looking at parameter
types. The conditions here say that this makes no difference: every predicate has a signature, effects only produce
atoms that respect it, and the parameters of an axiom are declared at least as wide as the signature of its context.
-/

namespace Symbolic

/-- The objects respect the signature. -/
def Respects (objects : List Obj) (types : List Name) (os : List Obj) : Prop :=
  List.Forall₂ (fun t o => o ∈ objects ∧ HasType o t) types os

/-- Instances of the literals respect the signatures. `=` and type names need none. -/
def LitsTyped (objects : List Obj) (sig : Name → List Name) (env : Env) (l : List (Name × List Term)) : Prop :=
  ∀ pred ts, (pred, ts) ∈ l → pred ≠ n!"=" → ¬ IsType objects pred → ∀ os, List.Forall₂ (Denotes env) ts os →
    Respects objects (sig pred) os

mutual
/-- All instances of all literals of the effect respect the signatures. -/
def Eff.Typed (objects : List Obj) (sig : Name → List Name) : Env → Eff → Prop
  | env, .mk fs adds dels cs =>
    FList.Typed objects sig env fs ∧ LitsTyped objects sig env adds ∧ LitsTyped objects sig env dels ∧
      CList.Typed objects sig env cs
def FList.Typed (objects : List Obj) (sig : Name → List Name) : Env → FList → Prop
  | _, .nil => True
  | env, .cons vars e rest =>
    (∀ os, WellTyped objects vars os → Eff.Typed objects sig (env.bind vars os) e) ∧ FList.Typed objects sig env rest
def CList.Typed (objects : List Obj) (sig : Name → List Name) : Env → CList → Prop
  | _, .nil => True
  | env, .cons _ e rest => Eff.Typed objects sig env e ∧ CList.Typed objects sig env rest
end

mutual
/-- Variables bound in the effect have names of their own. -/
def Eff.Fresh : List Name → Eff → Prop
  | scope, .mk fs _ _ cs => FList.Fresh scope fs ∧ CList.Fresh scope cs
def FList.Fresh : List Name → FList → Prop
  | _, .nil => True
  | scope, .cons vars e rest =>
    (scope ++ vars.map Obj.name).Nodup ∧ Eff.Fresh (scope ++ vars.map Obj.name) e ∧ FList.Fresh scope rest
def CList.Fresh : List Name → CList → Prop
  | _, .nil => True
  | scope, .cons _ e rest => Eff.Fresh scope e ∧ CList.Fresh scope rest
end

/-- The predicate of the context literal. -/
def Op.ctxPred (op : Op) : Name :=
  match op.pre with
  | .atom p _ => p
  | .neg (.atom p _) => p
  | _ => []

/-- An axiom that agrees with the signatures. -/
structure Op.Sorted (objects : List Obj) (sig : Name → List Name) (op : Op) : Prop where
  formed : op.Formed objects
  linear : op.Linear
  fresh : op.eff.Fresh (op.params.map Obj.name)
  /-- What the axiom says is about atoms that respect the signatures. -/
  eff : ∀ as, WellTyped objects op.params as → op.eff.Typed objects sig (Env.none.bind op.params as)
  arity : op.ctx.length = (sig op.ctxPred).length
  /-- The parameters are declared at least as wide as the signature of the context. -/
  wide : ∀ as os, Respects objects (sig op.ctxPred) os → op.Triggered as os → WellTyped objects op.params as

/-- All axioms of the domain. -/
def AxiomsSorted (objects : List Obj) (sig : Name → List Name) (ops : List Op) : Prop :=
  ∀ op ∈ ops, op.isAxiom = true → op.Sorted objects sig ∧ ∀ c, op.pre.HasConst c → c ∈ objects

end Symbolic
