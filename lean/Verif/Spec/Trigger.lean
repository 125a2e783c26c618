import Verif.Model.Axiom
import Verif.Spec.Effects

/-!
# Specification: which axiom instances an added or deleted atom triggers

An axiom has a context literal. An instance of it is an assignment of its parameters; the instance is triggered by the
atom that is its context literal.
-/

namespace Symbolic

/-- The term stands for the object (objects are identified by name; a parameter is bound to the object itself). -/
def MatchTerm (env : Env) : Term → Obj → Prop
  | .var v, o => env v.name = some o
  | .const c, o => c.name = o.name

/-- The argument terms of the context literal. -/
def Op.ctx (op : Op) : List Term :=
  match op.pre with
  | .atom _ ts => ts
  | .neg (.atom _ ts) => ts
  | _ => []

/-- The axiom instance `as` has the context atom with arguments `os`. -/
def Op.Triggered (op : Op) (as os : List Obj) : Prop :=
  as.length = op.params.length ∧ List.Forall₂ (MatchTerm (Env.none.bind op.params as)) op.ctx os

/-- The variables among the terms. -/
def varNames : List Term → List Name
  | [] => []
  | .var v :: ts => v.name :: varNames ts
  | .const _ :: ts => varNames ts

/-- The context determines the instance: parameters have different names, each occurs exactly once in the context, and
constants are not called like parameters. -/
structure Op.Linear (op : Op) : Prop where
  nodup : (op.params.map Obj.name).Nodup
  inScope : ∀ t ∈ op.ctx, t.Scoped (op.params.map Obj.name)
  once : (varNames op.ctx).Nodup
  covers : ∀ p ∈ op.params, p.name ∈ varNames op.ctx

/-- Declared constants, bound variables, and the right number of arguments. -/
def ClosedLits (arity : Name → Nat) (objects : List Obj) (scope : List Name) (l : List (Name × List Term)) : Prop :=
  ∀ pred ts, (pred, ts) ∈ l → ts.length = arity pred ∧
    ∀ t ∈ ts, (∀ v, t = .var v → v.name ∈ scope) ∧ ∀ c, t = .const c → c ∈ objects

mutual
/-- Every literal of the effect is closed. -/
def Eff.Closed (arity : Name → Nat) (objects : List Obj) : List Name → Eff → Prop
  | scope, .mk fs adds dels cs =>
    FList.Closed arity objects scope fs ∧ ClosedLits arity objects scope adds ∧ ClosedLits arity objects scope dels ∧
      CList.Closed arity objects scope cs
def FList.Closed (arity : Name → Nat) (objects : List Obj) : List Name → FList → Prop
  | _, .nil => True
  | scope, .cons vars e rest =>
    Eff.Closed arity objects (scope ++ vars.map Obj.name) e ∧ FList.Closed arity objects scope rest
def CList.Closed (arity : Name → Nat) (objects : List Obj) : List Name → CList → Prop
  | _, .nil => True
  | scope, .cons _ e rest => Eff.Closed arity objects scope e ∧ CList.Closed arity objects scope rest
end

/-- Every parameter of the axiom occurs in its context. -/
structure Op.Covered (op : Op) : Prop where
  nodup : (op.params.map Obj.name).Nodup
  covers : ∀ p ∈ op.params, p.name ∈ varNames op.ctx

/-- Every effect of an axiom has a smaller rank than its context. -/
def Ranked (rank : Bool → Name → Nat) (axs : List Ax) : Prop :=
  ∀ ax ∈ axs, ∀ sign p, ax.op.eff.Touches sign p → rank sign p < rank ax.pos ax.pred

/-- All arguments are names of declared objects. -/
def Ground (objects : List Obj) (x : Atom) : Prop := ∃ os : List Obj, (∀ o ∈ os, o ∈ objects) ∧ x.args = os.map Obj.name

end Symbolic
