import Verif.Spec.Partial
import Verif.Spec.StateIndex
import Verif.Spec.WellFormed

/-!
# Specification: domains that pass a type checker

A type hierarchy, variables and constants that fit the declarations of the predicates they are arguments of, and axioms
whose parameters are declared as wide as the predicate of their context.
-/

namespace Symbolic

/-- `up T` lists the type `T` and the types above it. -/
structure Hierarchy (up : Name → List Name) : Prop where
  trans : ∀ T T' T'', T' ∈ up T → T'' ∈ up T' → T'' ∈ up T
  root : ∀ T ∈ up n!"object", T = n!"object"

/-- The symbol has no type, or the chain of its type. -/
def Obj.Fits (up : Name → List Name) (o : Obj) : Prop := o.types = [] ∨ o.types = up o.typeName

/-- The atom is an instance, over the declared objects, of a declared predicate. -/
def Declared (objects : List Obj) (preds : List PredDecl) (x : Atom) : Prop :=
  ∃ d ∈ preds, ∃ os, WellTyped objects d.params os ∧ x = Atom.ofObjs d.name os

/-- The term may stand where a `T` is expected. -/
def Term.IsA (objects scope : List Obj) (T : Name) : Term → Prop
  | .var v => ∃ w ∈ scope, w.name = v.name ∧ HasType w T
  | .const c => c ∈ objects ∧ HasType c T

/-- Every literal fits the declaration of its predicate. -/
def LitsChecked (objects : List Obj) (preds : List PredDecl) (scope : List Obj) (l : List (Name × List Term)) : Prop :=
  ∀ pred ts, (pred, ts) ∈ l → pred ≠ n!"=" → ¬ IsType objects pred →
    ∃ d ∈ preds, d.name = pred ∧ List.Forall₂ (fun p t => t.IsA objects scope p.typeName) d.params ts

mutual
/-- Every literal of the effect fits; universal variables have types of the hierarchy. -/
def Eff.Checked (up : Name → List Name) (objects : List Obj) (preds : List PredDecl) : List Obj → Eff → Prop
  | scope, .mk fs adds dels cs =>
    FList.Checked up objects preds scope fs ∧ LitsChecked objects preds scope adds ∧
      LitsChecked objects preds scope dels ∧ CList.Checked up objects preds scope cs
def FList.Checked (up : Name → List Name) (objects : List Obj) (preds : List PredDecl) : List Obj → FList → Prop
  | _, .nil => True
  | scope, .cons vars e rest =>
    (∀ v ∈ vars, v.Fits up) ∧ Eff.Checked up objects preds (scope ++ vars) e ∧ FList.Checked up objects preds scope rest
def CList.Checked (up : Name → List Name) (objects : List Obj) (preds : List PredDecl) : List Obj → CList → Prop
  | _, .nil => True
  | scope, .cons _ e rest => Eff.Checked up objects preds scope e ∧ CList.Checked up objects preds scope rest
end

/-- A parameter of the axiom accepts every object that the predicate of the context accepts at its place. -/
def Op.Wide (preds : List PredDecl) (op : Op) : Prop :=
  ∃ d ∈ preds, d.name = op.ctxPred ∧ List.Forall₂ (fun p t => ∀ v, t = Term.var v →
    ∀ w ∈ op.params, w.name = v.name → HasType p w.typeName) d.params op.ctx

/-- What is required of an action or axiom. -/
structure Op.Checked (up : Name → List Name) (objects : List Obj) (preds : List PredDecl) (op : Op) : Prop where
  names : (op.params.map Obj.name).Nodup
  fits : ∀ p ∈ op.params, p.Fits up
  formed : op.eff.Formed objects (op.params.map Obj.name)
  fresh : op.eff.Fresh (op.params.map Obj.name)
  eff : op.eff.Checked up objects preds op.params
  axiom_ : op.isAxiom = true → op.params ≠ [] ∧ op.pre.WF objects (op.params.map Obj.name) ∧ op.Linear ∧
    op.Wide preds

/-- A domain and problem that pass the type checker. -/
structure Ptree.TypeChecked (t : Ptree) (up : Name → List Name) : Prop where
  hier : Hierarchy up
  names : ((t.constants ++ t.objects).map Obj.name).Nodup
  objects : ∀ o ∈ t.constants ++ t.objects, o.Fits up
  predNames : (t.preds.map PredDecl.name).Nodup
  preds : ∀ d ∈ t.preds, ∀ p ∈ d.params, p.Fits up
  ops : ∀ op ∈ t.ops, op.Checked up (t.constants ++ t.objects) t.preds
  drvs : ∀ r ∈ t.drvs, (∀ p ∈ r.params, p.Fits up) ∧ ∃ d ∈ t.preds, d.name = r.head ∧
    List.Forall₂ (fun p v => HasType v p.typeName) d.params r.params
  init : ∀ x ∈ t.init, Declared (t.constants ++ t.objects) t.preds x

end Symbolic
