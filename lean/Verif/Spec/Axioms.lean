import Verif.Spec.Effects
import Verif.Spec.Trigger

/-!
# Specification: axioms as formulas

An axiom `context => implication` says that for every well-typed argument list, if the context holds then the
implication, read as a formula, holds: all its literals, for all values of universal variables, where conditions hold.
-/

namespace Symbolic

mutual
/-- The effect `e`, read as a formula, is true in `S`. -/
def Eff.Says (objects : List Obj) (S : Atom → Prop) : Env → Eff → Prop
  | env, .mk fs adds dels cs =>
    FList.Says objects S env fs ∧ (∀ pred ts, (pred, ts) ∈ adds → SatAtom objects S env pred ts) ∧
      (∀ pred ts, (pred, ts) ∈ dels → ¬ SatAtom objects S env pred ts) ∧ CList.Says objects S env cs
def FList.Says (objects : List Obj) (S : Atom → Prop) : Env → FList → Prop
  | _, .nil => True
  | env, .cons vars e rest =>
    (∀ os, WellTyped objects vars os → Eff.Says objects S (env.bind vars os) e) ∧ FList.Says objects S env rest
def CList.Says (objects : List Obj) (S : Atom → Prop) : Env → CList → Prop
  | _, .nil => True
  | env, .cons g e rest => (Sat objects S env g → Eff.Says objects S env e) ∧ CList.Says objects S env rest
end

/-- The axiom holds for the arguments `os`. -/
def Op.HoldsFor (objects : List Obj) (op : Op) (S : Atom → Prop) (os : List Obj) : Prop :=
  Sat objects S (Env.none.bind op.params os) op.pre → op.eff.Says objects S (Env.none.bind op.params os)

/-- Every axiom of the domain holds for every well-typed argument list. -/
def AxiomsHold (objects : List Obj) (ops : List Op) (S : Atom → Prop) : Prop :=
  ∀ op ∈ ops, op.isAxiom = true → ∀ os, WellTyped objects op.params os → op.HoldsFor objects S os

/-- Literals over declared variables and constants; `=` has two arguments and a type has one. -/
def AtomLits (objects : List Obj) (scope : List Name) (l : List (Name × List Term)) : Prop :=
  ∀ pred ts, (pred, ts) ∈ l → Goal.WF objects scope (.atom pred ts)

mutual
/-- Well-formed implications. -/
def Eff.Formed (objects : List Obj) : List Name → Eff → Prop
  | scope, .mk fs adds dels cs =>
    FList.Formed objects scope fs ∧ AtomLits objects scope adds ∧ AtomLits objects scope dels ∧
      CList.Formed objects scope cs
def FList.Formed (objects : List Obj) : List Name → FList → Prop
  | _, .nil => True
  | scope, .cons vars e rest =>
    vars ≠ [] ∧ Eff.Formed objects (scope ++ vars.map Obj.name) e ∧ FList.Formed objects scope rest
def CList.Formed (objects : List Obj) : List Name → CList → Prop
  | _, .nil => True
  | scope, .cons g e rest => Goal.WF objects scope g ∧ Eff.Formed objects scope e ∧ CList.Formed objects scope rest
end

/-- A well-formed axiom with parameters. -/
structure Op.Formed (objects : List Obj) (op : Op) : Prop where
  params : op.params ≠ []
  pre : op.pre.WF objects (op.params.map Obj.name)
  eff : op.eff.Formed objects (op.params.map Obj.name)

end Symbolic
