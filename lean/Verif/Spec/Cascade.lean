import Verif.Spec.Frame
import Verif.Spec.PartialApply

/-!
# Specification: an action together with the axioms it triggers

An axiom is triggered when a literal that was not so becomes so and is the context of one of its instances. What an action
causes are its own effects, and the effects of all instances triggered by what it causes.
-/

namespace Symbolic

/-- `x` is the atom of the context of the instance `as` of the axiom. -/
def Op.ContextIs (objects : List Obj) (op : Op) (as : List Obj) (x : Atom) : Prop :=
  WellTyped objects op.params as ∧
    ∃ os, List.Forall₂ (Denotes (Env.none.bind op.params as)) op.ctx os ∧ x = ⟨op.ctxPred, os.map Obj.name⟩

/-- Effects are about predicates that are neither `=` nor types, use declared variables, and their quantifiers bind at least
one variable. -/
def Ptree.PlainEffects (t : Ptree) : Prop :=
  ∀ op ∈ t.ops, op.eff.WF (t.constants ++ t.objects) (op.params.map Obj.name)

/-- The literals the action causes. `S` are the atoms that are true before, for conditions of effects; `so` are the literals
that are so before, which trigger nothing. -/
inductive Ptree.Causes (t : Ptree) (S : Atom → Prop) (so : Bool → Atom → Prop) (op : Op) (args : List Obj) :
    Bool → Atom → Prop
  | own {sign : Bool} {x : Atom} : Makes (t.constants ++ t.objects) S sign (Env.none.bind op.params args) op.eff x →
      Causes t S so op args sign x
  | triggered {ax : Op} {as : List Obj} {x : Atom} {sign : Bool} {y : Atom} : ax ∈ t.ops → ax.isAxiom = true →
      Causes t S so op args ax.ctxSign x → ¬ so ax.ctxSign x → ax.ContextIs (t.constants ++ t.objects) as x →
      Makes (t.constants ++ t.objects) S sign (Env.none.bind ax.params as) ax.eff y → Causes t S so op args sign y

/-- The literal is so in a complete state. -/
def Is (S : Atom → Prop) (sign : Bool) (x : Atom) : Prop := S x ↔ sign = true

/-- The literal is known. -/
def Known (true? false? : Atom → Prop) (sign : Bool) (x : Atom) : Prop :=
  if sign then true? x ∧ ¬ false? x else false? x ∧ ¬ true? x

/-- What the action causes in the state `S`. -/
abbrev Ptree.CausesIn (t : Ptree) (S : Atom → Prop) (op : Op) (args : List Obj) : Bool → Atom → Prop :=
  t.Causes S (Is S) op args

/-- Nothing is caused to be true and caused to be false. -/
def NoConflict (W : Bool → Atom → Prop) : Prop := ∀ x, W true x → ¬ W false x

/-- Atoms that conditions of effects of the action or of an axiom are about. -/
def Ptree.MayAsk (t : Ptree) (op : Op) (pred : Name) (n : Nat) : Prop :=
  ∃ ax ∈ t.ops, (ax = op ∨ ax.isAxiom = true) ∧ ax.eff.Asks pred n

/-- Conditions of effects of the action and of axioms mention declared constants only. -/
def Ptree.AllCondsClosed (t : Ptree) (op : Op) : Prop :=
  ∀ ax ∈ t.ops, ax = op ∨ ax.isAxiom = true → ax.eff.CondsClosed (t.constants ++ t.objects)

/-- Conditions of effects of the action and of axioms are not about anything in `W`. -/
def Ptree.NotRead (t : Ptree) (op : Op) (W : Bool → Atom → Prop) : Prop :=
  ∀ sign x, W sign x → ¬ op.eff.Reads x.pred ∧ ∀ ax ∈ t.ops, ax.isAxiom = true → ¬ ax.eff.Reads x.pred

end Symbolic
