import Verif.Model.Syntax
import Verif.Spec.Typing

/-!
# Specification: first-order satisfaction over a closed world

Textbook semantics: variables are looked up in an assignment, constants denote themselves, quantifiers range over the
well-typed tuples of declared objects.
-/

namespace Symbolic

/-- A (partial) assignment of objects to variable names. -/
abbrev Env := Name → Option Obj

/-- The assignment in which nothing is bound. -/
def Env.none : Env := fun _ => Option.none

/-- Bind one variable, shadowing an earlier one. -/
def Env.set (env : Env) (v : Name) (o : Obj) : Env := fun n => if n = v then some o else env n

/-- Bind a list of variables one after the other. -/
def Env.bind (env : Env) : List Obj → List Obj → Env
  | v :: vs, o :: os => (env.set v.name o).bind vs os
  | _, _ => env

/-- The object a term denotes. -/
def Denotes (env : Env) : Term → Obj → Prop
  | .var v, o => env v.name = some o
  | .const c, o => c = o

/-- `pred` is the name of a type that some declared object has. -/
def IsType (objects : List Obj) (pred : Name) : Prop := ∃ o ∈ objects, HasType o pred

/-- An atomic formula. Objects are identified by their names. -/
def SatAtom (objects : List Obj) (S : Atom → Prop) (env : Env) (pred : Name) (ts : List Term) : Prop :=
  (pred = n!"=" ∧ ∃ t₁ t₂ o₁ o₂, ts = [t₁, t₂] ∧ Denotes env t₁ o₁ ∧ Denotes env t₂ o₂ ∧ o₁.name = o₂.name) ∨
  (pred ≠ n!"=" ∧ IsType objects pred ∧ ∃ t o, ts = [t] ∧ Denotes env t o ∧ HasType o pred) ∨
  (pred ≠ n!"=" ∧ ¬ IsType objects pred ∧
    ∃ os, List.Forall₂ (Denotes env) ts os ∧ S ⟨pred, os.map Obj.name⟩)

mutual
/-- `Sat objects S env g`: the formula `g` holds in the state `S` under the assignment `env`. -/
def Sat (objects : List Obj) (S : Atom → Prop) : Env → Goal → Prop
  | env, .atom pred ts => SatAtom objects S env pred ts
  | env, .conj gs => SatAll objects S env gs
  | env, .disj gs => SatAny objects S env gs
  | env, .neg g => ¬ Sat objects S env g
  | env, .all vars g => ∀ os, WellTyped objects vars os → Sat objects S (env.bind vars os) g
  | env, .ex vars g => ∃ os, WellTyped objects vars os ∧ Sat objects S (env.bind vars os) g
  | _, .other => False
/-- All formulas of the list hold. -/
def SatAll (objects : List Obj) (S : Atom → Prop) : Env → List Goal → Prop
  | _, [] => True
  | env, g :: gs => Sat objects S env g ∧ SatAll objects S env gs
/-- Some formula of the list holds. -/
def SatAny (objects : List Obj) (S : Atom → Prop) : Env → List Goal → Prop
  | _, [] => False
  | env, g :: gs => Sat objects S env g ∨ SatAny objects S env gs
end

/-- A term makes sense where the variables `scope` are declared: a variable is declared, and a constant has a name
different from all of them. -/
def Term.Scoped (scope : List Name) : Term → Prop
  | .var v => v.name ∈ scope
  | .const c => c.name ∉ scope

mutual
/-- Well-formed formulas: terms are scoped, `=` has two arguments and a type one, quantifiers bind at least one
variable, and only the supported connectives occur. -/
def Goal.WF (objects : List Obj) : List Name → Goal → Prop
  | scope, .atom pred ts => (∀ t ∈ ts, t.Scoped scope) ∧ (pred = n!"=" → ts.length = 2) ∧
      (pred ≠ n!"=" → IsType objects pred → ts.length = 1)
  | scope, .conj gs => Goal.WFs objects scope gs
  | scope, .disj gs => Goal.WFs objects scope gs
  | scope, .neg g => Goal.WF objects scope g
  | scope, .all vars g => vars ≠ [] ∧ Goal.WF objects (scope ++ vars.map Obj.name) g
  | scope, .ex vars g => vars ≠ [] ∧ Goal.WF objects (scope ++ vars.map Obj.name) g
  | _, .other => False
/-- Every formula of the list is well-formed. -/
def Goal.WFs (objects : List Obj) : List Name → List Goal → Prop
  | _, [] => True
  | scope, g :: gs => Goal.WF objects scope g ∧ Goal.WFs objects scope gs
end

mutual
/-- An atom with this predicate name and number of arguments occurs in the formula. -/
def Goal.Mentions : Goal → Name → Nat → Prop
  | .atom pred ts, p, n => p = pred ∧ n = ts.length
  | .conj gs, p, n => Goal.MentionsL gs p n
  | .disj gs, p, n => Goal.MentionsL gs p n
  | .neg g, p, n => Goal.Mentions g p n
  | .all _ g, p, n => Goal.Mentions g p n
  | .ex _ g, p, n => Goal.Mentions g p n
  | .other, _, _ => False
def Goal.MentionsL : List Goal → Name → Nat → Prop
  | [], _, _ => False
  | g :: gs, p, n => Goal.Mentions g p n ∨ Goal.MentionsL gs p n
end

mutual
/-- The constant occurs in the formula. -/
def Goal.HasConst : Goal → Obj → Prop
  | .atom _ ts, c => Term.const c ∈ ts
  | .conj gs, c => Goal.HasConstL gs c
  | .disj gs, c => Goal.HasConstL gs c
  | .neg g, c => Goal.HasConst g c
  | .all _ g, c => Goal.HasConst g c
  | .ex _ g, c => Goal.HasConst g c
  | .other, _ => False
def Goal.HasConstL : List Goal → Obj → Prop
  | [], _ => False
  | g :: gs, c => Goal.HasConst g c ∨ Goal.HasConstL gs c
end

/-- The complete state `S` is compatible with the facts known to be true and known to be false. -/
def Compatible (true? false? : Atom → Prop) (S : Atom → Prop) : Prop :=
  (∀ a, true? a → S a) ∧ ∀ a, false? a → ¬ S a

end Symbolic
