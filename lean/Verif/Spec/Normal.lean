import Verif.Model.State
import Verif.Spec.Satisfaction
import Verif.Spec.Effects

/-!
# Specification: meaning of formulas in disjunctive normal form

A conjunction of literals over ground atoms is a pair of sets of atoms; a disjunctive normal form is a list of
them. Following the library, an absent formula is false and the empty list of conjunctions is true.
-/

namespace Symbolic

variable [StrHash]

/-- A ground atom is true: `=` compares names, a type holds of a declared object that has it, everything
else is looked up in the state. -/
def AtomTrue (objects : List Obj) (S : Atom → Prop) (a : Atom) : Prop :=
  (a.pred = n!"=" ∧ ∃ x, a.args = [x, x]) ∨
  (a.pred ≠ n!"=" ∧ IsType objects a.pred ∧ ∃ o ∈ objects, a.args = [o.name] ∧ HasType o a.pred) ∨
  (a.pred ≠ n!"=" ∧ ¬ IsType objects a.pred ∧ S a)

/-- All literals of the conjunction are true. -/
def ConjTrue (objects : List Obj) (S : Atom → Prop) (c : PartialState) : Prop :=
  (∀ a ∈ c.pos, AtomTrue objects S a) ∧ ∀ a ∈ c.neg, ¬ AtomTrue objects S a

/-- Some conjunction of the list is true. -/
def SomeTrue (objects : List Obj) (S : Atom → Prop) (l : List PartialState) : Prop :=
  ∃ c ∈ l, ConjTrue objects S c

/-- The meaning of a normal form as the library returns it. -/
def DnfTrue (objects : List Obj) (S : Atom → Prop) : Option (List PartialState) → Prop
  | none => False
  | some l => l = [] ∨ SomeTrue objects S l

/-- An atom over declared objects; `=` has two arguments and a type has one. -/
structure Atom.Ground (objects : List Obj) (a : Atom) : Prop where
  declared : ∀ n ∈ a.args, n ∈ objects.map Obj.name
  eq : a.pred = n!"=" → a.args.length = 2
  type : a.pred ≠ n!"=" → IsType objects a.pred → a.args.length = 1

/-- All atoms of the conjunction are ground. -/
def ConjGround (objects : List Obj) (c : PartialState) : Prop :=
  (∀ a ∈ c.pos, a.Ground objects) ∧ ∀ a ∈ c.neg, a.Ground objects

/-- The literals of `c` are among those of `d`. -/
def Subsumes (c d : PartialState) : Prop := (∀ a ∈ c.pos, a ∈ d.pos) ∧ ∀ a ∈ c.neg, a ∈ d.neg

/-- No atom occurs both positively and negatively. -/
def Consistent (c : PartialState) : Prop := ∀ a ∈ c.pos, a ∉ c.neg

/-- The formula is true in some state. -/
def Satisfiable (objects : List Obj) (env : Env) (g : Goal) : Prop := ∃ S, Sat objects S env g
/-- The formula is false in some state. -/
def Refutable (objects : List Obj) (env : Env) (g : Goal) : Prop := ∃ S, ¬ Sat objects S env g

mutual
/-- Formulas whose normal form the library computes correctly: every disjunction and every existential formula
has a satisfiable disjunct and no disjunct that is always true, and a formula under a negation is an atom
or not always true. Truth is over all states, with `=` and types read as such. -/
def Goal.Regular (objects : List Obj) : Env → Goal → Prop
  | _, .atom _ _ => True
  | env, .conj gs => Goal.Regulars objects env gs
  | env, .disj gs => Goal.Regulars objects env gs ∧ Goal.AnySatisfiable objects env gs ∧
      Goal.AllRefutable objects env gs
  | _, .neg (.atom _ _) => True
  | env, .neg g => Goal.Regular objects env g ∧ Refutable objects env g
  | env, .all vars g => ∀ os, WellTyped objects vars os → Goal.Regular objects (env.bind vars os) g
  | env, .ex vars g =>
      (∀ os, WellTyped objects vars os →
        Goal.Regular objects (env.bind vars os) g ∧ Refutable objects (env.bind vars os) g) ∧
      ∃ os, WellTyped objects vars os ∧ Satisfiable objects (env.bind vars os) g
  | _, .other => False
def Goal.Regulars (objects : List Obj) : Env → List Goal → Prop
  | _, [] => True
  | env, g :: gs => Goal.Regular objects env g ∧ Goal.Regulars objects env gs
def Goal.AnySatisfiable (objects : List Obj) : Env → List Goal → Prop
  | _, [] => False
  | env, g :: gs => Satisfiable objects env g ∨ Goal.AnySatisfiable objects env gs
def Goal.AllRefutable (objects : List Obj) : Env → List Goal → Prop
  | _, [] => True
  | env, g :: gs => Refutable objects env g ∧ Goal.AllRefutable objects env gs
end

mutual
/-- The constant occurs in a literal of the effect. -/
def Eff.HasConst : Eff → Obj → Prop
  | .mk fs adds dels cs, c => FList.HasConst fs c ∨ (∃ pred ts, (pred, ts) ∈ adds ∧ Term.const c ∈ ts) ∨
      (∃ pred ts, (pred, ts) ∈ dels ∧ Term.const c ∈ ts) ∨ CList.HasConst cs c
def FList.HasConst : FList → Obj → Prop
  | .nil, _ => False
  | .cons _ e rest, c => Eff.HasConst e c ∨ FList.HasConst rest c
def CList.HasConst : CList → Obj → Prop
  | .nil, _ => False
  | .cons g e rest, c => g.HasConst c ∨ Eff.HasConst e c ∨ CList.HasConst rest c
end

/-- The effect has been achieved in `S`: what it adds holds and what it deletes does not. Conditional effects count if
their condition is true in `S` itself. -/
def Achieved (objects : List Obj) (S : Atom → Prop) (env : Env) (e : Eff) : Prop :=
  (∀ x, Makes objects S true env e x → S x) ∧ ∀ x, Makes objects S false env e x → ¬ S x

mutual
/-- Effects whose normal form the library computes correctly. The condition of a conditional effect is a regular formula
that is neither always true nor always false, and its effect is not achieved in every state; or the condition is a negated
atom (such as an inequality) that is always false, or always true while the effect can be achieved. -/
def Eff.Regular (objects : List Obj) : Env → Eff → Prop
  | env, .mk fs _ _ cs => FList.Regular objects env fs ∧ CList.Regular objects env cs
def FList.Regular (objects : List Obj) : Env → FList → Prop
  | _, .nil => True
  | env, .cons vars e rest =>
    (∀ os, WellTyped objects vars os → Eff.Regular objects (env.bind vars os) e) ∧ FList.Regular objects env rest
def CList.Regular (objects : List Obj) : Env → CList → Prop
  | _, .nil => True
  | env, .cons g e rest => Eff.Regular objects env e ∧
      ((g.Regular objects env ∧ Satisfiable objects env g ∧ Refutable objects env g ∧
          ∃ S, ¬ Achieved objects S env e) ∨
        ((∃ p ts, g = .neg (.atom p ts)) ∧
          (¬ Satisfiable objects env g ∨ (¬ Refutable objects env g ∧ ∃ S, Achieved objects S env e)))) ∧
      CList.Regular objects env rest
end

end Symbolic
