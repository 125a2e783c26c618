import Verif.Spec.Satisfaction

/-!
# Specification: PDDL effects

`Makes objects S sign env e x`: the effect `e`, instantiated by `env`, makes the atom `x` true (`sign`) or false
(`¬ sign`). Universal effects range over all well-typed tuples, conditions are judged in the state `S`. The result of an
action in PDDL is: `x` holds afterwards iff it is made true, or held before and is not made false.
-/

namespace Symbolic

/-- One of the listed literals, instantiated, is about the atom `x`. -/
def Lists (env : Env) (l : List (Name × List Term)) (x : Atom) : Prop :=
  ∃ pred ts os, (pred, ts) ∈ l ∧ List.Forall₂ (Denotes env) ts os ∧ x = ⟨pred, os.map Obj.name⟩

mutual
def Makes (objects : List Obj) (S : Atom → Prop) (sign : Bool) : Env → Eff → Atom → Prop
  | env, .mk fs adds dels cs, x =>
    MakesF objects S sign env fs x ∨ (sign = true ∧ Lists env adds x) ∨ (sign = false ∧ Lists env dels x) ∨
      MakesC objects S sign env cs x
/-- Universal effects. -/
def MakesF (objects : List Obj) (S : Atom → Prop) (sign : Bool) : Env → FList → Atom → Prop
  | _, .nil, _ => False
  | env, .cons vars e rest, x =>
    (∃ os, WellTyped objects vars os ∧ Makes objects S sign (env.bind vars os) e x) ∨
      MakesF objects S sign env rest x
/-- Conditional effects. -/
def MakesC (objects : List Obj) (S : Atom → Prop) (sign : Bool) : Env → CList → Atom → Prop
  | _, .nil, _ => False
  | env, .cons g e rest, x =>
    (Sat objects S env g ∧ Makes objects S sign env e x) ∨ MakesC objects S sign env rest x
end

/-- The PDDL meaning of an action with this effect: adds win over deletes, everything refers to the state before. -/
def PddlResult (objects : List Obj) (S : Atom → Prop) (env : Env) (e : Eff) (x : Atom) : Prop :=
  Makes objects S true env e x ∨ (S x ∧ ¬ Makes objects S false env e x)

/-- No atom is both made true and made false. -/
def ConflictFree (objects : List Obj) (S : Atom → Prop) (env : Env) (e : Eff) : Prop :=
  ∀ x, Makes objects S true env e x → ¬ Makes objects S false env e x

/-- Predicate `p` is the predicate of an effect with this sign somewhere in the list. -/
def ListsPred (l : List (Name × List Term)) (p : Name) : Prop := ∃ ts, (p, ts) ∈ l

mutual
/-- Predicate `p` occurs in an add effect (`sign`) or a delete effect. -/
def Eff.Touches (sign : Bool) : Eff → Name → Prop
  | .mk fs adds dels cs, p =>
    FList.Touches sign fs p ∨ (sign = true ∧ ListsPred adds p) ∨ (sign = false ∧ ListsPred dels p) ∨
      CList.Touches sign cs p
def FList.Touches (sign : Bool) : FList → Name → Prop
  | .nil, _ => False
  | .cons _ e rest, p => Eff.Touches sign e p ∨ FList.Touches sign rest p
def CList.Touches (sign : Bool) : CList → Name → Prop
  | .nil, _ => False
  | .cons _ e rest, p => Eff.Touches sign e p ∨ CList.Touches sign rest p
end

mutual
/-- Predicate `p` occurs in a condition of a conditional effect. -/
def Eff.Reads : Eff → Name → Prop
  | .mk fs _ _ cs, p => FList.Reads fs p ∨ CList.Reads cs p
def FList.Reads : FList → Name → Prop
  | .nil, _ => False
  | .cons _ e rest, p => Eff.Reads e p ∨ FList.Reads rest p
def CList.Reads : CList → Name → Prop
  | .nil, _ => False
  | .cons g e rest, p => (∃ n, g.Mentions p n) ∨ Eff.Reads e p ∨ CList.Reads rest p
end

mutual
/-- No conditional effects anywhere. -/
def Eff.NoCond : Eff → Prop
  | .mk fs _ _ cs => FList.NoCond fs ∧ cs = .nil
def FList.NoCond : FList → Prop
  | .nil => True
  | .cons _ e rest => Eff.NoCond e ∧ FList.NoCond rest
end

/-- Well-formed literals: scoped terms, and a predicate that is neither `=` nor a type. -/
def WFLits (objects : List Obj) (scope : List Name) (l : List (Name × List Term)) : Prop :=
  ∀ pred ts, (pred, ts) ∈ l → (∀ t ∈ ts, t.Scoped scope) ∧ pred ≠ n!"=" ∧ ¬ IsType objects pred

mutual
/-- Well-formed effects: well-formed literals and conditions; universal effects bind at least one variable. -/
def Eff.WF (objects : List Obj) : List Name → Eff → Prop
  | scope, .mk fs adds dels cs =>
    FList.WF objects scope fs ∧ WFLits objects scope adds ∧ WFLits objects scope dels ∧ CList.WF objects scope cs
def FList.WF (objects : List Obj) : List Name → FList → Prop
  | _, .nil => True
  | scope, .cons vars e rest =>
    vars ≠ [] ∧ Eff.WF objects (scope ++ vars.map Obj.name) e ∧ FList.WF objects scope rest
def CList.WF (objects : List Obj) : List Name → CList → Prop
  | _, .nil => True
  | scope, .cons g e rest => Goal.WF objects scope g ∧ Eff.WF objects scope e ∧ CList.WF objects scope rest
end

end Symbolic
