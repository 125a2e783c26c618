import Verif.Spec.Cascade
import Verif.Spec.Reorder

/-!
# Specification: the same domain with more objects
-/

namespace Symbolic

/-- The second problem has the operators and rules of the first one and all its objects. It may have more objects, but not of
types that no object had before. -/
structure MoreObjects (t t' : Ptree) : Prop where
  objects : ∀ o ∈ t.constants ++ t.objects, o ∈ t'.constants ++ t'.objects
  types : ∀ p, IsType (t'.constants ++ t'.objects) p → IsType (t.constants ++ t.objects) p
  ops : t'.ops = t.ops
  drvs : t'.drvs = t.drvs

/-- The atom is about these objects only. -/
def Atom.About (objects : List Obj) (x : Atom) : Prop := ∀ n ∈ x.args, ∃ o ∈ objects, o.name = n

/-- The two states have the same atoms about these objects. -/
def AgreeAbout (objects : List Obj) (S S' : Atom → Prop) : Prop := ∀ x : Atom, x.About objects → (S x ↔ S' x)

mutual
/-- Quantifiers of the formula are existential, those below a negation universal; with `false`, the other way round. -/
def Goal.Quants : Bool → Goal → Prop
  | _, .atom _ _ => True
  | b, .conj gs => Goal.QuantsL b gs
  | b, .disj gs => Goal.QuantsL b gs
  | b, .neg g => Goal.Quants (!b) g
  | b, .all _ g => b = false ∧ Goal.Quants b g
  | b, .ex _ g => b = true ∧ Goal.Quants b g
  | _, .other => True
def Goal.QuantsL : Bool → List Goal → Prop
  | _, [] => True
  | b, g :: gs => Goal.Quants b g ∧ Goal.QuantsL b gs
end

/-- Constants of the formula are declared. -/
def Goal.Closed (objects : List Obj) (g : Goal) : Prop := ∀ c, g.HasConst c → c ∈ objects

/-- The formula has no quantifiers, and its constants are declared. -/
structure Goal.Ground (objects : List Obj) (g : Goal) : Prop where
  ex : g.Quants true
  all : g.Quants false
  closed : g.Closed objects

/-- Constants in the literals are declared, and every literal contains the variables `must`. -/
def LitsLocal (objects : List Obj) (must : List Name) (l : List (Name × List Term)) : Prop :=
  ∀ pred ts, (pred, ts) ∈ l → (∀ c, Term.const c ∈ ts → c ∈ objects) ∧ ∀ n ∈ must, ∃ v, Term.var v ∈ ts ∧ v.name = n

mutual
/-- Conditions of the effect have no quantifiers. Every literal of a universal effect contains the variables that the effect
quantifies. Constants are declared. -/
def Eff.Local (objects : List Obj) : List Name → Eff → Prop
  | must, .mk fs adds dels cs => FList.Local objects must fs ∧ LitsLocal objects must adds ∧ LitsLocal objects must dels ∧
      CList.Local objects must cs
def FList.Local (objects : List Obj) : List Name → FList → Prop
  | _, .nil => True
  | must, .cons vars e rest => (must ++ vars.map Obj.name).Nodup ∧ Eff.Local objects (must ++ vars.map Obj.name) e ∧
      FList.Local objects must rest
def CList.Local (objects : List Obj) : List Name → CList → Prop
  | _, .nil => True
  | must, .cons g e rest => g.Ground objects ∧ Eff.Local objects must e ∧ CList.Local objects must rest
end

mutual
/-- The predicate is added (`sign`) or deleted by a universal effect. -/
def Eff.Universal (sign : Bool) : Eff → Name → Prop
  | .mk fs _ _ cs, p => FList.Touches sign fs p ∨ CList.Universal sign cs p
def CList.Universal (sign : Bool) : CList → Name → Prop
  | .nil, _ => False
  | .cons _ e rest, p => Eff.Universal sign e p ∨ CList.Universal sign rest p
end

/-- Objects that are not mentioned do not matter: there are no quantifiers in conditions of effects and in rules, every literal of
a universal effect contains the variables that the effect quantifies, and universal effects trigger no axioms. -/
structure Ptree.Local (t : Ptree) : Prop where
  pre : ∀ op ∈ t.ops, op.pre.Closed (t.constants ++ t.objects)
  eff : ∀ op ∈ t.ops, op.eff.Local (t.constants ++ t.objects) []
  universal : ∀ op ∈ t.ops, ∀ ax ∈ t.ops, ax.isAxiom = true → ¬ op.eff.Universal ax.ctxSign ax.ctxPred
  rules : ∀ d ∈ t.drvs, d.body.Ground (t.constants ++ t.objects)

end Symbolic
