import Verif.Spec.Partial
import Verif.Spec.Frame
import Verif.Spec.Reorder

/-!
# Specification: an action on incomplete knowledge

What is known is a set of atoms known to be true and a set of atoms known to be false. An action, applied to what is known,
should give what is known afterwards: the States that are possible before are mapped to States that are possible
afterwards, and what is the same in all of those is known.
-/

namespace Symbolic

mutual
/-- A condition of a conditional effect mentions the predicate with this number of arguments. -/
def Eff.Asks : Eff → Name → Nat → Prop
  | .mk fs _ _ cs, p, n => FList.Asks fs p n ∨ CList.Asks cs p n
def FList.Asks : FList → Name → Nat → Prop
  | .nil, _, _ => False
  | .cons _ e rest, p, n => Eff.Asks e p n ∨ FList.Asks rest p n
def CList.Asks : CList → Name → Nat → Prop
  | .nil, _, _ => False
  | .cons g e rest, p, n => g.Mentions p n ∨ Eff.Asks e p n ∨ CList.Asks rest p n
end

mutual
/-- Constants in conditions are declared objects. -/
def Eff.CondsClosed (objects : List Obj) : Eff → Prop
  | .mk fs _ _ cs => FList.CondsClosed objects fs ∧ CList.CondsClosed objects cs
def FList.CondsClosed (objects : List Obj) : FList → Prop
  | .nil => True
  | .cons _ e rest => Eff.CondsClosed objects e ∧ FList.CondsClosed objects rest
def CList.CondsClosed (objects : List Obj) : CList → Prop
  | .nil => True
  | .cons g e rest => (∀ c, g.HasConst c → c ∈ objects) ∧ Eff.CondsClosed objects e ∧ CList.CondsClosed objects rest
end

/-- All atoms of these predicates over the objects are known. -/
def Knows (objects : List Obj) (true? false? : Atom → Prop) (M : Name → Nat → Prop) : Prop :=
  ∀ pred (os : List Obj), M pred os.length → (∀ o ∈ os, o ∈ objects) →
    true? ⟨pred, os.map Obj.name⟩ ∨ false? ⟨pred, os.map Obj.name⟩

/-- The axioms that the action may trigger have no conditional effects, and what they add or delete is not deleted or added
by the action or such an axiom. -/
def Ptree.OneWay (t : Ptree) (op : Op) : Prop :=
  ∀ ax ∈ t.ops, ax.isAxiom = true → t.MayWrite op ax.ctxSign ax.ctxPred →
    ax.eff.NoCond ∧ ∀ sign p, ax.eff.Touches sign p → ¬ t.MayWrite op (!sign) p

end Symbolic
