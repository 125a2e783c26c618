import Verif.Model.Planner
import Verif.Spec.Satisfaction

/-!
# Specification: other names

A renaming gives other names to objects and variables, to predicates and types, and to operators. Predicates and types share
one function, since the library looks both up by name.
-/

namespace Symbolic

/-- New names. -/
structure Renaming where
  /-- of objects, constants, parameters and quantified variables -/
  obj : Name → Name
  /-- of predicates and types -/
  pred : Name → Name
  /-- of actions and axioms -/
  op : Name → Name

/-- Different things keep different names, and the built-in names `=` and `object` stay. -/
structure Renaming.Proper (ρ : Renaming) : Prop where
  obj : ∀ x y, ρ.obj x = ρ.obj y → x = y
  pred : ∀ x y, ρ.pred x = ρ.pred y → x = y
  op : ∀ x y, ρ.op x = ρ.op y → x = y
  eq : ρ.pred n!"=" = n!"="
  object : ρ.pred n!"object" = n!"object"

/-- No new names. -/
def Renaming.id : Renaming := ⟨fun n => n, fun n => n, fun n => n⟩

def Obj.rename (ρ : Renaming) (o : Obj) : Obj := ⟨ρ.obj o.name, o.types.map ρ.pred⟩

def Atom.rename (ρ : Renaming) (a : Atom) : Atom := ⟨ρ.pred a.pred, a.args.map ρ.obj⟩

def Term.rename (ρ : Renaming) : Term → Term
  | .var o => .var (o.rename ρ)
  | .const o => .const (o.rename ρ)

mutual
def Goal.rename (ρ : Renaming) : Goal → Goal
  | .atom p ts => .atom (ρ.pred p) (ts.map (Term.rename ρ))
  | .conj gs => .conj (Goal.renameAll ρ gs)
  | .disj gs => .disj (Goal.renameAll ρ gs)
  | .neg g => .neg (Goal.rename ρ g)
  | .all vars g => .all (vars.map (Obj.rename ρ)) (Goal.rename ρ g)
  | .ex vars g => .ex (vars.map (Obj.rename ρ)) (Goal.rename ρ g)
  | .other => .other
def Goal.renameAll (ρ : Renaming) : List Goal → List Goal
  | [] => []
  | g :: gs => Goal.rename ρ g :: Goal.renameAll ρ gs
end

/-- An add or delete effect. -/
def renameEffect (ρ : Renaming) (x : Name × List Term) : Name × List Term := (ρ.pred x.1, x.2.map (Term.rename ρ))

mutual
def Eff.rename (ρ : Renaming) : Eff → Eff
  | .mk fs adds dels cs =>
    .mk (FList.rename ρ fs) (adds.map (renameEffect ρ)) (dels.map (renameEffect ρ)) (CList.rename ρ cs)
def FList.rename (ρ : Renaming) : FList → FList
  | .nil => .nil
  | .cons vars e rest => .cons (vars.map (Obj.rename ρ)) (Eff.rename ρ e) (FList.rename ρ rest)
def CList.rename (ρ : Renaming) : CList → CList
  | .nil => .nil
  | .cons g e rest => .cons (Goal.rename ρ g) (Eff.rename ρ e) (CList.rename ρ rest)
end

def Op.rename (ρ : Renaming) (op : Op) : Op :=
  ⟨ρ.op op.name, op.params.map (Obj.rename ρ), op.pre.rename ρ, op.eff.rename ρ, op.isAxiom⟩

def PredDecl.rename (ρ : Renaming) (p : PredDecl) : PredDecl := ⟨ρ.pred p.name, p.params.map (Obj.rename ρ)⟩

def Drv.rename (ρ : Renaming) (d : Drv) : Drv := ⟨ρ.pred d.head, d.params.map (Obj.rename ρ), d.body.rename ρ⟩

/-- The domain and problem with other names. -/
def Ptree.rename (ρ : Renaming) (t : Ptree) : Ptree where
  types := t.types.map (List.map (List.map ρ.pred))
  constants := t.constants.map (Obj.rename ρ)
  objects := t.objects.map (Obj.rename ρ)
  ops := t.ops.map (Op.rename ρ)
  preds := t.preds.map (PredDecl.rename ρ)
  drvs := t.drvs.map (Drv.rename ρ)
  init := t.init.map (Atom.rename ρ)
  goal := t.goal.rename ρ

/-- The proposition is in the state. The two states compared below may use different hash functions. -/
def State.Has {h : StrHash} (s : @State h) (a : Atom) : Prop := @State.contains h s a = true

/-- The second state consists of the renamed propositions of the first one. -/
def SameState (ρ : Renaming) {h₁ h₂ : StrHash} (s : @State h₁) (t : @State h₂) : Prop :=
  ∀ b, t.Has b ↔ ∃ a, s.Has a ∧ b = a.rename ρ

/-- The same for what is known to be true and what is known to be false. -/
def SamePartial (ρ : Renaming) {h₁ h₂ : StrHash} (s : @PartialState h₁) (t : @PartialState h₂) : Prop :=
  SameState ρ (@PartialState.pos h₁ s) (@PartialState.pos h₂ t) ∧ SameState ρ (@PartialState.neg h₁ s) (@PartialState.neg h₂ t)

/-- `=` has two arguments and a test of a type has one, or more. -/
def EnoughArgs (objects : List Obj) (p : Name) (ts : List Term) : Prop :=
  (p = n!"=" → 2 ≤ ts.length) ∧ (IsType objects p → 1 ≤ ts.length)

mutual
/-- Every atom of the formula has enough arguments. -/
def Goal.EnoughArgs (objects : List Obj) : Goal → Prop
  | .atom p ts => Symbolic.EnoughArgs objects p ts
  | .conj gs => Goal.EnoughArgsAll objects gs
  | .disj gs => Goal.EnoughArgsAll objects gs
  | .neg g => Goal.EnoughArgs objects g
  | .all _ g => Goal.EnoughArgs objects g
  | .ex _ g => Goal.EnoughArgs objects g
  | .other => True
def Goal.EnoughArgsAll (objects : List Obj) : List Goal → Prop
  | [] => True
  | g :: gs => Goal.EnoughArgs objects g ∧ Goal.EnoughArgsAll objects gs
end

mutual
/-- Every atom of the effect and of its conditions has enough arguments. -/
def Eff.EnoughArgs (objects : List Obj) : Eff → Prop
  | .mk fs adds dels cs => FList.EnoughArgs objects fs ∧ (∀ x ∈ adds, Symbolic.EnoughArgs objects x.1 x.2) ∧
      (∀ x ∈ dels, Symbolic.EnoughArgs objects x.1 x.2) ∧ CList.EnoughArgs objects cs
def FList.EnoughArgs (objects : List Obj) : FList → Prop
  | .nil => True
  | .cons _ e rest => Eff.EnoughArgs objects e ∧ FList.EnoughArgs objects rest
def CList.EnoughArgs (objects : List Obj) : CList → Prop
  | .nil => True
  | .cons g e rest => Goal.EnoughArgs objects g ∧ Eff.EnoughArgs objects e ∧ CList.EnoughArgs objects rest
end

/-- The same conjunctions of propositions up to names, in any order. -/
def SameDnf (ρ : Renaming) {h₁ h₂ : StrHash} (d : @Dnf h₁) (d' : @Dnf h₂) : Prop :=
  d.length = d'.length ∧ (∀ p ∈ d, ∃ q ∈ d', SamePartial ρ p q) ∧ ∀ q ∈ d', ∃ p ∈ d, SamePartial ρ p q

/-- Two outcomes of the same kind; values are related, exceptions are the same. -/
def SameOutcome (R : α → β → Prop) : Res α → Res β → Prop
  | .ok a, .ok b => R a b
  | .exc e, .exc e' => e = e'
  | .ub, .ub => True
  | .fuel, .fuel => True
  | _, _ => False

/-- If one of the two returns, then so does the other, and the values are related. -/
def BothReturn (R : α → β → Prop) (x : Res α) (y : Res β) : Prop :=
  (∀ a, x = .ok a → ∃ b, y = .ok b ∧ R a b) ∧ ∀ b, y = .ok b → ∃ a, x = .ok a ∧ R a b

/-- Both absent or both present and related. -/
def OptRel {α β : Type} (R : α → β → Prop) : Option α → Option β → Prop
  | none, none => True
  | some a, some b => R a b
  | _, _ => False

/-- The second call has the renamed operator and arguments of the first one. -/
def SameCall (ρ : Renaming) (c d : Name) : Prop :=
  parseHead d = ρ.op (parseHead c) ∧ tokenizeArguments d = (tokenizeArguments c).map ρ.obj

/-- The second text of a proposition has the renamed predicate and arguments of the first one. -/
def SameText (ρ : Renaming) (c d : Name) : Prop :=
  parseHead d = ρ.pred (parseHead c) ∧ tokenizeArguments d = (tokenizeArguments c).map ρ.obj

/-- The printed call of an operator. -/
def printedCall (x : Name × List Name) : Name := callString x.1 x.2

/-- The printed calls of the same operators and arguments, renamed. -/
def SameCalls (ρ : Renaming) (cs ds : List Name) : Prop :=
  ∃ xs : List (Name × List Name), cs = xs.map printedCall ∧
    ds = xs.map fun x => printedCall (ρ.op x.1, x.2.map ρ.obj)

/-- `set_initial_state` (pddl.h:226). -/
def Pddl.withInitial [StrHash] (P : Pddl) (s : State) : Pddl := { P with initial := s }

/-- Two Pddls that differ in names and hash functions only: both are constructed, and changed later by the same calls of
`AddObject` and `set_initial_state`. -/
inductive Renamed (ρ : Renaming) {h₁ h₂ : StrHash} : @Pddl h₁ → @Pddl h₂ → Prop
  | make {t : Ptree} {b : Bool} {n : Nat} {P : @Pddl h₁} {Q : @Pddl h₂} :
      @Pddl.make h₁ t b n = .ok P → @Pddl.make h₂ (t.rename ρ) b n = .ok Q → Renamed ρ P Q
  | addObject {P P' : @Pddl h₁} {Q Q' : @Pddl h₂} {name type : Name} : Renamed ρ P Q →
      @Pddl.addObject h₁ P name type = .ok P' → @Pddl.addObject h₂ Q (ρ.obj name) (ρ.pred type) = .ok Q' → Renamed ρ P' Q'
  | setInitial {P : @Pddl h₁} {Q : @Pddl h₂} {s : @State h₁} {t : @State h₂} : Renamed ρ P Q → SameState ρ s t →
      Renamed ρ (@Pddl.withInitial h₁ P s) (@Pddl.withInitial h₂ Q t)

/-- Nodes of the planner: related states and ancestors, the same call with other names (the root has none), the same depth. -/
structure SameNode (ρ : Renaming) {h₁ h₂ : StrHash} (n : @PNode h₁) (m : @PNode h₂) : Prop where
  state : SameState ρ (@PNode.state h₁ n) (@PNode.state h₂ m)
  anc : List.Forall₂ (SameState ρ) (@PNode.anc h₁ n) (@PNode.anc h₂ m)
  action : (@PNode.action h₁ n = [] ∧ (@PNode.action h₂ m) = []) ∨ SameCalls ρ [@PNode.action h₁ n] [@PNode.action h₂ m]
  depth : (@PNode.depth h₂ m) = (@PNode.depth h₁ n)

end Symbolic
