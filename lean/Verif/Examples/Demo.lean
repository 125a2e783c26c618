import Verif.Model.Pddl

/-!
# A small domain used by the examples beside the theorems

Boxes on a table: `pick(x)` takes a box, `place(x, y)` puts it on something; an axiom says that a box in
the hand is not on anything; a derived predicate `busy(x)`.
-/

namespace Symbolic.Demo

/-- A concrete string hash for examples: the length of the string. -/
@[reducible] def lenHash : StrHash := ⟨fun n => UInt64.ofNat n.length⟩

def tBox : List Name := [n!"box", n!"object"]
def tObj : List Name := [n!"object"]

def a : Obj := ⟨n!"a", tBox⟩
def b : Obj := ⟨n!"b", tBox⟩
def table : Obj := ⟨n!"table", tObj⟩

def x : Obj := ⟨n!"x", tBox⟩
def y : Obj := ⟨n!"y", tObj⟩
def z : Obj := ⟨n!"z", tObj⟩
def u : Obj := ⟨n!"u", tBox⟩

/-- `pick(?x - box)`: pre `(and (not (inhand ?x)) (forall (?u - box) (not (on ?u ?x))))`; eff `(inhand ?x)`. -/
def pick : Op where
  name := n!"pick"
  params := [x]
  pre := .conj [.neg (.atom n!"inhand" [.var x]), .all [u] (.neg (.atom n!"on" [.var u, .var x]))]
  eff := .mk .nil [(n!"inhand", [.var x])] [] .nil

/-- `place(?x - box, ?y - object)`: pre `(and (inhand ?x) (not (= ?x ?y)))`; eff `(on ?x ?y)`, `(not (inhand ?x))`. -/
def place : Op where
  name := n!"place"
  params := [x, y]
  pre := .conj [.atom n!"inhand" [.var x], .neg (.atom n!"=" [.var x, .var y])]
  eff := .mk .nil [(n!"on", [.var x, .var y])] [(n!"inhand", [.var x])] .nil

/-- Axiom `(inhand ?x) => (forall (?z - object) (not (on ?x ?z)))`. -/
def held : Op where
  name := n!"axiom"
  params := [x]
  pre := .atom n!"inhand" [.var x]
  eff := .mk (.cons [z] (.mk .nil [] [(n!"on", [.var x, .var z])] .nil) .nil) [] [] .nil
  isAxiom := true

/-- `(:derived (busy ?x - box) (or (inhand ?x) (exists (?u - box) (on ?u ?x))))`. -/
def busy : Drv where
  head := n!"busy"
  params := [x]
  body := .disj [.atom n!"inhand" [.var x], .ex [u] (.atom n!"on" [.var u, .var x])]

def on (p q : Obj) : Atom := ⟨n!"on", [p.name, q.name]⟩
def inhand (p : Obj) : Atom := ⟨n!"inhand", [p.name]⟩
def busyA (p : Obj) : Atom := ⟨n!"busy", [p.name]⟩

def tree : Ptree where
  types := some [tBox, tObj]
  constants := [table]
  objects := [a, b]
  ops := [pick, place, held]
  preds := [⟨n!"on", [x, y]⟩, ⟨n!"inhand", [x]⟩, ⟨n!"busy", [x]⟩]
  drvs := [busy]
  init := [on a table, on b table]
  goal := .atom n!"on" [.const a, .const b]

section
attribute [local instance] lenHash

/-- The constructor accepts it. -/
theorem made : (Pddl.make tree true 5).isOk = true := by decide +kernel

/-- The value of a call that returned. -/
def get {α : Type} : (r : Res α) → r.isOk = true → α
  | .ok v, _ => v

theorem get_eq {α : Type} : ∀ (r : Res α) (h : r.isOk = true), r = .ok (get r h)
  | .ok _, _ => rfl

/-- The constructed Pddl. -/
def P : Pddl := get (Pddl.make tree true 5) made

theorem P_made : Pddl.make tree true 5 = .ok P := get_eq _ _

end

end Symbolic.Demo
