import Verif.Model.PyLife

/-!
# Specification: which objects are held by variables

There are no counts here. A value carries the numbers of the objects that stay alive as long as a variable has it: itself, and
those it was obtained from as a part. An object is *held* if the value of some variable carries its number.
-/

namespace Symbolic.PyLife

/-- The classes. -/
inductive Kind where
  | pddl
  | planner
  | part
  | node
  | children
  | search
  deriving DecidableEq

/-- A value. -/
structure Val where
  kind : Kind
  /-- Its number: how many objects were made before. -/
  id : Nat
  /-- The Pddl it was made from. -/
  source : Nat
  /-- For nodes: where the node is. For iterators over children: where the parent is. For searches: where the root is. -/
  home : Nat
  /-- What stays alive with it. -/
  has : List Nat
  deriving DecidableEq

/-- The values of the variables, the number of objects made so far, and for every search that has begun the search in which it
did, together with whether it is exhausted. -/
structure Track where
  vars : List (Nat × Val)
  made : Nat
  begun : Nat → Option (Nat × Bool)

namespace Track

/-- The number belongs to an object that some variable keeps alive. -/
def Held (t : Track) (i : Nat) : Prop := ∃ b ∈ t.vars, i ∈ b.2.has

instance (t : Track) (i : Nat) : Decidable (t.Held i) := inferInstanceAs (Decidable (∃ b ∈ t.vars, i ∈ b.2.has))

/-- The value of a variable. -/
def val (t : Track) (y : Nat) : Option Val := (t.vars.find? fun b => decide (b.1 = y)).map (·.2)

/-- A variable of that class. -/
def valOf (t : Track) (k : Kind) (y : Nat) : Option Val := (t.val y).filter fun v => decide (v.kind = k)

/-- The variable gets the value. -/
def bind (t : Track) (x : Nat) (v : Val) : Track :=
  { t with vars := (x, v) :: t.vars.filter fun b => decide (b.1 ≠ x) }

/-- The variable gets a new object. -/
def bindNew (t : Track) (x : Nat) (v : Val) : Track := { t.bind x v with made := t.made + 1 }

/-- The search to which the iterator of the search `i` points after a call of `next`. -/
def place (i : Nat) : Option (Nat × Bool) → Nat
  | some (j, _) => j
  | none => i

/-- What a program that may run on does to the variables; `none` if Python raises an exception. -/
def next (t : Track) : Cmd → Option Track
  | .set x (.var y) => (t.val y).map fun v => t.bind x v
  | .set x .pddl => some (t.bindNew x ⟨.pddl, t.made, t.made, t.made, [t.made]⟩)
  | .set x (.planner y) => (t.valOf .pddl y).map fun v => t.bindNew x ⟨.planner, t.made, v.id, t.made, [t.made]⟩
  | .set x (.part y) =>
    ((t.val y).filter fun v => decide (v.kind = .pddl ∨ v.kind = .part)).map fun v =>
      t.bindNew x ⟨.part, t.made, v.source, v.source, t.made :: v.has⟩
  | .set x (.root y) => (t.valOf .planner y).map fun v => t.bindNew x ⟨.node, t.made, v.source, v.id, t.made :: v.has⟩
  | .set x (.copy y) => (t.valOf .node y).map fun v => t.bindNew x ⟨.node, t.made, v.source, t.made, [t.made]⟩
  | .set x (.children y) =>
    (t.valOf .node y).map fun v => t.bindNew x ⟨.children, t.made, v.source, v.home, t.made :: v.has⟩
  | .set x (.child y more) =>
    (t.valOf .children y).map fun v => if more then t.bindNew x ⟨.node, t.made, v.source, v.id, t.made :: v.has⟩ else t
  | .set x (.search y) =>
    (t.valOf .node y).map fun v =>
      { t.bindNew x ⟨.search, t.made, v.source, v.home, [t.made]⟩ with
        begun := fun i => if i = t.made then none else t.begun i }
  | .set x (.again y) =>
    (t.valOf .search y).map fun v =>
      { t.bindNew x ⟨.search, t.made, v.source, v.home, [t.made]⟩ with
        begun := fun i => if i = t.made then t.begun v.id else t.begun i }
  | .set x (.plan y a) =>
    (t.valOf .search y).map fun v =>
      match t.begun v.id with
      | some (_, true) => t
      | b =>
        match a with
        | .plan more =>
          { t.bindNew x ⟨.node, t.made, v.source, t.made, [t.made]⟩ with
            begun := fun i => if i = v.id then some (place v.id b, !more) else t.begun i }
        | .stop => { t with begun := fun i => if i = v.id then some (place v.id b, true) else t.begun i }
  | .del x => (t.val x).map fun _ => { t with vars := t.vars.filter fun b => decide (b.1 ≠ x) }
  | .look y => ((t.val y).filter fun v => decide (v.kind = .pddl ∨ v.kind = .part ∨ v.kind = .node)).map fun _ => t
  | .label y => (t.valOf .node y).map fun _ => t

/-- The objects that a statement reads: apart from the object of the variable itself, the Pddl where propositions are printed
or actions tried, and the place of the search that has begun, or of the root of one that has not. -/
def reads (t : Track) : Cmd → List Nat
  | .set _ (.children y) => ((t.valOf .node y).map (·.source)).toList
  | .set _ (.child y _) => ((t.valOf .children y).map (·.source)).toList
  | .look y => ((t.valOf .node y).map (·.source)).toList
  | .set _ (.plan y _) =>
    match t.valOf .search y with
    | none => []
    | some v =>
      match t.begun v.id with
      | some (_, true) => []
      | some (j, false) => [v.source, j]
      | none => [v.source, v.home]
  | _ => []

/-- Every statement only reads objects that are held. -/
def Safe : Track → List Cmd → Prop
  | _, [] => True
  | t, c :: cs => (∀ i ∈ t.reads c, t.Held i) ∧ match t.next c with
    | some t' => Safe t' cs
    | none => True

/-- No variables. -/
def start : Track := ⟨[], 0, fun _ => none⟩

end Track

/-- The statement gives up no variable whose value is of a class in `K`. -/
def Spares (K : List Kind) (t : Track) : Cmd → Prop
  | .set x _ => ∀ v, t.val x = some v → v.kind ∉ K
  | .del x => ∀ v, t.val x = some v → v.kind ∉ K
  | _ => True

/-- The program gives up no variable whose value is of a class in `K`: such variables are neither deleted nor assigned to. -/
def Keeps (K : List Kind) : Track → List Cmd → Prop
  | _, [] => True
  | t, c :: cs =>
    Spares K t c ∧
    match t.next c with
    | some t' => Keeps K t' cs
    | none => True

/-- The program makes no search. -/
def NoSearch (cs : List Cmd) : Prop := ∀ c ∈ cs, ∀ x y, c ≠ .set x (.search y)

end Symbolic.PyLife
