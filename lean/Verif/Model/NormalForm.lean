import Verif.Model.Formula

/-!
# Disjunctive normal form

Transcription of src/normal_form.cc with `apply_axioms = false`, the value used by every caller in the
library (axiom.cc:40, 55, 62, normal_form.cc:305, 320, 332, 356, 401, 440, 445, 485-490, 513, 532, 550).
A `DisjunctiveFormula` is the list of its conjunctions; `none` stands for the empty optional (false) and the
empty list for "true" (normal_form.cc:172, 181).

Simplifications. Atoms carry names only, so `EvaluateType` (normal_form.cc:55-59) finds the type of an argument
by looking its name up among the objects of the Pddl; this is the same object when names are unique.
`EvaluateEquals` (normal_form.cc:35-47) leaves an equation between two different variables or a
variable and a constant unevaluated. Variables occur only when the constructor of an axiom uses its parameters as
arguments (axiom.cc:55, 62); they are then listed in the context, and a name among them is taken as the variable, also
where it stands for an object of the same name.
-/

namespace Symbolic

variable [StrHash]

/-- What the normal form needs of the Pddl: its objects and its object map; and the variables among the arguments. -/
structure NfCtx where
  objects : List Obj
  omap : ObjMap
  vars : List Obj

/-- The object a name stands for (see the file comment). -/
def NfCtx.objOf (c : NfCtx) (n : Name) : Obj :=
  match (c.vars ++ c.objects).find? (fun o => decide (o.name = n)) with
  | some o => o
  | none => ⟨n, []⟩

/-- `DisjunctiveFormula`. -/
abbrev Dnf := List PartialState

/-- The name is that of a variable. -/
def NfCtx.isVar (c : NfCtx) (n : Name) : Bool := c.vars.any (fun o => decide (o.name = n))

/-- normal_form.cc:35-47. The symbols cast to variables differ if the names do and one of them is a variable. -/
def evaluateEquals (c : NfCtx) (a : Atom) : Res (Option Bool) :=
  if a.pred ≠ n!"=" then .ok none
  else do
    let x ← Res.index a.args 0
    let y ← Res.index a.args 1
    pure (if decide (x ≠ y) && (c.isVar x || c.isVar y) then none else some (decide (x = y)))

/-- normal_form.cc:55-59. -/
def evaluateType (c : NfCtx) (a : Atom) : Res (Option Bool) :=
  if !c.omap.has a.pred then .ok none
  else do
    let x ← Res.index a.args 0
    pure (some ((c.objOf x).isSubtype a.pred))

/-- normal_form.cc:49-53, 61-67: apply `f` to the only literal of a conjunction and negate the answer for a negative
literal. `*begin()` of an empty set is undefined. -/
def evaluateSingle (f : Atom → Res (Option Bool)) (conj : PartialState) : Res (Option Bool) :=
  if conj.neg.isEmpty then do
    let a ← Res.index conj.pos.elems 0
    f a
  else do
    let a ← Res.index conj.neg.elems 0
    let r ← f a
    pure (r.map (!·))

/-- normal_form.cc:131-148: `Evaluate`. -/
def evaluateConj (c : NfCtx) (conj : PartialState) : Res (Option Bool) := do
  let e1 ← (if conj.size = 1 then evaluateSingle (evaluateEquals c) conj else pure none)
  match e1 with
  | some b => pure (some b)
  | none => do
    let e2 ← (if conj.size = 1 then evaluateSingle (evaluateType c) conj else pure none)
    match e2 with
    | some b => pure (some b)
    | none => pure (if conj.isConsistent then none else some false)

/-- normal_form.cc:87-98: `IsSubset`. -/
def isSubset (sub super : PartialState) : Bool :=
  if sub.size > super.size then false
  else sub.pos.elems.all (fun a => super.pos.contains a) && sub.neg.elems.all (fun a => super.neg.contains a)

/-- Insertion into a sorted list; stands for `std::sort`. -/
def sortInsert (x : PartialState) : List PartialState → List PartialState
  | [] => [x]
  | y :: ys => if y.lt x then y :: sortInsert x ys else x :: y :: ys

def sortList : List PartialState → List PartialState
  | [] => []
  | x :: xs => sortInsert x (sortList xs)

/-- `std::unique`: drop elements equal to their predecessor. -/
def uniqueList : List PartialState → List PartialState
  | [] => []
  | [x] => [x]
  | x :: y :: rest => if x.beq y then uniqueList (y :: rest) else x :: uniqueList (y :: rest)

/-- normal_form.cc:80-85: `SortUnique`. -/
def sortUnique (l : List PartialState) : List PartialState := uniqueList (sortList l)

/-- normal_form.cc:103-125: `TryInsertSubset`. -/
def tryInsertSubset (conj : PartialState) (conjs : List PartialState) : Bool × List PartialState :=
  if conjs.any (fun c => isSubset c conj) then (true, conjs)
  else if conjs.any (fun c => isSubset conj c) then
    (true, sortUnique (conjs.map (fun c => if isSubset conj c then conj else c)))
  else (false, conjs)

/-- The loop normal_form.cc:157-178; `none` is the early return of the empty (true) formula. -/
def simplifyLoop (c : NfCtx) : List PartialState → List PartialState → Res (Option (List PartialState))
  | [], ret => .ok (some ret)
  | conj :: rest, ret => do
    let e ← evaluateConj c conj
    match e with
    | none =>
      let r := tryInsertSubset conj ret
      simplifyLoop c rest (if r.1 then r.2 else r.2 ++ [conj])
    | some true => pure none
    | some false => simplifyLoop c rest ret

/-- normal_form.cc:150-187: `Simplify`. -/
def simplify (c : NfCtx) (dnf : Dnf) : Res (Option Dnf) :=
  if dnf = [] then .ok (some [])
  else do
    let r ← simplifyLoop c dnf []
    match r with
    | none => pure (some [])
    | some ret => pure (if ret = [] then none else some (sortUnique ret))

/-- normal_form.cc:189-199: `Disjoin`. -/
def disjoin (c : NfCtx) (dnfs : List Dnf) : Res (Option Dnf) := simplify c dnfs.flatten

/-- The union of a combination of conjunctions (normal_form.cc:220-226). -/
def unionConj (combo : List PartialState) : PartialState :=
  combo.foldl (fun acc t => ⟨(acc.pos.insertRange t.pos.elems).2, (acc.neg.insertRange t.neg.elems).2⟩)
    PartialState.empty

/-- normal_form.cc:201-230: `Conjoin`. -/
def conjoin (c : NfCtx) (dnfs : List Dnf) : Res (Option Dnf) := do
  let options ← Comb.ctor (dnfs.filter (fun d => decide (d ≠ [])))
  let combos ← Comb.forward PartialState.empty options (Comb.size options + 1)
  simplify c (combos.map unionConj)

/-- normal_form.cc:262-276 with 232-260: `Negate`. Each conjunction becomes the list of its negated literals. -/
def negateDnf (c : NfCtx) (dnf : Dnf) : Res (Option Dnf) :=
  conjoin c (dnf.map fun conj =>
    (conj.neg.elems.map (fun a => ⟨State.ofList [a], State.empty⟩)) ++
    (conj.pos.elems.map (fun a => ⟨State.empty, State.ofList [a]⟩)))

/-- The proposition of a simple goal or effect (normal_form.cc:285-292, 411-417). -/
def dnfAtom (params : List Obj) (pred : Name) (ts : List Term) (args : List Obj) : Res Atom := do
  let os ← applyFn params (ts.map Term.obj) args
  pure (Atom.ofObjs pred os)

/-- Loop over quantified argument lists: a contradictory instance ends a universal formula and is skipped in an
existential one (normal_form.cc:350-366). `none` is the early `return {}`. -/
def dnfLoop (isAll : Bool) (f : List Obj → Res (Option Dnf)) : List (List Obj) → Res (Option (List Dnf))
  | [] => .ok (some [])
  | os :: rest => do
    let d ← f os
    match d with
    | none => if isAll then pure none else dnfLoop isAll f rest
    | some d => do
      let r ← dnfLoop isAll f rest
      pure (r.map (d :: ·))

mutual
/-- normal_form.cc:278-377: `Create` for goals. -/
def Goal.dnf (c : NfCtx) : Goal → List Obj → List Obj → Res (Option Dnf)
  | .atom pred ts, params, args => do
    let a ← dnfAtom params pred ts args
    pure (some [⟨State.ofList [a], State.empty⟩])
  | .conj gs, params, args => do
    let ds ← Goal.dnfAll c gs params args
    match ds with
    | none => pure none
    | some ds => conjoin c ds
  | .disj gs, params, args => do
    let ds ← Goal.dnfAny c gs params args
    disjoin c ds
  | .neg g, params, args => do
    let d ← Goal.dnf c g params args
    match d with
    | none => pure (some [])
    | some d => negateDnf c d
  | .all vars g, params, args => do
    let tuples ← genLoop (paramTypes c.omap vars)
    let ds ← dnfLoop true (fun os => Goal.dnf c g (params ++ vars) (args ++ os)) tuples
    match ds with
    | none => pure none
    | some ds => conjoin c ds
  | .ex vars g, params, args => do
    let tuples ← genLoop (paramTypes c.omap vars)
    let ds ← dnfLoop false (fun os => Goal.dnf c g (params ++ vars) (args ++ os)) tuples
    match ds with
    | none => pure none
    | some ds => disjoin c ds
  | .other, _, _ => .ok none

/-- normal_form.cc:303-308. -/
def Goal.dnfAll (c : NfCtx) : List Goal → List Obj → List Obj → Res (Option (List Dnf))
  | [], _, _ => .ok (some [])
  | g :: gs, params, args => do
    let d ← Goal.dnf c g params args
    match d with
    | none => pure none
    | some d => do
      let r ← Goal.dnfAll c gs params args
      pure (r.map (d :: ·))

/-- normal_form.cc:318-323. -/
def Goal.dnfAny (c : NfCtx) : List Goal → List Obj → List Obj → Res (List Dnf)
  | [], _, _ => .ok []
  | g :: gs, params, args => do
    let d ← Goal.dnf c g params args
    let r ← Goal.dnfAny c gs params args
    pure (match d with
      | none => r
      | some d => d :: r)
end

/-- The propositions of the add (or delete) effects (normal_form.cc:408-431). -/
def dnfSimple (params args : List Obj) : List (Name × List Term) → State → Res State
  | [], s => .ok s
  | (pred, ts) :: rest, s => do
    let a ← dnfAtom params pred ts args
    dnfSimple params args rest (s.insert a).2

mutual
/-- normal_form.cc:379-478: `Create` for effects. -/
def Eff.dnf (c : NfCtx) : Eff → List Obj → List Obj → Res (Option Dnf)
  | .mk fs adds dels cs, params, args => do
    let ds ← FList.dnf c fs params args
    match ds with
    | none => pure none
    | some ds => do
      let pos ← dnfSimple params args adds State.empty
      let neg ← dnfSimple params args dels State.empty
      let ds := if !pos.isEmpty || !neg.isEmpty then ds ++ [[⟨pos, neg⟩]] else ds
      let es ← CList.dnf c cs params args
      conjoin c (ds ++ es)

/-- normal_form.cc:386-405. -/
def FList.dnf (c : NfCtx) : FList → List Obj → List Obj → Res (Option (List Dnf))
  | .nil, _, _ => .ok (some [])
  | .cons vars e rest, params, args => do
    let tuples ← genLoop (paramTypes c.omap vars)
    let ds ← dnfLoop true (fun os => Eff.dnf c e (params ++ vars) (args ++ os)) tuples
    match ds with
    | none => pure none
    | some ds => do
      let r ← FList.dnf c rest params args
      pure (r.map (ds ++ ·))

/-- normal_form.cc:438-475. -/
def CList.dnf (c : NfCtx) : CList → List Obj → List Obj → Res (List Dnf)
  | .nil, _, _ => .ok []
  | .cons g e rest, params, args => do
    let condition ← Goal.dnf c g params args
    match condition with
    | none => CList.dnf c rest params args
    | some cond => do
      let result ← Eff.dnf c e params args
      if cond = [] then
        match result with
        | none => .exc .runtimeError
        | some r => do
          let ds ← CList.dnf c rest params args
          pure (r :: ds)
      else do
        let ncond ← negateDnf c cond
        match ncond with
        | none => CList.dnf c rest params args
        | some ncond =>
          match result with
          | none => do
            let ds ← CList.dnf c rest params args
            pure (ncond :: ds)
          | some r => do
            let d ← disjoin c [ncond, r]
            match d with
            | none => .exc .runtimeError
            | some d => do
              let ds ← CList.dnf c rest params args
              pure (d :: ds)
end

end Symbolic
