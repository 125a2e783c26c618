import Verif.Model.Normalize

/-!
# Normal forms checked against the axioms

`DisjunctiveFormula::Create` with `apply_axioms = true` (normal_form.h:59-78). The flag only reaches the outermost
`Conjoin` or `Disjoin`: recursive calls leave it out (normal_form.cc:305, 320, 332, 356, 401, 440, 445), and so do
atoms (normal_form.cc:293-294) and `Negate` (normal_form.cc:275, 335). `valid` stands for
`Axiom::IsConsistent(pddl.axioms(), conj)`. Also the conversion of a `ConjunctiveFormula`.
-/

namespace Symbolic

variable [StrHash]

/-- normal_form.cc:131-148: `Evaluate` with `apply_axioms`. The axioms are asked last. -/
def evaluateConjA (valid : PartialState → Res Bool) (c : NfCtx) (conj : PartialState) : Res (Option Bool) := do
  let e ← evaluateConj c conj
  match e with
  | some b => pure (some b)
  | none => do
    let b ← valid conj
    pure (if b then none else some false)

/-- The loop normal_form.cc:157-178. -/
def simplifyLoopA (valid : PartialState → Res Bool) (c : NfCtx) :
    List PartialState → List PartialState → Res (Option (List PartialState))
  | [], ret => .ok (some ret)
  | conj :: rest, ret => do
    let e ← evaluateConjA valid c conj
    match e with
    | none =>
      let r := tryInsertSubset conj ret
      simplifyLoopA valid c rest (if r.1 then r.2 else r.2 ++ [conj])
    | some true => pure none
    | some false => simplifyLoopA valid c rest ret

/-- normal_form.cc:150-187: `Simplify`. -/
def simplifyA (valid : PartialState → Res Bool) (c : NfCtx) (dnf : Dnf) : Res (Option Dnf) :=
  if dnf = [] then .ok (some [])
  else do
    let r ← simplifyLoopA valid c dnf []
    match r with
    | none => pure (some [])
    | some ret => pure (if ret = [] then none else some (sortUnique ret))

/-- normal_form.cc:189-199: `Disjoin`. -/
def disjoinA (valid : PartialState → Res Bool) (c : NfCtx) (dnfs : List Dnf) : Res (Option Dnf) :=
  simplifyA valid c dnfs.flatten

/-- normal_form.cc:201-230: `Conjoin`. -/
def conjoinA (valid : PartialState → Res Bool) (c : NfCtx) (dnfs : List Dnf) : Res (Option Dnf) := do
  let options ← Comb.ctor (dnfs.filter (fun d => decide (d ≠ [])))
  let combos ← Comb.forward PartialState.empty options (Comb.size options + 1)
  simplifyA valid c (combos.map unionConj)

/-- normal_form.cc:278-377: `Create` for goals. -/
def Goal.dnfA (valid : PartialState → Res Bool) (c : NfCtx) (g : Goal) (params args : List Obj) : Res (Option Dnf) :=
  match g with
  | .conj gs => do
    let ds ← Goal.dnfAll c gs params args
    match ds with
    | none => pure none
    | some ds => conjoinA valid c ds
  | .disj gs => do
    let ds ← Goal.dnfAny c gs params args
    disjoinA valid c ds
  | .all vars g => do
    let tuples ← genLoop (paramTypes c.omap vars)
    let ds ← dnfLoop true (fun os => Goal.dnf c g (params ++ vars) (args ++ os)) tuples
    match ds with
    | none => pure none
    | some ds => conjoinA valid c ds
  | .ex vars g => do
    let tuples ← genLoop (paramTypes c.omap vars)
    let ds ← dnfLoop false (fun os => Goal.dnf c g (params ++ vars) (args ++ os)) tuples
    match ds with
    | none => pure none
    | some ds => disjoinA valid c ds
  | g => Goal.dnf c g params args

/-- normal_form.cc:438-475: the conditional effects of one level. -/
def CList.dnfA (valid : PartialState → Res Bool) (c : NfCtx) : CList → List Obj → List Obj → Res (List Dnf)
  | .nil, _, _ => .ok []
  | .cons g e rest, params, args => do
    let condition ← Goal.dnf c g params args
    match condition with
    | none => CList.dnfA valid c rest params args
    | some cond => do
      let result ← Eff.dnf c e params args
      if cond = [] then
        match result with
        | none => .exc .runtimeError
        | some r => do
          let ds ← CList.dnfA valid c rest params args
          pure (r :: ds)
      else do
        let ncond ← negateDnf c cond
        match ncond with
        | none => CList.dnfA valid c rest params args
        | some ncond =>
          match result with
          | none => do
            let ds ← CList.dnfA valid c rest params args
            pure (ncond :: ds)
          | some r => do
            let d ← disjoinA valid c [ncond, r]
            match d with
            | none => .exc .runtimeError
            | some d => do
              let ds ← CList.dnfA valid c rest params args
              pure (d :: ds)

/-- normal_form.cc:379-478: `Create` for effects. -/
def Eff.dnfA (valid : PartialState → Res Bool) (c : NfCtx) : Eff → List Obj → List Obj → Res (Option Dnf)
  | .mk fs adds dels cs, params, args => do
    let ds ← FList.dnf c fs params args
    match ds with
    | none => pure none
    | some ds => do
      let pos ← dnfSimple params args adds State.empty
      let neg ← dnfSimple params args dels State.empty
      let ds := if !pos.isEmpty || !neg.isEmpty then ds ++ [[⟨pos, neg⟩]] else ds
      let es ← CList.dnfA valid c cs params args
      conjoinA valid c (ds ++ es)

/-- normal_form.cc:238-255: `Convert`; each disjunction becomes the list of its literals. -/
def convertCnf (cnf : List PartialState) : List Dnf :=
  cnf.map fun disj =>
    (disj.pos.elems.map (fun a => ⟨State.ofList [a], State.empty⟩)) ++
    (disj.neg.elems.map (fun a => ⟨State.empty, State.ofList [a]⟩))

namespace Pddl

/-- normal_form.h:59-69: `Create(pddl, formula, parameters, arguments, apply_axioms)`. -/
def createDnf (P : Pddl) (fuel : Nat) (g : Goal) (params args : List Obj) (applyAxioms : Bool) : Res (Option Dnf) :=
  if applyAxioms then g.dnfA (P.isValidStateP fuel) P.ctx params args else g.dnf P.ctx params args

/-- normal_form.h:71-74: `Create(pddl, effects, parameters, arguments, apply_axioms)`. -/
def createEffDnf (P : Pddl) (fuel : Nat) (e : Eff) (params args : List Obj) (applyAxioms : Bool) : Res (Option Dnf) :=
  if applyAxioms then e.dnfA (P.isValidStateP fuel) P.ctx params args else e.dnf P.ctx params args

/-- normal_form.cc:257-260: `Create(pddl, cnf, apply_axioms)`. -/
def createCnf (P : Pddl) (fuel : Nat) (cnf : List PartialState) (applyAxioms : Bool) : Res (Option Dnf) :=
  if applyAxioms then conjoinA (P.isValidStateP fuel) P.ctx (convertCnf cnf) else conjoin P.ctx (convertCnf cnf)

end Pddl

end Symbolic
