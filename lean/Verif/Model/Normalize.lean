import Verif.Model.Pddl

/-!
# Normalized conditions of action calls

Transcription of normal_form.cc:480-562. With `apply_axioms` every conjunction is completed by
`Pddl::ConsistentState`.
-/

namespace Symbolic

variable [StrHash]

namespace Pddl

/-- normal_form.cc:493-503, 518-525, 536-541, 554-559: the loop over the conjunctions. -/
def consistentConjs (P : Pddl) (fuel : Nat) : Dnf → Res Dnf
  | [] => .ok []
  | c :: rest => do
    let c' ← P.consistentStateP fuel c
    let rest' ← consistentConjs P fuel rest
    pure (c' :: rest')

/-- The optional completion of a normal form. -/
def completeDnf (P : Pddl) (fuel : Nat) (applyAxioms : Bool) : Option Dnf → Res (Option Dnf)
  | none => .ok none
  | some d => if applyAxioms then do
      let d' ← P.consistentConjs fuel d
      pure (some d')
    else .ok (some d)

/-- normal_form.cc:510-527: `NormalizePreconditions`. -/
def normalizePre (P : Pddl) (fuel : Nat) (call : Name) (applyAxioms : Bool) : Res (Option Dnf) := do
  let oa ← P.parseAction call
  let pre ← oa.1.pre.dnf P.ctx oa.1.params oa.2
  P.completeDnf fuel applyAxioms pre

/-- normal_form.cc:529-545: `NormalizePostconditions`. -/
def normalizePost (P : Pddl) (fuel : Nat) (call : Name) (applyAxioms : Bool) : Res (Option Dnf) := do
  let oa ← P.parseAction call
  let post ← oa.1.eff.dnf P.ctx oa.1.params oa.2
  P.completeDnf fuel applyAxioms post

/-- normal_form.cc:480-507: `NormalizeConditions`. -/
def normalizeConditions (P : Pddl) (fuel : Nat) (call : Name) (applyAxioms : Bool) : Res (Option (Dnf × Dnf)) := do
  let oa ← P.parseAction call
  let pre ← oa.1.pre.dnf P.ctx oa.1.params oa.2
  match pre with
  | none => pure none
  | some pre => do
    let post ← oa.1.eff.dnf P.ctx oa.1.params oa.2
    match post with
    | none => pure none
    | some post =>
      if applyAxioms then do
        let pre' ← P.consistentConjs fuel pre
        let post' ← P.consistentConjs fuel post
        pure (some (pre', post'))
      else pure (some (pre, post))

/-- normal_form.cc:547-562: `NormalizeGoal`. -/
def normalizeGoal (P : Pddl) (fuel : Nat) (applyAxioms : Bool) : Res (Option Dnf) := do
  let goal ← P.tree.goal.dnf P.ctx [] []
  P.completeDnf fuel applyAxioms goal

end Pddl
end Symbolic
