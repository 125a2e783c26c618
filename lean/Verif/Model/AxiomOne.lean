import Verif.Model.Axiom

/-!
# A single axiom and a partial state
-/

namespace Symbolic

variable [StrHash]

/-- The loop axiom.cc:165-169: passes over the instances of one axiom until a pass changes nothing. The first argument
bounds the number of passes; `axs` are the axioms that effects trigger. -/
def oneAxiomFix (m : ObjMap) (axs : List Ax) (fuel : Nat) (ax : Ax) : Nat → PartialState → Res Bool
  | 0, _ => .fuel
  | k + 1, s => do
    let r ← consistentPLoop m axs fuel ax ax.arguments s false
    if r.1 then (if r.2.1 then oneAxiomFix m axs fuel ax k r.2.2 else pure true) else pure false

/-- axiom.cc:161-171: `IsConsistent(const PartialState&)`. -/
def Ax.isConsistentP (m : ObjMap) (axs : List Ax) (fuel : Nat) (ax : Ax) (s : PartialState) : Res Bool :=
  oneAxiomFix m axs fuel ax fuel s

end Symbolic
