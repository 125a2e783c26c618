import Verif.Spec.Conformant
import Verif.Spec.Propagate

/-!
# Specification: more knowledge
-/

namespace Symbolic

variable [StrHash]

/-- Everything that `K` knows is known in `L`. -/
def PartialState.Below (K L : PartialState) : Prop := (∀ x ∈ K.pos, x ∈ L.pos) ∧ ∀ x ∈ K.neg, x ∈ L.neg

/-- `ConsistentState` does not add anything to `K`. -/
def Pddl.Settled (P : Pddl) (fuel : Nat) (K : PartialState) : Prop :=
  K.isConsistent = true ∧ P.consistentStateP fuel K = .ok K

/-- Apply the actions in turn, and `ConsistentState` after each; what is known never contradicts the axioms. -/
inductive Ptree.Track (t : Ptree) (P : Pddl) (fuel : Nat) : PartialState → List Name → PartialState → Prop
  | nil {K : PartialState} : Track t P fuel K [] K
  | cons {K K₁ K₂ K' : PartialState} {call : Name} {op : Op} {args : List Obj} {i : Nat} {calls : List Name} :
      P.parseAction call = .ok (op, args) → op.apply P.omap P.axioms fuel args K = .ok (i, K₁) →
      t.Coherent (· ∈ K₁.pos) (· ∈ K₁.neg) → P.consistentStateP fuel K₁ = .ok K₂ → Track t P fuel K₂ calls K' →
      Track t P fuel K (call :: calls) K'

/-- The same, where every action is known to be valid and does not contradict itself, its conditions are about known atoms that
it does not cause. -/
inductive Ptree.SoundTrack (t : Ptree) (P : Pddl) (fuel : Nat) : PartialState → List Name → PartialState → Prop
  | nil {K : PartialState} : SoundTrack t P fuel K [] K
  | cons {K K₁ K₂ K' : PartialState} {call : Name} {op : Op} {args : List Obj} {i : Nat} {calls : List Name} :
      P.parseAction call = .ok (op, args) → op.isValid P.omap K args = .ok true →
      t.AllCondsClosed op → Knows (t.constants ++ t.objects) (· ∈ K.pos) (· ∈ K.neg) (t.MayAsk op) →
      NoConflict (t.KnownCauses K op args) → t.NotRead op (t.KnownCauses K op args) →
      op.apply P.omap P.axioms fuel args K = .ok (i, K₁) → P.consistentStateP fuel K₁ = .ok K₂ →
      SoundTrack t P fuel K₂ calls K' → SoundTrack t P fuel K (call :: calls) K'

end Symbolic
