import Verif.Lemmas.VecState
import Verif.Props.States
import Verif.Examples.Demo

/-!
# C105: the two implementations of State are interchangeable
-/

namespace Symbolic

section
variable [StrHash]

/-- The call on a vector. -/
def SetOp.callVec (s : VecState) : SetOp → Bool × VecState
  | .insert a => s.insert a
  | .erase a => s.erase a
  | .insertRange l => s.insertRange l

/-- The vector after a history on `State(initializer_list)`. -/
def historyVec (init : List Atom) (h : List SetOp) : VecState :=
  h.foldl (fun s op => (op.callVec s).2) (VecState.ofList init)

theorem callVec_spec {s : VecState} (hs : Sorted' s) (op : SetOp) : Sorted' (op.callVec s).2 ∧
    (∀ x, x ∈ (op.callVec s).2 ↔ op.spec (· ∈ s) x) ∧ ((op.callVec s).1 = true ↔ op.changes (· ∈ s)) := by
  cases op with
  | insert a => exact ⟨UV.insert_sorted hs a, fun x => UV.mem_insert hs a x, UV.insert_flag hs a⟩
  | erase a => exact ⟨UV.erase_sorted hs a, fun x => by
      rw [SetOp.callVec, VecState.erase, UV.mem_erase hs, SetOp.spec]; exact and_comm, UV.erase_flag hs a⟩
  | insertRange l =>
    obtain ⟨h1, h2, h3⟩ := VecState.insertRange_spec l s false hs
    refine ⟨h1, h2, h3.trans ?_⟩
    simp [SetOp.changes]

theorem historyVec_spec (init : List Atom) (h : List SetOp) :
    Sorted' (historyVec init h) ∧ ∀ x, x ∈ historyVec init h ↔ specSet init h x := by
  suffices ∀ (h : List SetOp) (s : VecState) (S : Atom → Prop), Sorted' s → (∀ x, x ∈ s ↔ S x) →
      Sorted' (h.foldl (fun s op => (SetOp.callVec s op).2) s) ∧
        ∀ x, x ∈ h.foldl (fun s op => (SetOp.callVec s op).2) s ↔ h.foldl SetOp.spec S x from
    this h _ _ (UV.ofList_spec init).1 (UV.ofList_spec init).2
  intro h
  induction h with
  | nil => intro s S hs he; exact ⟨hs, he⟩
  | cons op h ih =>
    intro s S hs he
    obtain ⟨h1, h2, -⟩ := callVec_spec hs op
    have : (· ∈ s) = S := funext fun x => propext (he x)
    exact ih _ _ h1 (by rw [← this]; exact h2)

/-- **C105.** After the same history of `insert`, `erase` and range `insert` calls, a State that is a vector answers every question
as one that is a hash set does: `contains`, the returned flags of further calls, `size`, `empty`, and both visit the same propositions,
each once. -/
theorem C105_answers (init : List Atom) (h : List SetOp) :
    (∀ x, (historyVec init h).contains x = (history init h).contains x) ∧
    (∀ op : SetOp, (op.callVec (historyVec init h)).1 = (op.call (history init h)).1) ∧
    (historyVec init h).size = (history init h).size ∧
    (historyVec init h).Perm (history init h).elems := by
  obtain ⟨hs, hm⟩ := historyVec_spec init h
  obtain ⟨c1, c2, -, -⟩ := C01_state_is_a_set init h
  have hperm : (historyVec init h).Perm (history init h).elems :=
    (List.perm_ext_iff_of_nodup hs.nodup (State.elems_nodup _)).2 fun x => by
      rw [hm, State.mem_elems, ← c1 x]; rfl
  refine ⟨fun x => ?_, fun op => ?_, ?_, hperm⟩
  · rw [Bool.eq_iff_iff, c1 x, ← hm x]
    exact UV.contains_iff hs x
  · rw [Bool.eq_iff_iff, c2 op, (callVec_spec hs op).2.2]
    have : (· ∈ historyVec init h) = specSet init h := funext fun x => propext (hm x)
    rw [this]
  · rw [State.size_eq]
    exact hperm.length_eq

/-- **C105.** Two vectors are `==` exactly when two hash sets with these histories are, and then have the same hash. -/
theorem C105_equality (i₁ i₂ : List Atom) (h₁ h₂ : List SetOp) :
    (historyVec i₁ h₁).beq (historyVec i₂ h₂) = (history i₁ h₁).beq (history i₂ h₂) ∧
      ((historyVec i₁ h₁).beq (historyVec i₂ h₂) = true → (historyVec i₁ h₁).stdHash = (historyVec i₂ h₂).stdHash) := by
  obtain ⟨hs₁, hm₁⟩ := historyVec_spec i₁ h₁
  obtain ⟨hs₂, hm₂⟩ := historyVec_spec i₂ h₂
  refine ⟨?_, fun h => by rw [of_decide_eq_true h]⟩
  rw [Bool.eq_iff_iff, (C02_equality_hash_order_canonical i₁ i₂ h₁ h₂).1, VecState.beq, decide_eq_true_iff]
  constructor
  · intro e x; rw [← hm₁, ← hm₂, e]
  · intro e; exact sorted_ext hs₁ hs₂ fun x => by rw [hm₁, hm₂, e]

/-- **C105.** Where the hash set is visited in ascending order as well, the hashes agree; so they do with at most one
proposition. -/
theorem C105_hash (init : List Atom) (h : List SetOp) :
    ((history init h).elems.Pairwise (fun x y => Atom.lt x y = true) → (historyVec init h).stdHash = (history init h).stdHash) ∧
    ((history init h).size ≤ 1 → (historyVec init h).stdHash = (history init h).stdHash) := by
  have hperm := (C105_answers init h).2.2.2
  have key : (history init h).elems.Pairwise (fun x y => Atom.lt x y = true) →
      (historyVec init h).stdHash = (history init h).stdHash := fun hp => by
    have : historyVec init h = (history init h).elems := sorted_ext (historyVec_spec init h).1 hp fun x => hperm.mem_iff
    simp only [VecState.stdHash, State.stdHash, this]
  refine ⟨key, fun hs => key ?_⟩
  rw [State.size_eq] at hs
  match (history init h).elems, hs with
  | [], _ => exact .nil
  | [_], _ => exact List.pairwise_singleton _ _

/-- **C105.** The order of vectors is a strict total order as well. -/
theorem C105_order : StrictTotal VecState.lt := lexLt_strictTotal LawfulElem.strict

/-- **C105.** A vector is visited in the order of its propositions. -/
theorem C105_sorted (init : List Atom) (h : List SetOp) : (historyVec init h).Pairwise fun x y => Atom.lt x y = true :=
  (historyVec_spec init h).1

end

/-- **C105.** So its order of iteration does not depend on the hash function, unlike that of the hash set
(`C105_iteration_refuted`). -/
theorem C105_hash_independent (h₁ h₂ : StrHash) (init : List Atom) (h : List SetOp) :
    @historyVec h₁ init h = @historyVec h₂ init h := by
  obtain ⟨hs₁, hm₁⟩ := @historyVec_spec h₁ init h
  obtain ⟨hs₂, hm₂⟩ := @historyVec_spec h₂ init h
  letI := h₁
  exact sorted_ext (α := Atom) hs₁ hs₂ fun x => by rw [hm₁, hm₂]

section
open Demo
attribute [local instance] lenHash

/-- A vector after some calls. -/
example : historyVec [on b table, on a table, on b table] [.insert (inhand a), .erase (on a table)] = [inhand a, on b table] := by
  decide +kernel

/-- **C105, refuted** for iteration, `operator<` and the hash: the hash set visits its propositions in another order, orders states
differently and hashes them differently. -/
theorem C105_iteration_refuted : ∃ i₁ i₂ : List Atom, (history i₁ []).elems ≠ historyVec i₁ [] ∧
    (history i₁ []).lt (history i₂ []) = true ∧ (historyVec i₁ []).lt (historyVec i₂ []) = false ∧
    (history i₁ []).stdHash ≠ (historyVec i₁ []).stdHash := by
  refine ⟨[⟨n!"aa", []⟩, ⟨n!"b", []⟩], [⟨n!"aa", []⟩], ?_⟩
  decide +kernel

end

end Symbolic
