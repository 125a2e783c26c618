import Verif.Spec.SetHistory
import Verif.Lemmas.State

/-!
# C01-C05: states and partial states
-/

namespace Symbolic
variable [StrHash]

private theorem history_spec (init : List Atom) (h : List SetOp) (x : Atom) :
    x ∈ history init h ↔ specSet init h x := by
  suffices ∀ (h : List SetOp) (s : State) (S : Atom → Prop), (∀ x, x ∈ s ↔ S x) →
      ∀ x, x ∈ h.foldl (fun s op => (SetOp.call s op).2) s ↔ h.foldl SetOp.spec S x from
    this h _ _ (fun x => State.mem_ofList) x
  intro h
  induction h with
  | nil => intro s S hs x; exact hs x
  | cons op h ih =>
    intro s S hs x
    refine ih _ _ (fun y => ?_) x
    cases op with
    | insert a => simp [SetOp.call, SetOp.spec, hs]
    | erase a => simp [SetOp.call, SetOp.spec, hs, and_comm]
    | insertRange l => simp [SetOp.call, SetOp.spec, hs]

/-- C01. After every history of `insert`, `erase` and range `insert` calls on a constructed state,
`contains` is membership in the mathematical set, every call returns true exactly when it changes
that set, the propositions iterated over are its elements without repetition, and `size`/`empty` are
its cardinality/emptiness. -/
theorem C01_state_is_a_set (init : List Atom) (h : List SetOp) :
    (∀ x, (history init h).contains x = true ↔ specSet init h x) ∧
    (∀ op : SetOp, (op.call (history init h)).1 = true ↔ op.changes (specSet init h)) ∧
    (∃ l : List Atom, l.Nodup ∧ (∀ x, x ∈ l ↔ specSet init h x) ∧ (history init h).size = l.length) ∧
    ((history init h).isEmpty = true ↔ ∀ x, ¬ specSet init h x) := by
  have hs := history_spec init h
  refine ⟨hs, ?_, ⟨(history init h).elems, State.elems_nodup _, ?_, State.size_eq _⟩, ?_⟩
  · intro op
    cases op with
    | insert a => simp [SetOp.call, SetOp.changes, State.insert_flag, hs]
    | erase a => simp [SetOp.call, SetOp.changes, State.erase_flag, hs]
    | insertRange l => simp [SetOp.call, SetOp.changes, State.insertRange_flag, hs]
  · intro x; rw [State.mem_elems, hs]
  · simp only [State.isEmpty, State.size_eq, beq_iff_eq, List.length_eq_zero_iff,
      List.eq_nil_iff_forall_not_mem, State.mem_elems, hs]

/-- Non-vacuity: a history with three distinct atoms, one removed again. -/
example : let a : Atom := ⟨n!"p", []⟩; let b : Atom := ⟨n!"q", [n!"x"]⟩
    specSet [a] [.insert b, .erase a] b ∧ ¬ specSet [a] [.insert b, .erase a] a := by
  simp [specSet, SetOp.spec]

/-- C02. `==`, the hash and the iteration order depend only on which propositions are contained, not
on the history: two states built in any way are `==` exactly when they contain the same propositions,
and then they have the same hash and iterate in the same order. -/
theorem C02_equality_hash_order_canonical (i₁ i₂ : List Atom) (h₁ h₂ : List SetOp) :
    ((history i₁ h₁).beq (history i₂ h₂) = true ↔ ∀ x, specSet i₁ h₁ x ↔ specSet i₂ h₂ x) ∧
    ((∀ x, specSet i₁ h₁ x ↔ specSet i₂ h₂ x) →
      (history i₁ h₁).stdHash = (history i₂ h₂).stdHash ∧
      (history i₁ h₁).elems = (history i₂ h₂).elems ∧
      (history i₁ h₁).size = (history i₂ h₂).size) := by
  have key : (∀ x, specSet i₁ h₁ x ↔ specSet i₂ h₂ x) ↔ history i₁ h₁ = history i₂ h₂ := by
    constructor
    · intro h; ext x; rw [history_spec, history_spec, h]
    · intro h x; rw [← history_spec, ← history_spec, h]
  refine ⟨by rw [State.beq_iff, key], fun h => ?_⟩
  rw [key.1 h]; simp

/-- Non-vacuity: different histories of the same set. -/
example : let a : Atom := ⟨n!"p", []⟩; let b : Atom := ⟨n!"q", [n!"x"]⟩
    (∀ x, specSet [a, b] [] x ↔ specSet [] [.insert b, .insert ⟨n!"r", []⟩, .insert a, .erase ⟨n!"r", []⟩] x) := by
  intro a b x
  simp only [specSet, SetOp.spec, List.foldl, List.mem_cons, List.not_mem_nil, or_false, a, b]
  constructor
  · rintro (rfl | rfl) <;> simp
  · rintro ⟨h | h | h, h'⟩ <;> tauto

/-- C03. `operator<` on states and on partial states is a strict total order compatible with `==`. -/
theorem C03_order_strict_total :
    StrictTotal State.lt ∧ StrictTotal PartialState.lt ∧
    (∀ s t : State, s.beq t = true ↔ (s.lt t = false ∧ t.lt s = false)) ∧
    (∀ s t : PartialState, s.beq t = true ↔ (s.lt t = false ∧ t.lt s = false)) := by
  refine ⟨State.lt_strictTotal, PartialState.lt_strictTotal, fun s t => ?_, fun s t => ?_⟩
  · rw [State.beq_iff]
    constructor
    · rintro rfl; simp [State.lt_strictTotal.irrefl]
    · rintro ⟨h1, h2⟩; exact State.lt_strictTotal.eq_of_not h1 h2
  · rw [PartialState.beq_iff]
    constructor
    · rintro rfl; simp [PartialState.lt_strictTotal.irrefl]
    · rintro ⟨h1, h2⟩; exact PartialState.lt_strictTotal.eq_of_not h1 h2

/-- Non-vacuity: distinct states exist and are ordered one way. -/
example : let s := State.ofList [⟨n!"p", []⟩]
    s.lt State.empty = true ∨ State.empty.lt s = true := by
  intro s
  rcases State.lt_strictTotal.total s State.empty with h | h | h
  · exact Or.inl h
  · exfalso
    have : (⟨n!"p", []⟩ : Atom) ∈ s := by simp [s]
    rw [h] at this; simp at this
  · exact Or.inr h

/-- C04. Incrementing from `begin()` reaches `end()` after exactly `size()` steps, dereferencing
inside the arrays only, and visits each contained proposition exactly once; decrementing from `end()`
visits the same propositions in reverse order and stops at `begin()`. -/
theorem C04_iteration_visits_once (s : State) (budget : Nat) (hb : s.size < budget) :
    ∃ l : List Atom, s.val.traverse budget s.val.itBegin = .ok l ∧
      l.Nodup ∧ (∀ a, a ∈ l ↔ s.contains a = true) ∧ l.length = s.size ∧
      s.val.traverseBack budget s.val.itEnd = .ok l.reverse := by
  have hpos := s.inv.binv.pos
  rw [State.size_eq] at hb
  exact ⟨s.elems, HashSet.traverse_begin _ hpos hb, State.elems_nodup s, fun a => State.mem_elems,
    (State.size_eq s).symm, HashSet.traverseBack_end _ hpos hb⟩

/-- Non-vacuity: a state of two propositions. -/
example : (State.ofList [⟨n!"p", []⟩, ⟨n!"q", []⟩]).size < 3 := by
  obtain ⟨l, h1, h2, h3⟩ := (C01_state_is_a_set [⟨n!"p", []⟩, ⟨n!"q", []⟩] []).2.2.1
  have hs : (State.ofList [⟨n!"p", []⟩, ⟨n!"q", []⟩]).size = l.length := h3
  have h4 : l.length ≤ [(⟨n!"p", []⟩ : Atom), ⟨n!"q", []⟩].length :=
    (List.subperm_of_subset h1 (fun x hx => by simpa [specSet] using (h2 x).1 hx)).length_le
  rw [hs]; simp at h4; omega

/-- C05. A partial state that represents some knowledge keeps doing so under `insert` and `erase`: the
call returns the documented code, updates exactly the named atom, `contains`/`does_not_contain` answer
the known value or throw `UnknownEvaluation` when the atom is unknown, and `IsConsistent` holds. -/
theorem C05_partial_state (s : PartialState) (K : Knowledge) (h : Represents s K) (ops : List PartialOp) :
    Represents (ops.foldl (fun s op => (op.call s).2) s) (ops.foldl PartialOp.spec K) ∧
    (∀ op : PartialOp, (op.call (ops.foldl (fun s op => (op.call s).2) s)).1
      = op.code (ops.foldl PartialOp.spec K)) ∧
    (∀ a, (ops.foldl (fun s op => (op.call s).2) s).contains a =
      match ops.foldl PartialOp.spec K a with
      | some v => .ok v
      | none => .exc .unknownEvaluation) ∧
    (∀ a, (ops.foldl (fun s op => (op.call s).2) s).doesNotContain a =
      match ops.foldl PartialOp.spec K a with
      | some v => .ok (!v)
      | none => .exc .unknownEvaluation) ∧
    (ops.foldl (fun s op => (op.call s).2) s).isConsistent = true := by
  have hr : Represents (ops.foldl (fun s op => (op.call s).2) s) (ops.foldl PartialOp.spec K) := by
    induction ops generalizing s K with
    | nil => exact h
    | cons op ops ih =>
      refine ih _ _ (fun a => ?_)
      have ha := h a
      cases op with
      | insert b =>
        by_cases hab : a = b
        · subst hab
          simp [PartialOp.call, PartialOp.spec, PartialState.insert, PartialOp.atom, PartialOp.value]
        · simp [PartialOp.call, PartialOp.spec, PartialState.insert, PartialOp.atom, hab, ha.1, ha.2]
      | erase b =>
        by_cases hab : a = b
        · subst hab
          simp [PartialOp.call, PartialOp.spec, PartialState.erase, PartialOp.atom, PartialOp.value]
        · simp [PartialOp.call, PartialOp.spec, PartialState.erase, PartialOp.atom, hab, ha.1, ha.2]
  generalize ops.foldl (fun s op => (op.call s).2) s = t at *
  generalize ops.foldl PartialOp.spec K = L at *
  refine ⟨hr, fun op => ?_, fun a => ?_, fun a => ?_, ?_⟩
  · have ha := hr op.atom
    cases op with
    | insert b =>
      simp only [PartialOp.atom] at ha
      simp only [PartialOp.call, PartialState.insert, PartialOp.code, PartialOp.atom, PartialOp.value,
        State.insert_flag, State.erase_flag, ha.1, ha.2]
      cases hL : L b with
      | none => simp
      | some v => cases v <;> simp
    | erase b =>
      simp only [PartialOp.atom] at ha
      simp only [PartialOp.call, PartialState.erase, PartialOp.code, PartialOp.atom, PartialOp.value,
        State.insert_flag, State.erase_flag, ha.1, ha.2]
      cases hL : L b with
      | none => simp
      | some v => cases v <;> simp
  · have ha := hr a
    simp only [PartialState.contains, State.contains_eq, ha.1, ha.2]
    cases hL : L a with
    | none => simp
    | some v => cases v <;> simp
  · have ha := hr a
    simp only [PartialState.doesNotContain, State.contains_eq, ha.1, ha.2]
    cases hL : L a with
    | none => simp
    | some v => cases v <;> simp
  · rw [PartialState.isConsistent_iff]
    intro a hp hn
    rw [(hr a).1] at hp; rw [(hr a).2, hp] at hn; simp at hn

/-- C05, continued. `IsConsistent` on any partial state, however built, is true exactly when no atom is
both in `pos` and in `neg`; then the partial state represents some knowledge. -/
theorem C05_isConsistent_iff (s : PartialState) :
    (s.isConsistent = true ↔ ∀ a, ¬ (s.pos.contains a = true ∧ s.neg.contains a = true)) ∧
    (s.isConsistent = true ↔ ∃ K, Represents s K) := by
  have h1 : s.isConsistent = true ↔ ∀ a, ¬ (s.pos.contains a = true ∧ s.neg.contains a = true) := by
    rw [PartialState.isConsistent_iff]
    simp only [State.mem_def, not_and]
  refine ⟨h1, ?_⟩
  constructor
  · intro h
    rw [PartialState.isConsistent_iff] at h
    refine ⟨fun a => if a ∈ s.pos then some true else if a ∈ s.neg then some false else none, fun a => ?_⟩
    have := h a
    by_cases hp : a ∈ s.pos <;> by_cases hn : a ∈ s.neg <;> simp_all
  · rintro ⟨K, hK⟩
    rw [PartialState.isConsistent_iff]
    intro a hp hn
    rw [(hK a).1] at hp; rw [(hK a).2, hp] at hn; simp at hn

/-- Non-vacuity: the fresh partial state represents "nothing known", and an insert makes an atom known. -/
example : Represents PartialState.empty (fun _ => none) ∧
    PartialOp.code (fun _ => none) (.insert ⟨n!"p", []⟩) = 1 ∧
    PartialOp.code (PartialOp.spec (fun _ => none) (.insert ⟨n!"p", []⟩)) (.erase ⟨n!"p", []⟩) = 2 := by
  refine ⟨fun a => by simp [PartialState.empty], rfl, by decide⟩

end Symbolic
