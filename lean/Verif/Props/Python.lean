import Verif.Lemmas.Python
import Verif.Props.StateIndex
import Verif.Props.Search

/-!
# C70-C72: objects of the Python module
-/

namespace Symbolic

/-! ## C70 -/

section
variable [StrHash]

/-- **C70, partial: actions.** Whatever else a program does with its Pddls, an action of a Pddl that was made by the
constructor and still exists looks the arguments of `to_string` up in this Pddl, as it is now: the call returns
`name(arg, ...)` if they all name objects and throws otherwise. -/
theorem C70_actions_partial (pre post : List PyOp) (t : Ptree) (b : Bool) (k : Nat) (m₀ m : PyMem)
    (h₀ : PyMem.empty.run pre = .ok m₀) (h : PyMem.empty.run (pre ++ .init t b k :: post) = .ok m)
    (c : PyCell) (hc : m.cell m₀.cells.length = .ok c) (i : Nat) (op : Op) (hop : c.pddl.actions[i]? = some op)
    (args : List Name) :
    ((∃ os, List.Forall₂ (Named c.pddl.symbols) args os) →
      m.actionToString m₀.cells.length i args = .ok (callString op.name args)) ∧
    ((¬ ∃ os, List.Forall₂ (Named c.pddl.symbols) args os) →
      m.actionToString m₀.cells.length i args = .exc .runtimeError) := by
  have hhome : c.home = m₀.cells.length := by
    rw [PyMem.run_append, h₀] at h
    simp only [Res.bind, PyMem.run, Res.bind_eq_ok, PyMem.step, Res.pure_eq, Res.ok.injEq] at h
    obtain ⟨m₁, ⟨P, -, rfl⟩, h2⟩ := h
    obtain ⟨-, h3⟩ := PyMem.run_home h2 (a := m₀.cells.length) (by simp)
    obtain ⟨c', h4, h5⟩ := h3 c (PyMem.cell_ok.1 hc)
    simp at h4
    rw [← h5, ← h4]
  have e : m.actionToString m₀.cells.length i args = (do
      let os ← lookupAll c.pddl.symbols args
      pure (callString op.name (os.map Obj.name))) := by
    simp only [PyMem.actionToString, hc, Res.bind_ok, PyMem.item, hop, hhome, PyMem.parseObjects_live hc]
  rw [e]
  constructor
  · rintro ⟨os, ho⟩
    have hn : os.map Obj.name = args := by
      clear e
      induction ho with
      | nil => rfl
      | @cons n o ns os h _ ih =>
        obtain ⟨_, _, -, h, -⟩ := h
        simp [h, ih]
    simp only [(lookupAll_ok _ _ _).2 ho, Res.bind_ok, Res.pure_eq, hn]
  · intro hno
    rcases lookupAll_cases c.pddl.symbols args with ⟨os, ho⟩ | ho
    · exact absurd ⟨os, (lookupAll_ok _ _ _).1 ho⟩ hno
    · rw [ho]; rfl

/-- **C70, refuted: actions of an unpickled Pddl.** They point to the temporary Pddl from which the unpickled one was moved;
whatever the program does, `to_string` of any arguments is undefined. -/
theorem C70_unpickled_refuted (pre post : List PyOp) (t : Ptree) (k : Nat) (m₀ m : PyMem)
    (h₀ : PyMem.empty.run pre = .ok m₀) (h : PyMem.empty.run (pre ++ .unpickle t k :: post) = .ok m)
    (c : PyCell) (hc : m.cell (m₀.cells.length + 1) = .ok c) (i : Nat) (op : Op) (hop : c.pddl.actions[i]? = some op)
    (args : List Name) (hargs : args ≠ []) :
    m.actionToString (m₀.cells.length + 1) i args = .ub := by
  rw [PyMem.run_append, h₀] at h
  simp only [Res.bind, PyMem.run, Res.bind_eq_ok, PyMem.step, Res.pure_eq, Res.ok.injEq] at h
  obtain ⟨m₁, ⟨P, -, rfl⟩, h2⟩ := h
  obtain ⟨-, h3⟩ := PyMem.run_home h2 (a := m₀.cells.length + 1) (by simp)
  obtain ⟨c', h4, h5⟩ := h3 c (PyMem.cell_ok.1 hc)
  obtain ⟨-, h6⟩ := PyMem.run_home h2 (a := m₀.cells.length) (by simp)
  have hhome : c.home = m₀.cells.length := by
    simp at h4
    rw [← h5, ← h4]
  have hr : m.read (some m₀.cells.length) = .ub := by
    have : m.cell m₀.cells.length = .ub := by
      unfold PyMem.cell
      split
      · rename_i c₂ e
        obtain ⟨c₃, e', -⟩ := h6 c₂ e
        simp at e'
      · rfl
    simp only [PyMem.read, this]
    rfl
  simp only [PyMem.actionToString, hc, Res.bind_ok, PyMem.item, hop, hhome, PyMem.parseObjects_ub hr hargs]
  rfl

/-- **C70, refuted: predicates.** They point to no Pddl: `to_string` of any arguments is undefined. -/
theorem C70_predicates_refuted (m : PyMem) (a : Nat) (c : PyCell) (hc : m.cell a = .ok c) (i : Nat) (p : PredDecl)
    (hp : c.pddl.tree.preds[i]? = some p) (args : List Name) (hargs : args ≠ []) :
    m.predicateToString a i args = .ub := by
  simp only [PyMem.predicateToString, hc, Res.bind_ok, PyMem.item, hp,
    PyMem.parseObjects_ub (p := PyMem.predicatePtr) rfl hargs]
  rfl

/-- **C70, C64.** The Pddl a program holds is the constructed one until the program changes it, and an unpickled Pddl is the
one constructed with `apply_axioms` from the same files, whatever was done to the Pddl it was pickled from. -/
theorem C70_contents (pre post : List PyOp) (t : Ptree) (k : Nat) (m₀ m : PyMem) (h₀ : PyMem.empty.run pre = .ok m₀) :
    (∀ b, PyMem.empty.run (pre ++ .init t b k :: post) = .ok m → (∀ op ∈ post, PyMem.Spares m₀.cells.length op) →
      ∃ c, m.cell m₀.cells.length = .ok c ∧ Pddl.make t b k = .ok c.pddl) ∧
    (PyMem.empty.run (pre ++ .unpickle t k :: post) = .ok m → (∀ op ∈ post, PyMem.Spares (m₀.cells.length + 1) op) →
      ∃ c, m.cell (m₀.cells.length + 1) = .ok c ∧ Pddl.make t true k = .ok c.pddl) := by
  refine ⟨fun b h hs => ?_, fun h hs => ?_⟩ <;> rw [PyMem.run_append, h₀] at h <;>
    simp only [Res.bind, PyMem.run, Res.bind_eq_ok, PyMem.step, Res.pure_eq, Res.ok.injEq] at h <;>
    obtain ⟨m₁, ⟨P, hP, rfl⟩, h2⟩ := h
  · exact ⟨⟨P, m₀.cells.length⟩, PyMem.cell_ok.2 (PyMem.run_spared h2 (by simp) hs), hP⟩
  · exact ⟨⟨P, m₀.cells.length⟩, PyMem.cell_ok.2 (PyMem.run_spared h2 (by simp) hs), hP⟩

/-- **C70, refuted: parameter generators.** They point to no Pddl: `index` of any arguments is undefined. -/
theorem C70_generators_refuted (m : PyMem) (a : Nat) (c : PyCell) (hc : m.cell a = .ok c) (args : List Name)
    (hargs : args ≠ []) :
    (∀ i < c.pddl.actions.length, m.actionGenIndex a i args = .ub) ∧
    ∀ i < c.pddl.tree.preds.length, m.predicateGenIndex a i args = .ub := by
  constructor <;> intro i hi
  · simp only [PyMem.actionGenIndex, hc, Res.bind_ok, PyMem.item, List.getElem?_eq_getElem hi,
      PyMem.parseObjects_ub (p := PyMem.generatorPtr) rfl hargs]
    rfl
  · simp only [PyMem.predicateGenIndex, hc, Res.bind_ok, PyMem.item, List.getElem?_eq_getElem hi,
      PyMem.parseObjects_ub (p := PyMem.generatorPtr) rfl hargs]
    rfl

/-- **C70.** Past the end of the lists of actions and predicates Python raises, whatever the arguments. -/
theorem C70_past_the_end (m : PyMem) (a : Nat) (c : PyCell) (hc : m.cell a = .ok c) (args : List Name) (i : Nat) :
    (c.pddl.actions.length ≤ i → m.actionToString a i args = .exc .outOfRange ∧
      m.actionGenIndex a i args = .exc .outOfRange) ∧
    (c.pddl.tree.preds.length ≤ i → m.predicateToString a i args = .exc .outOfRange ∧
      m.predicateGenIndex a i args = .exc .outOfRange) := by
  constructor <;> intro hi <;> constructor
  · simp only [PyMem.actionToString, hc, Res.bind_ok, PyMem.item, List.getElem?_eq_none hi]; rfl
  · simp only [PyMem.actionGenIndex, hc, Res.bind_ok, PyMem.item, List.getElem?_eq_none hi]; rfl
  · simp only [PyMem.predicateToString, hc, Res.bind_ok, PyMem.item, List.getElem?_eq_none hi]; rfl
  · simp only [PyMem.predicateGenIndex, hc, Res.bind_ok, PyMem.item, List.getElem?_eq_none hi]; rfl

/-- **C70, refuted: the state index.** It points to no Pddl: `get_proposition_index` of every proposition with arguments is
undefined, and so is `get_indexed_state` of every set that contains one. -/
theorem C70_state_index_refuted (m : PyMem) (a : Nat) (cache : IndexCache) (s head : Name) (ws : List Name)
    (hs : CallShape s head ws) (hws : ws ≠ []) :
    (m.getPropositionIndex a cache s).1 = .ub ∧
    ∀ strings, s ∈ strings → (m.getIndexedState a cache strings).1 = .ub := by
  have ht : tokenizeArguments s ≠ [] := by rwa [hs.words_eq]
  have hcell : m.cell a = .ub ∨ ∃ c, m.cell a = .ok c := by
    unfold PyMem.cell
    split
    · exact Or.inr ⟨_, rfl⟩
    · exact Or.inl rfl
  rcases hcell with hc | ⟨c, hc⟩
  · simp only [PyMem.getPropositionIndex, PyMem.getIndexedState, hc, implies_true, and_self]
  · refine ⟨?_, fun strings hm => ?_⟩
    · simp only [PyMem.getPropositionIndex, hc, PyMem.parseProp_ub (p := PyMem.indexPtr) rfl ht]
    · simp only [PyMem.getIndexedState, hc, PyMem.parseStateFrom_ub (p := PyMem.indexPtr) rfl State.empty ⟨s, hm, ht⟩]

/-- **C70, partial: the state index.** On propositions without arguments the pointer is not read, and the functions agree
with those of the index on the State the strings describe. -/
theorem C70_state_index_partial (m : PyMem) (a : Nat) (c : PyCell) (hc : m.cell a = .ok c) (cache : IndexCache)
    (strings : List Name) (h : ∀ s ∈ strings, ∃ head, CallShape s head []) :
    ∃ S, parseState c.pddl.symbols strings = .ok S ∧
      m.getIndexedState a cache strings = c.pddl.stateIndex.getIndexedState cache S := by
  have ht : ∀ s ∈ strings, tokenizeArguments s = [] := fun s hs => by
    obtain ⟨head, hh⟩ := h s hs
    exact hh.words_eq
  have hex : ∀ (l : List Name) (s : State), (∀ x ∈ l, tokenizeArguments x = []) →
      ∃ S, insertParsed c.pddl.symbols s l = .ok S := by
    intro l
    induction l with
    | nil => intro s _; exact ⟨s, rfl⟩
    | cons x xs ih =>
      intro s hx
      have h1 := hx x (by simp)
      simp only [insertParsed, parseAtom, parseArguments, h1, lookupAll, Res.bind_ok, Res.pure_eq]
      exact ih _ fun y hy => hx y (List.mem_cons_of_mem _ hy)
  obtain ⟨S, hS⟩ := hex strings State.empty ht
  refine ⟨S, hS, ?_⟩
  simp only [PyMem.getIndexedState, hc, PyMem.parseStateFrom_nil c.pddl.symbols State.empty ht, hS]

end

section
open Demo
attribute [local instance] lenHash

/-- A program: a Pddl is made (address 0), another one is unpickled (address 2), an object is added to the first. -/
def script : List PyOp := [.init tree true 5, .unpickle tree 5, .addObject 0 n!"c" n!"box"]

theorem scriptOk : (PyMem.empty.run script).isOk = true := by decide +kernel
def scriptMem : PyMem := get _ scriptOk
theorem scriptMem_run : PyMem.empty.run script = .ok scriptMem := get_eq _ _

/-- `place` of the first Pddl knows the new object, that of the second is undefined, and so are the predicate `on`, its
generator and the index. -/
example : scriptMem.actionToString 0 1 [n!"c", n!"a"] = .ok n!"place(c, a)" ∧
    scriptMem.actionToString 0 1 [n!"d", n!"a"] = .exc .runtimeError ∧
    scriptMem.actionToString 2 1 [n!"b", n!"a"] = .ub ∧ scriptMem.actionToString 2 1 [] = .ok n!"place()" ∧
    scriptMem.predicateToString 0 0 [n!"a", n!"b"] = .ub ∧ scriptMem.predicateToString 0 0 [] = .ok n!"on()" ∧
    scriptMem.actionGenIndex 0 1 [n!"a", n!"b"] = .ub ∧
    (scriptMem.getPropositionIndex 0 .empty n!"on(a, b)").1 = .ub ∧
    (scriptMem.getIndexedState 0 .empty [n!"on(a, b)"]).1 = .ub ∧
    (scriptMem.getIndexedState 0 .empty []).1 = .ok (List.replicate 10 false) := by
  refine ⟨?_, ?_, ?_, ?_, ?_, ?_, ?_, ?_, ?_, ?_⟩ <;> decide +kernel

theorem scriptCell : (scriptMem.cell 0).isOk = true := by decide +kernel

/-- The hypotheses of `C70_actions_partial` and `C70_unpickled_refuted` are met by the program. -/
example : ∃ c, scriptMem.cell 0 = .ok c ∧ c.pddl.actions[1]?.map Op.name = some n!"place" ∧
    ∃ os, List.Forall₂ (Named c.pddl.symbols) [n!"c", n!"a"] os := by
  refine ⟨get _ scriptCell, get_eq _ _, by decide +kernel, [⟨n!"c", tBox⟩, a], ?_⟩
  rw [← lookupAll_ok]
  decide +kernel

example : CallShape n!"on(a, b)" n!"on" [n!"a", n!"b"] :=
  ⟨n!"a, b)", n!"a, b", Or.inl ⟨by decide, by decide⟩, Or.inl ⟨[], by decide, by decide⟩,
    .word [] n!"a" n!", b" [n!"b"] (by simp) (by decide) (by unfold IsSep; decide) (by intro c h; cases h; exact Or.inl rfl)
      (.word n!", " n!"b" [] [] (by unfold IsSep; decide) (by decide) (by unfold IsSep; decide) (by intro c h; cases h)
        (.done [] (by simp)))⟩

end

/-! ## C71 -/

section
variable {N : Type}

/-- **C71.** `list(bfs)` of a new search is the list of plans a C++ loop visits, and leaves the search as it was. -/
theorem C71_list (sp : Space N) (D : Nat) (clock : Nat → Nat → Bool) (fuel : Nat) (root : N) (l : List (List N))
    (h : Bfs.run sp D clock fuel root = .ok l) :
    PyBfs.list sp D clock fuel root .new = .ok (l, .new) := by
  simp only [PyBfs.list, PyBfs.drain_of_run h, Res.bind_ok, Res.pure_eq]

/-- **C71.** The calls of `next(bfs)` on a new search give the same plans in the same order, then raise `StopIteration`
however often they are repeated. -/
theorem C71_next (sp : Space N) (D : Nat) (clock : Nat → Nat → Bool) (fuel : Nat) (root : N) (l : List (List N))
    (h : Bfs.run sp D clock fuel root = .ok l) (n : Nat) :
    ∃ b, PyBfs.calls sp D clock fuel root n 0 .new = .ok ((l.map some ++ List.replicate n none).take n, b) := by
  cases fuel with
  | zero => simp [Bfs.run, Bfs.begin, Bfs.next] at h
  | succ fuel => exact PyBfs.calls_of_drain (PyBfs.drain_of_run h) n

/-- **C71.** After `n` calls of `next(bfs)` without timeout, `list(bfs)` gives the plans not seen yet, again and again. -/
theorem C71_rest (sp : Space N) (D : Nat) (fuel : Nat) (root : N) (l : List (List N))
    (h : Bfs.run sp D (fun _ _ => false) fuel root = .ok l) (n : Nat) :
    ∃ rs b, PyBfs.calls sp D (fun _ _ => false) fuel root n 0 .new = .ok (rs, b) ∧
      PyBfs.list sp D (fun _ _ => false) fuel root b = .ok (l.drop n, b) := by
  obtain ⟨b, hb⟩ := C71_next sp D _ fuel root l h n
  refine ⟨_, b, hb, ?_⟩
  cases fuel with
  | zero => simp [Bfs.run, Bfs.begin, Bfs.next] at h
  | succ fuel =>
    obtain ⟨steps', hs, hd⟩ := PyBfs.drain_of_calls (PyBfs.drain_of_run h) hb
    have hclock : ∀ (steps i j : Nat) (b : PyBfs N),
        PyBfs.drain sp D (fun _ _ => false) (fuel + 1) root steps i b =
          PyBfs.drain sp D (fun _ _ => false) (fuel + 1) root steps j b := by
      intro steps
      induction steps with
      | zero => intro i j b; rfl
      | succ steps ih =>
        intro i j b
        simp only [PyBfs.drain]
        congr 1
        funext r
        cases r.1 with
        | none => rfl
        | some p => simp only [ih (i + 1) (j + 1)]
    rw [hclock _ _ 0] at hd
    simp only [PyBfs.list, PyBfs.drain_mono hd hs, Res.bind_ok, Res.pure_eq]

/-- **C71.** Where testing and expanding nodes returns, `list(bfs)` returns and holds exactly the plans of at most
`max_depth` steps, shorter ones first. -/
theorem C71_plans (sp : Space N) (D : Nat) (root : N) (g : N → Bool) (ch : N → List N) (ht : sp.Total root g ch) :
    ∃ F, ∀ fuel ≥ F, ∃ l, PyBfs.list sp D (fun _ _ => false) fuel root .new = .ok (l, .new) ∧
      (∀ p, p ∈ l ↔ PlanPath sp.Child sp.Goal D root p) ∧ l.Pairwise (fun p q => p.length ≤ q.length) := by
  obtain ⟨F, hF⟩ := C45_bfs_complete sp D root g ch ht
  refine ⟨F, fun fuel hf => ?_⟩
  obtain ⟨l, h1, h2, h3, -⟩ := hF fuel hf
  exact ⟨l, C71_list sp D _ fuel root l h1, h2, h3⟩

/-- Two plans in a tree: `0 → 1, 2`, `1 → 3`, goals `2` and `3`. -/
def fork : Space Nat := ⟨fun n => .ok (n == 2 || n == 3), fun n => .ok (if n = 0 then [1, 2] else if n = 1 then [3] else [])⟩

example : Bfs.run fork 3 (fun _ _ => false) 50 0 = .ok [[0, 2], [0, 1, 3]] := by decide +kernel

example : (PyBfs.calls fork 3 (fun _ _ => false) 50 0 4 0 .new).bind (fun r => .ok r.1) =
    .ok [some [0, 2], some [0, 1, 3], none, none] := by decide +kernel

end

/-! ## C72 -/

/-- **C72, partial.** For every position `-n ≤ i < n` of an index of `n` propositions, whatever was asked before,
`get_proposition(i)` is the string of the proposition there, negative positions counting from the end. -/
theorem C72_in_range_partial [StrHash] (objects : List Obj) (preds : List PredDecl) (hs : Signature objects preds)
    (useCache : Bool) (I : StateIndex) (hI : I = ⟨preds, ObjMap.create objects, useCache⟩) (c : IndexCache)
    (hc : I.Reached c) (n : Nat) (hn : I.size = .ok n) (h31 : n < 2 ^ 31) (l : List Atom)
    (hl : I.traverse (n + 1) 0 .empty = .ok l) (i : Int) (h1 : -n ≤ i) (h2 : i < n) :
    ∃ a, l[(if i < 0 then i + n else i).toNat]? = some a ∧ (I.getPropositionPy c i).1 = .ok a.toString := by
  have hr : I.Reached .empty := ⟨[], by simp, rfl⟩
  obtain ⟨l', n', e1, e2, e3, -, -⟩ := C40_iteration objects preds hs useCache I hI .empty hr
  rw [hn] at e1; cases e1
  rw [hl] at e2; cases e2
  have hlook : ∀ j < n, I.lookupProp j = Res.index l j := by
    have hex : ∀ i : Fin (total I.gens), ∃ a, I.lookupProp i = .ok a ∧ I.lookupIdx a = .ok i.1 ∧
        TypeCorrect objects preds a := fun i => StateIndex.lookup_of_lt hs hI i.2
    choose f g1 _ _ using hex
    have hn' := hn
    rw [StateIndex.size_eq] at hn'
    cases hn'
    have := traverse_spec (List.ofFn f) (total I.gens) 0 .empty hr.ok (by simp) ?_ (by omega)
    · rw [hl] at this
      simp only [List.drop_zero, Res.ok.injEq] at this
      subst this
      intro j hj
      have hj' : j < (List.ofFn f).length := by simpa using hj
      rw [Res.index_lt hj']
      simpa using g1 ⟨j, hj⟩
    · intro j hj
      rw [Res.index_lt hj]
      simp only [List.length_ofFn] at hj
      simpa using g1 ⟨j, hj⟩
  obtain ⟨j, hj, hjn⟩ : ∃ j : Nat, (if i < 0 then i + (n : Int) else i) = (j : Int) ∧ j < n := by
    split
    · exact ⟨(i + n).toNat, by omega, by omega⟩
    · exact ⟨i.toNat, by omega, by omega⟩
  have hjl : j < l.length := by omega
  refine ⟨l[j], ?_, ?_⟩
  · rw [hj]
    simp [hjl]
  · have hp := (StateIndex.getProposition_ok hc.ok j).1
    rw [hlook j hjn, Res.index_lt hjl] at hp
    have e0 : ¬ ((j : Int) < 0) := by omega
    have e1 : ¬ (j + 1 = 2 ^ 64) := by omega
    simp only [StateIndex.getPropositionPy, hn, hj, e0, if_false, Int.toNat_natCast, e1]
    generalize I.getProposition c j = r at hp
    obtain ⟨r, c'⟩ := r
    simp only at hp
    subst hp
    rfl

/-- **C72, refuted.** Every other position is undefined behaviour, not an `IndexError`. -/
theorem C72_out_of_range_refuted [StrHash] (I : StateIndex) (c : IndexCache) (hc : I.Reached c) (n : Nat)
    (hn : I.size = .ok n) (h31 : n < 2 ^ 31) (i : Int) (hi : -2 ^ 31 ≤ i ∧ i < 2 ^ 31) (h : i < -n ∨ n ≤ i) :
    (I.getPropositionPy c i).1 = .ub := by
  have hpast : ∀ k, n ≤ k → (I.getProposition c k).1 = .ub := by
    intro k hk
    rw [(StateIndex.getProposition_ok hc.ok k).1]
    rw [StateIndex.size_eq] at hn
    cases hn
    exact StateIndex.lookupProp_past I hk
  simp only [StateIndex.getPropositionPy, hn]
  generalize hj : (if i < 0 then i + (n : Int) else i) = j
  generalize hk : (if j < 0 then (j + 2 ^ 64).toNat else j.toNat) = k
  have hk' : n ≤ k := by
    rw [← hk]
    split at hj <;> split <;> omega
  have := hpast k hk'
  split
  · rfl
  · generalize I.getProposition c k = r at this
    obtain ⟨r, c'⟩ := r
    simp only at this
    subst this
    rfl

section
open Demo
attribute [local instance] lenHash

example : P.stateIndex.size = .ok 10 ∧ (P.stateIndex.getPropositionPy .empty (-1)).1 = .ok n!"busy(b)" ∧
    (P.stateIndex.getPropositionPy .empty 3).1 = .ok n!"on(b, table)" ∧
    (P.stateIndex.getPropositionPy .empty (-7)).1 = .ok n!"on(b, table)" ∧
    (P.stateIndex.getPropositionPy .empty 10).1 = .ub ∧ (P.stateIndex.getPropositionPy .empty (-11)).1 = .ub := by
  refine ⟨?_, ?_, ?_, ?_, ?_, ?_⟩ <;> decide +kernel

end
end Symbolic
