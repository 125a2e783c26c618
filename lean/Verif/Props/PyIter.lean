import Verif.Lemmas.PyIter
import Verif.Props.Combinations
import Verif.Props.PlannerBack

/-!
# C85: iterating over a node or a parameter generator in Python
-/

namespace Symbolic

section
variable [StrHash]

/-- **C85.** A Python program that only looks at what the latest `next` gave, and at copies of that, sees the children of the
node as if it iterated over a list of them (`PlannerNode(c)`, `c.action`). -/
theorem C85_children_partial (P : Pddl) (fuel : Nat) (parent : PNode) (l : List PNode) (h : P.children fuel parent = .ok l)
    (us : List PyUse) (hp : PyPrompt [] us) :
    ∃ p m, P.pyKids fuel parent = .ok p ∧ (P.kids fuel parent).run ⟨p, []⟩ us = .ok m ∧
      ∀ x, ((pyKinds [] us)[x]? = some .latest ∨ (pyKinds [] us)[x]? = some .copied) →
        ∃ w, (pyWanted l 0 [] us)[x]? = some w ∧ (P.kids fuel parent).read m x = .ok w := by
  simp only [Pddl.children, Res.bind_eq_ok] at h
  obtain ⟨it, h1, h2⟩ := h
  obtain ⟨e, h3⟩ := Pddl.nodeLoop_runs h2
  obtain ⟨m, pos, h4, h5⟩ := CppIter.run_ok h3.start hp
  exact ⟨_, m, by simp only [Pddl.pyKids, h1, Res.bind_ok]; rfl, h4, fun x hx => CppIter.read_ok h5 hx⟩

/-- **C85, refuted** for objects that are kept: after `list(node)` all objects show the same node, so that the list is wrong
whenever there are two different children. -/
theorem C85_list_children_refuted (P : Pddl) (fuel : Nat) (parent : PNode) (l : List PNode)
    (h : P.children fuel parent = .ok l) (c c' : PNode) (hc : c ∈ l) (hc' : c' ∈ l) (hne : c ≠ c') :
    ∃ p d, P.pyKids fuel parent = .ok p ∧ (∀ k, l.length < k → (P.kids fuel parent).listed k p = .ok (List.replicate l.length (some d))) ∧
      l.map some ≠ List.replicate l.length (some d) := by
  simp only [Pddl.children, Res.bind_eq_ok] at h
  obtain ⟨it, h1, h2⟩ := h
  obtain ⟨e, h3⟩ := Pddl.nodeLoop_runs h2
  have hl : l ≠ [] := List.ne_nil_of_mem hc
  obtain ⟨d, hd⟩ := Pddl.runs_child h3 hl
  refine ⟨_, d, by simp only [Pddl.pyKids, h1, Res.bind_ok]; rfl, fun k hk => ?_, fun he => ?_⟩
  · rw [CppIter.listed_eq h3 hk hl, hd]; rfl
  · have e1 : some c ∈ List.replicate l.length (some d) := he ▸ List.mem_map_of_mem hc
    have e2 : some c' ∈ List.replicate l.length (some d) := he ▸ List.mem_map_of_mem hc'
    have e1 := (List.mem_replicate.1 e1).2
    have e2 := (List.mem_replicate.1 e2).2
    exact hne (Option.some.inj (e1.trans e2.symm))

end

/-- **C85.** The same for the argument lists of a parameter generator: `[o.name for o in args]`. -/
theorem C85_arguments_partial (options : List (List Obj)) (hne : ∀ o ∈ options, o ≠ []) (us : List PyUse) (hp : PyPrompt [] us) :
    ∃ p m, Comb.pyIter options = .ok p ∧ (Comb.cpp options).run ⟨p, []⟩ us = .ok m ∧
      ∀ x, ((pyKinds [] us)[x]? = some .latest ∨ (pyKinds [] us)[x]? = some .copied) →
        ∃ w, (pyWanted (if options = [] then [] else cartesian options) 0 [] us)[x]? = some w ∧
          (Comb.cpp options).read m x = .ok w := by
  obtain ⟨p, e, h1, h2, _⟩ := Comb.pyIter_runs hne
  obtain ⟨m, pos, h4, h5⟩ := CppIter.run_ok h2.start hp
  exact ⟨_, m, h1, h4, fun x hx => CppIter.read_ok h5 hx⟩

/-- **C85, refuted** for argument lists that are kept: after `list(generator)` all of them show the last one. This is so for
every generator. -/
theorem C85_list_arguments_refuted (options : List (List Obj)) (h0 : options ≠ []) (hne : ∀ o ∈ options, o ≠ []) :
    ∃ p last, Comb.pyIter options = .ok p ∧ (cartesian options).getLast? = some last ∧
      (∀ k, Comb.size options < k →
        (Comb.cpp options).listed k p = .ok (List.replicate (cartesian options).length (some last))) ∧
      ((∀ o ∈ options, o.Nodup) → 2 ≤ (cartesian options).length →
        (cartesian options).map some ≠ List.replicate (cartesian options).length (some last)) := by
  obtain ⟨p, e, h1, h2, h3⟩ := Comb.pyIter_runs hne
  rw [if_neg h0] at h2 h3
  have hl : cartesian options ≠ [] := by
    intro h
    have := Comb.length_cartesian options
    rw [h] at this
    have hp := Comb.count_pos hne
    rw [← this] at hp
    simp at hp
  refine ⟨_, e.comb, h1, h3 hl, fun k hk => ?_, fun hn h2' he => ?_⟩
  · rw [CppIter.listed_eq h2 (by rw [Comb.length_cartesian, ← Comb.size_of_ne_nil h0]; exact hk) hl]; rfl
  · have hnd := Comb.nodup_cartesian hn
    match hc : cartesian options, hnd, h2' with
    | c :: c' :: r, hnd, _ =>
      rw [hc] at he
      simp only [List.map_cons, List.length_cons, List.replicate_succ, List.cons.injEq, Option.some.injEq] at he
      simp only [List.nodup_cons, List.mem_cons, not_or] at hnd
      exact hnd.1.1 (he.1.trans he.2.1.symm)

/-- The program `for c in it: keep(copy(c))`, from the `i`-th element on. -/
def copyEach : Nat → Nat → List PyUse
  | _, 0 => []
  | i, n + 1 => .next :: .copy (2 * i) :: copyEach (i + 1) n

/-- Copying each element before asking for the next one is such a program, and the copies are the elements. -/
theorem C85_copies {V : Type} (l : List V) (n : Nat) :
    PyPrompt [] (copyEach 0 n) ∧ ∀ i < n, (pyKinds [] (copyEach 0 n))[2 * i + 1]? = some .copied ∧
      (pyWanted l 0 [] (copyEach 0 n))[2 * i + 1]? = some l[i]? := by
  have gen : ∀ (n i : Nat) (ks : List PyKind) (vs : List (Option V)), ks.length = 2 * i → vs.length = 2 * i →
      PyPrompt ks (copyEach i n) ∧
      (∀ j : Nat, ks[j]? = some PyKind.copied → (pyKinds ks (copyEach i n))[j]? = some PyKind.copied) ∧
      (∀ j, i ≤ j → j < i + n → (pyKinds ks (copyEach i n))[2 * j + 1]? = some .copied) ∧
      (∀ (j : Nat) (v : Option V), vs[j]? = some v → (pyWanted l i vs (copyEach i n))[j]? = some v) ∧
      ∀ j, i ≤ j → j < i + n → (pyWanted l i vs (copyEach i n))[2 * j + 1]? = some l[j]? := by
    intro n
    induction n with
    | zero => intro i ks vs _ _; exact ⟨trivial, fun _ h => h, fun j h1 h2 => by omega, fun _ _ h => h, fun j h1 h2 => by omega⟩
    | succ n ih =>
      intro i ks vs hk hv
      have hk1 : (ks.map PyKind.age ++ [.latest])[2 * i]? = some PyKind.latest := by
        rw [List.getElem?_append_right (by simp [hk])]; simp [hk]
      have hv1 : (vs ++ [l[i]?])[2 * i]? = some l[i]? := by
        rw [List.getElem?_append_right (by simp [hv])]; simp [hv]
      obtain ⟨i1, i2, i3, i4, i5⟩ := ih (i + 1) (ks.map PyKind.age ++ [.latest] ++ [.copied]) (vs ++ [l[i]?] ++ [l[i]?])
        (by simp [hk]; omega) (by simp [hv]; omega)
      have e1 : pyKinds ks (copyEach i (n + 1)) = pyKinds (ks.map PyKind.age ++ [.latest] ++ [.copied]) (copyEach (i + 1) n) := rfl
      have e2 : pyWanted l i vs (copyEach i (n + 1)) = pyWanted l (i + 1) (vs ++ [l[i]?] ++ [l[i]?]) (copyEach (i + 1) n) := by
        simp only [copyEach, pyWanted, hv1, Option.join_some]
      rw [e1, e2]
      refine ⟨⟨.inl hk1, i1⟩, fun j hj => i2 j ?_, fun j h1 h2 => ?_, fun j v hj => i4 j v ?_, fun j h1 h2 => ?_⟩
      · have hlt := (List.getElem?_eq_some_iff.1 hj).1
        rw [List.append_assoc, List.getElem?_append_left (by simpa using hlt), List.getElem?_map, hj]; rfl
      · rcases Nat.lt_or_ge i j with h | h
        · exact i3 j h (by omega)
        · have : j = i := by omega
          subst this
          refine i2 _ ?_
          rw [List.getElem?_append_right (by simp [hk])]; simp [hk]
      · have hlt := (List.getElem?_eq_some_iff.1 hj).1
        rw [List.append_assoc, List.getElem?_append_left hlt, hj]
      · rcases Nat.lt_or_ge i j with h | h
        · exact i5 j h (by omega)
        · have : j = i := by omega
          subst this
          refine i4 _ _ ?_
          rw [List.getElem?_append_right (by simp [hv])]; simp [hv]
  obtain ⟨h1, _, h3, _, h5⟩ := gen n 0 [] [] rfl rfl
  exact ⟨h1, fun i hi => ⟨h3 i (by omega) (by omega), h5 i (by omega) (by omega)⟩⟩

/-! ## Examples and refutations -/

section
open Demo
attribute [local instance] lenHash

/-- The demo domain with the table declared last. -/
def lateTree : Ptree := { tree with constants := [], objects := [a, b, table] }
theorem lateMade : (Pddl.make lateTree true 5).isOk = true := by decide +kernel
def lateP : Pddl := get _ lateMade
def lateRoot : PNode := PNode.root lateP.initial
theorem lateKidsMade : (lateP.children 5 lateRoot).isOk = true := by decide +kernel

/-- The node after `pick(a)`. -/
def picked : PNode :=
  match get _ lateKidsMade with
  | c :: _ => c
  | [] => lateRoot

/-- **C85, refuted**: after `list(node)` the objects may even show a node that is no child: the state after the last possible
call was visited before. -/
theorem C85_no_child_refuted :
    picked.action = n!"pick(a)" ∧ kidCalls (lateP.children 5 picked) = .ok [n!"pick(b)", n!"place(a, b)"] ∧
    visitedCalls (lateP.pyKids 5 picked >>= fun p => (lateP.kids 5 picked).listed 20 p) =
      .ok [some n!"place(a, table)", some n!"place(a, table)"] := by
  refine ⟨?_, ?_, ?_⟩ <;> decide +kernel

/-- The copies made in a loop. -/
example : visitedCalls (lateP.pyKids 5 picked >>= fun p => (lateP.kids 5 picked).run ⟨p, []⟩ (copyEach 0 3) >>= fun m => do
    let x ← (lateP.kids 5 picked).read m 1
    let y ← (lateP.kids 5 picked).read m 3
    let z ← (lateP.kids 5 picked).read m 5
    pure [x, y, z]) = .ok [some n!"pick(b)", some n!"place(a, b)", none] := by decide +kernel

/-- The hypotheses of `C85_list_arguments_refuted` for the arguments of `place`. -/
example : paramTypes P.omap place.params ≠ [] ∧ (∀ o ∈ paramTypes P.omap place.params, o ≠ [] ∧ o.Nodup) ∧
    (cartesian (paramTypes P.omap place.params)).length = 6 := by decide +kernel

/-- What Python shows of `list(generator)` for two boxes. -/
example : (Comb.pyIter [[a, b], [a, b]] >>= fun p => (Comb.cpp [[a, b], [a, b]]).listed 9 p) =
    .ok [some [b, b], some [b, b], some [b, b], some [b, b]] := by decide

/-- A program that asks twice before it looks at the first result is not prompt. -/
example : ¬ PyPrompt [] [.next, .next, .copy 0] := by simp [PyPrompt, PyKind.age]

end

end Symbolic
