import Verif.Lemmas.PyLife

/-!
# C87: Python objects stay usable as long as they are held
-/

namespace Symbolic.PyLife

/-- **C87, exactly.** A Python program reads a destroyed object if and only if some statement needs the Pddl, the root of a
search that has not begun, or the search in which an iterator began, and no variable keeps it alive. -/
theorem C87_exact (cs : List Cmd) : St.run ⟨[], []⟩ cs = .ub ↔ ¬ Track.start.Safe cs := run_ub_iff inv_start cs

/-- **C87** for programs without searches: it is enough to keep the variables that hold the Pddls. -/
theorem C87_pddl_kept_partial (cs : List Cmd) (hs : NoSearch cs) (hk : Keeps [.pddl] Track.start cs) :
    St.run ⟨[], []⟩ cs ≠ .ub := fun h =>
  (C87_exact cs).1 h (kept_safe (S := false) (by simp) (by simp) (kept_start _ _) (fun _ => hs) hk)

/-- **C87** for all programs: it is enough to keep the variables that hold Pddls, nodes and searches. Planners, iterators over
children and parts of Pddls may be dropped. -/
theorem C87_all_kept_partial (cs : List Cmd) (hk : Keeps [.pddl, .node, .search] Track.start cs) :
    St.run ⟨[], []⟩ cs ≠ .ub := fun h =>
  (C87_exact cs).1 h (kept_safe (S := true) (by simp) (by simp) (kept_start _ _) (by simp) hk)

/-- **C87** for parts of a Pddl: no program that makes no planner reads a destroyed object, whatever it drops. -/
theorem C87_parts (cs : List Cmd) (h : ∀ c ∈ cs, ∀ x y, c ≠ .set x (.planner y)) : St.run ⟨[], []⟩ cs ≠ .ub := by
  intro hub
  refine (C87_exact cs).1 hub ?_
  have key : ∀ (cs : List Cmd) (t : Track), (∀ c ∈ cs, ∀ x y, c ≠ Cmd.set x (.planner y)) →
      (∀ y v, t.val y = some v → v.kind = .pddl ∨ v.kind = .part) → t.Safe cs := by
    intro cs
    induction cs with
    | nil => intros; trivial
    | cons c cs ih =>
      intro t hc hv
      have hno : ∀ k y, k ≠ Kind.pddl → k ≠ .part → t.valOf k y = none := by
        intro k y h1 h2
        simp only [Track.valOf, Option.filter_eq_none_iff]
        intro v e
        rcases hv y v e with e | e <;> simp [e, Ne.symm h1, Ne.symm h2]
      have hnew : ∀ (x : Nat) (v : Val) (t' : Track), (∀ y, t'.val y = if y = x then some v else t.val y) →
          (v.kind = .pddl ∨ v.kind = .part) → ∀ y v, t'.val y = some v → v.kind = .pddl ∨ v.kind = .part := by
        intro x v t' ht hk y w hw
        rw [ht] at hw
        split at hw
        · cases hw; exact hk
        · exact hv y w hw
      have hc' := fun t' => ih t' fun c hm => hc c (List.mem_cons_of_mem _ hm)
      match c with
      | .set x (.var y) =>
        refine ⟨by simp [Track.reads], ?_⟩
        simp only [Track.next]
        match h : t.val y with
        | none => trivial
        | some v => exact hc' _ (hnew x v _ (Track.val_bind t x · v) (hv y v h))
      | .set x .pddl =>
        exact ⟨by simp [Track.reads], hc' _ (hnew x _ _ (Track.val_bindNew t x · _) (.inl rfl))⟩
      | .set x (.planner y) => exact absurd rfl (hc _ List.mem_cons_self x y)
      | .set x (.part y) =>
        refine ⟨by simp [Track.reads], ?_⟩
        split
        · rename_i t' ht
          simp only [Track.next, Option.map_eq_some_iff] at ht
          obtain ⟨v, _, rfl⟩ := ht
          exact hc' _ (hnew x ⟨.part, t.made, v.source, v.source, t.made :: v.has⟩ _ (Track.val_bindNew t x · _) (.inr rfl))
        · trivial
      | .set x (.root y) => exact ⟨by simp [Track.reads], by simp [Track.next, hno .planner]⟩
      | .set x (.copy y) => exact ⟨by simp [Track.reads], by simp [Track.next, hno .node]⟩
      | .set x (.children y) => exact ⟨by simp [Track.reads, hno .node], by simp [Track.next, hno .node]⟩
      | .set x (.child y m) => exact ⟨by simp [Track.reads, hno .children], by simp [Track.next, hno .children]⟩
      | .set x (.search y) => exact ⟨by simp [Track.reads], by simp [Track.next, hno .node]⟩
      | .set x (.again y) => exact ⟨by simp [Track.reads], by simp [Track.next, hno .search]⟩
      | .set x (.plan y a) => exact ⟨by simp [Track.reads, hno .search], by simp [Track.next, hno .search]⟩
      | .del x =>
        refine ⟨by simp [Track.reads], ?_⟩
        simp only [Track.next]
        match h : t.val x with
        | none => trivial
        | some v =>
          refine hc' _ fun y w hw => hv y w ?_
          rw [Track.val_del] at hw
          split at hw
          · cases hw
          · exact hw
      | .look y =>
        refine ⟨by simp [Track.reads, hno .node], ?_⟩
        split
        · rename_i t' ht
          simp only [Track.next, Option.map_eq_some_iff] at ht
          obtain ⟨v, _, rfl⟩ := ht
          exact hc' _ hv
        · trivial
      | .label y => exact ⟨by simp [Track.reads], by simp [Track.next, hno .node]⟩
  exact key cs _ h (by simp [Track.start, Track.val])

/-- **C87, refuted** for planners: after any program, `p = Pddl(...); q = Planner(p); del p; q.root.state` reads the destroyed
Pddl; likewise `Planner(Pddl(...)).root.state`. -/
theorem C87_planner_refuted (cs : List Cmd) (s : St) (h : St.run ⟨[], []⟩ cs = .ok s) (p q r : Nat) (hq : q ≠ p) :
    St.run ⟨[], []⟩ (cs ++ [.set p .pddl, .set q (.planner p), .del p, .set r (.root q), .look r]) = .ub := by
  rw [run_append, h, Res.bind_ok]
  obtain ⟨t, ht⟩ := run_inv inv_start h
  have hf := fun xs => ht.not_outside xs (Nat.le_refl t.made)
  rw [run_ub_iff ht]
  refine Track.not_safe_cons (t' := t.bindNew p ⟨.pddl, t.made, t.made, t.made, [t.made]⟩) rfl ?_
  refine Track.not_safe_cons (Track.next_planner (by rw [Track.val_bindNew, if_pos rfl]) rfl) ?_
  refine Track.not_safe_cons (Track.next_del (by rw [Track.val_bindNew, if_neg (Ne.symm hq), Track.val_bindNew, if_pos rfl])) ?_
  refine Track.not_safe_cons (Track.next_root (by rw [Track.val_del, if_neg hq, Track.val_bindNew, if_pos rfl]) rfl) ?_
  refine Track.not_safe_read (Track.reads_look (by rw [Track.val_bindNew, if_pos rfl]) rfl) ?_
  simp only [Track.outside_bindNew, Track.outside_del, hf]
  simp [Track.bindNew]
  omega

/-- **C87, refuted** for searches: after any program, `q = Planner(p); r = q.root; b = BreadthFirstSearch(r, ...); del q; del r;
next(b)` reads the destroyed root; likewise `next(BreadthFirstSearch(Planner(p).root, ...))`. -/
theorem C87_search_refuted (cs : List Cmd) (s : St) (h : St.run ⟨[], []⟩ cs = .ok s) (p q r b x : Nat) (a : Answer)
    (hrq : r ≠ q) (hbq : b ≠ q) (hbr : b ≠ r) :
    St.run ⟨[], []⟩ (cs ++ [.set p .pddl, .set q (.planner p), .set r (.root q), .set b (.search r), .del q, .del r,
      .set x (.plan b a)]) = .ub := by
  rw [run_append, h, Res.bind_ok]
  obtain ⟨t, ht⟩ := run_inv inv_start h
  have hf := fun xs => ht.not_outside xs (Nat.le_refl t.made)
  have hf1 := fun xs => ht.not_outside xs (Nat.le_add_right t.made 1)
  rw [run_ub_iff ht]
  refine Track.not_safe_cons (t' := t.bindNew p ⟨.pddl, t.made, t.made, t.made, [t.made]⟩) rfl ?_
  refine Track.not_safe_cons (Track.next_planner (by rw [Track.val_bindNew, if_pos rfl]) rfl) ?_
  refine Track.not_safe_cons (Track.next_root (by rw [Track.val_bindNew, if_pos rfl]) rfl) ?_
  refine Track.not_safe_cons (Track.next_search (by rw [Track.val_bindNew, if_pos rfl]) rfl) ?_
  refine Track.not_safe_cons (Track.next_del (by
    rw [Track.val_with, Track.val_bindNew, if_neg (Ne.symm hbq), Track.val_bindNew, if_neg (Ne.symm hrq), Track.val_bindNew,
      if_pos rfl])) ?_
  refine Track.not_safe_cons (Track.next_del (by
    rw [Track.val_del, if_neg hrq, Track.val_with, Track.val_bindNew, if_neg (Ne.symm hbr), Track.val_bindNew, if_pos rfl])) ?_
  refine Track.not_safe_read (Track.reads_plan_root (by
    rw [Track.val_del, if_neg hbr, Track.val_del, if_neg hbq, Track.val_with, Track.val_bindNew, if_pos rfl]) rfl (if_pos rfl)) ?_
  rw [Track.outside_del, Track.outside_del, Track.outside_with, Track.outside_bindNew, Track.outside_bindNew,
    Track.outside_bindNew, Track.outside_bindNew]
  simp [Track.bindNew, hf1]

/-- **C87, refuted** for searches that are passed on: if `b` has been asked for its first plan, `c = iter(b); del b; next(c)`
reads the destroyed `b`, whatever else is kept. -/
theorem C87_begun_refuted (cs : List Cmd) (s : St) (h : St.run ⟨[], []⟩ cs = .ok s) (p q r b c x y : Nat) (a : Answer)
    (hd : [p, q, r, b, c, x].Nodup) :
    St.run ⟨[], []⟩ (cs ++ [.set p .pddl, .set q (.planner p), .set r (.root q), .set b (.search r), .set x (.plan b (.plan true)),
      .set c (.again b), .del b, .set y (.plan c a)]) = .ub := by
  simp only [List.nodup_cons, List.mem_cons, not_or, List.not_mem_nil, not_false_eq_true, and_true] at hd
  obtain ⟨⟨_, _, _, _, _⟩, ⟨_, _, _, _⟩, ⟨_, _, _⟩, ⟨hbc, hbx⟩, hcx⟩ := hd
  rw [run_append, h, Res.bind_ok]
  obtain ⟨t, ht⟩ := run_inv inv_start h
  have hf3 := fun xs => ht.not_outside xs (Nat.le_add_right t.made 3)
  rw [run_ub_iff ht]
  refine Track.not_safe_cons (t' := t.bindNew p ⟨.pddl, t.made, t.made, t.made, [t.made]⟩) rfl ?_
  refine Track.not_safe_cons (Track.next_planner (by rw [Track.val_bindNew, if_pos rfl]) rfl) ?_
  refine Track.not_safe_cons (Track.next_root (by rw [Track.val_bindNew, if_pos rfl]) rfl) ?_
  refine Track.not_safe_cons (Track.next_search (by rw [Track.val_bindNew, if_pos rfl]) rfl) ?_
  refine Track.not_safe_cons (Track.next_plan (by rw [Track.val_with, Track.val_bindNew, if_pos rfl]) rfl (if_pos rfl) true) ?_
  refine Track.not_safe_cons (Track.next_again (by
    rw [Track.val_with, Track.val_bindNew, if_neg hbx, Track.val_with, Track.val_bindNew, if_pos rfl]) rfl) ?_
  refine Track.not_safe_cons (Track.next_del (by
    rw [Track.val_with, Track.val_bindNew, if_neg hbc, Track.val_with, Track.val_bindNew, if_neg hbx, Track.val_with,
      Track.val_bindNew, if_pos rfl])) ?_
  refine Track.not_safe_read (Track.reads_plan_begun (by
    rw [Track.val_del, if_neg (Ne.symm hbc), Track.val_with, Track.val_bindNew, if_pos rfl]) rfl
    ((if_pos rfl).trans (if_pos rfl))) ?_
  rw [Track.outside_del, Track.outside_with, Track.outside_bindNew, Track.outside_with, Track.outside_bindNew,
    Track.outside_with, Track.outside_bindNew, Track.outside_bindNew, Track.outside_bindNew, Track.outside_bindNew]
  simp [Track.bindNew, hf3]
  omega

/-- The three programs from the beginning. -/
example : St.run ⟨[], []⟩ [.set 0 .pddl, .set 1 (.planner 0), .del 0, .set 2 (.root 1), .look 2] = .ub :=
  C87_planner_refuted [] _ rfl 0 1 2 (by decide)

instance (K : List Kind) (t : Track) : (c : Cmd) → Decidable (Spares K t c)
  | .set x _ => decidable_of_iff (∀ v ∈ t.val x, v.kind ∉ K) Iff.rfl
  | .del x => decidable_of_iff (∀ v ∈ t.val x, v.kind ∉ K) Iff.rfl
  | .look _ => .isTrue trivial
  | .label _ => .isTrue trivial

instance decidableKeeps (K : List Kind) : (t : Track) → (cs : List Cmd) → Decidable (Keeps K t cs)
  | _, [] => .isTrue trivial
  | t, c :: cs =>
    match h : t.next c with
    | some t' =>
      have := decidableKeeps K t' cs
      decidable_of_iff (Spares K t c ∧ Keeps K t' cs) (by simp [Keeps, h])
    | none => decidable_of_iff (Spares K t c) (by simp [Keeps, h])

/-- With all variables kept the same program runs, and the search of `symbolic`'s documentation too. -/
def keptProg : List Cmd :=
  [.set 0 .pddl, .set 1 (.planner 0), .set 2 (.root 1), .look 2, .set 3 (.children 2), .set 4 (.child 3 true), .look 4, .del 3,
    .set 5 (.search 4), .del 1, .set 6 (.again 5), .set 7 (.plan 6 (.plan true)), .look 7, .set 8 (.part 0), .del 8]

theorem keptProg_runs : (St.run ⟨[], []⟩ keptProg).isOk = true := by decide +kernel

example : St.run ⟨[], []⟩ keptProg ≠ .ub :=
  C87_all_kept_partial keptProg (by decide +kernel)

end Symbolic.PyLife
