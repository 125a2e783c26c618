import Verif.Spec.Planner
import Verif.Lemmas.Combination
import Verif.Lemmas.Object
import Verif.Lemmas.State

/-!
# Children of a planner node
-/

namespace Symbolic

variable [StrHash]

namespace Pddl

/-- Scan instances for the first child. -/
def scan (P : Pddl) (fuel : Nat) (parent : PNode) : List (Op × List Obj) → Res (Option (PNode × List (Op × List Obj)))
  | [] => .ok none
  | (op, as) :: rest => do
    let v ← op.isValid P.omap parent.state as
    if v then do
      let s ← P.applyOp fuel op as parent.state
      if PNode.visited (PNode.insert parent.anc parent.state) s then scan P fuel parent rest
      else pure (some (⟨s, PNode.insert parent.anc parent.state, callOf op as, parent.depth + 1⟩, rest))
    else scan P fuel parent rest

def scanAll (P : Pddl) (fuel : Nat) (parent : PNode) : List (Op × List Obj) → Res (List PNode)
  | [] => .ok []
  | (op, as) :: rest => do
    let v ← op.isValid P.omap parent.state as
    if v then do
      let s ← P.applyOp fuel op as parent.state
      if PNode.visited (PNode.insert parent.anc parent.state) s then scanAll P fuel parent rest
      else do
        let r ← scanAll P fuel parent rest
        pure (⟨s, PNode.insert parent.anc parent.state, callOf op as, parent.depth + 1⟩ :: r)
    else scanAll P fuel parent rest

/-- The previous child, if any, has the right ancestors and depth. -/
def SiblingOk (parent : PNode) : Option PNode → Prop
  | none => True
  | some c => c.anc = PNode.insert parent.anc parent.state ∧ c.depth = parent.depth + 1

theorem make_ok {parent : PNode} {sib : Option PNode} (h : SiblingOk parent sib) (s : State) (a : Name) :
    PNode.make parent sib s a = ⟨s, PNode.insert parent.anc parent.state, a, parent.depth + 1⟩ := by
  cases sib with
  | none => rfl
  | some c => simp only [PNode.make, h.1, h.2]

/-- The iterator stands at an instance, or past the last instance of an action; `R` are the instances after it. -/
inductive Pos (P : Pddl) : NodeIt → List (Op × List Obj) → Prop
  | past {op ops c p} : p.idx = (Comb.size (P.gen op) : Int) → Pos P ⟨op :: ops, p, c⟩ (instances P ops)
  | at {op ops c as} (j : Nat) : (tuples (P.gen op))[j]? = some as →
      Pos P ⟨op :: ops, ⟨as, (j : Int)⟩, c⟩
        (((tuples (P.gen op)).drop (j + 1)).map (fun as => (op, as)) ++ instances P ops)

/-- Loop iterations left. -/
def left (P : Pddl) (it : NodeIt) : Nat :=
  match it.acts with
  | [] => 0
  | op :: ops => ((Comb.size (P.gen op) : Int) - it.param.idx).toNat + (ops.map fun op => Comb.size (P.gen op) + 1).sum

omit [StrHash] in
theorem size_tuples {options : List (List Obj)} : (tuples options).length = Comb.size options := by
  unfold tuples
  split
  · rename_i h; subst h; rfl
  · rename_i h; rw [Comb.length_cartesian, Comb.size_of_ne_nil h]

omit [StrHash] in
theorem begin_tuples {options : List (List Obj)} (hne : ∀ o ∈ options, o ≠ []) :
    (Comb.size options = 0 ∧ ∃ c, Comb.begin Obj.dflt options = .ok ⟨c, 0⟩) ∨
    (0 < Comb.size options ∧ ∃ c, (tuples options)[0]? = some c ∧ Comb.begin Obj.dflt options = .ok ⟨c, 0⟩) := by
  by_cases h0 : options = []
  · subst h0; exact .inl ⟨rfl, [], rfl⟩
  · have hp := Comb.count_pos hne
    obtain ⟨c, h1, h2⟩ := Comb.iter_spec Obj.dflt h0 hne 0 hp
    refine .inr ⟨by rw [Comb.size_of_ne_nil h0]; exact hp, c, ?_, h2⟩
    unfold tuples; rw [if_neg h0]; exact h1

omit [StrHash] in
theorem advance_tuples {options : List (List Obj)} (hne : ∀ o ∈ options, o ≠ []) {j : Nat} {as : List Obj}
    (h : (tuples options)[j]? = some as) :
    (j + 1 = Comb.size options ∧ Comb.advance Obj.dflt options ⟨as, (j : Int)⟩ 1 = .ok ⟨as, (Comb.size options : Int)⟩) ∨
    (j + 1 < Comb.size options ∧ ∃ c, (tuples options)[j + 1]? = some c ∧
      Comb.advance Obj.dflt options ⟨as, (j : Int)⟩ 1 = .ok ⟨c, ((j + 1 : Nat) : Int)⟩) := by
  have hj : j < Comb.size options := by
    rw [← size_tuples]; exact (List.getElem?_eq_some_iff.1 h).1
  have h0 : options ≠ [] := by rintro rfl; simp [tuples] at h
  have hs := Comb.size_of_ne_nil h0
  unfold tuples at h ⊢
  rw [if_neg h0] at h ⊢
  by_cases he : j + 1 = Comb.size options
  · refine .inl ⟨he, ?_⟩
    have : (j : Int) + 1 = (Comb.size options : Int) := by omega
    unfold Comb.advance
    simp only [this]
    exact Comb.moveTo_end _ _ _
  · refine .inr ⟨by omega, ?_⟩
    obtain ⟨c, h1, h2⟩ := Comb.moveTo_spec Obj.dflt h0 (Comb.Masked.refl options) hne j (j + 1) (by omega) (by omega) h
    exact ⟨c, h1, by simpa [Comb.advance] using h2⟩

/-- What `tryChild` does at an instance. -/
theorem tryChild_eq {P : Pddl} {fuel : Nat} {parent : PNode} {op : Op} {ops : List Op} {p : Comb.Iter Obj}
    {sib : Option PNode} (hs : SiblingOk parent sib) :
    P.tryChild fuel parent ⟨op :: ops, p, sib⟩ = (do
      let v ← op.isValid P.omap parent.state p.comb
      if v then do
        let s ← P.applyOp fuel op p.comb parent.state
        pure (⟨op :: ops, p, some ⟨s, PNode.insert parent.anc parent.state, callOf op p.comb, parent.depth + 1⟩⟩,
          !(PNode.visited (PNode.insert parent.anc parent.state) s))
      else pure (⟨op :: ops, p, sib⟩, false)) := by
  unfold tryChild
  simp only [make_ok hs]

/-- `++` finds the next child. -/
def NextOk (P : Pddl) (parent : PNode) (r : Res (Option (PNode × List (Op × List Obj)))) (x : Res NodeIt) : Prop :=
  match r with
  | .ok none => ∃ it', x = .ok it' ∧ it'.acts = []
  | .ok (some (c, R)) => ∃ it', x = .ok it' ∧ it'.acts <:+ P.actions ∧ it'.acts ≠ [] ∧ it'.child = some c ∧ Pos P it' R ∧ SiblingOk parent it'.child
  | .exc e => x = .exc e
  | .ub => x = .ub
  | .fuel => x = .fuel

theorem try_next {P : Pddl} {fuel : Nat} {parent : PNode} {op : Op} {ops : List Op} {as : List Obj} {j : Nat}
    {sib : Option PNode} (hs : SiblingOk parent sib) (hj : (tuples (P.gen op))[j]? = some as)
    (hsuf : op :: ops <:+ P.actions) {k : Nat}
    (hk : ∀ it' R, Pos P it' R → SiblingOk parent it'.child → it'.acts = op :: ops → it'.param = ⟨as, (j : Int)⟩ →
      NextOk P parent (P.scan fuel parent R) (P.nodeNext fuel parent k it')) :
    NextOk P parent
      (P.scan fuel parent ((op, as) :: (((tuples (P.gen op)).drop (j + 1)).map (fun as => (op, as)) ++ instances P ops)))
      (do
        let r ← P.tryChild fuel parent ⟨op :: ops, ⟨as, (j : Int)⟩, sib⟩
        if r.2 then pure r.1 else P.nodeNext fuel parent k r.1) := by
  rw [tryChild_eq hs]
  simp only [scan]
  cases hv : op.isValid P.omap parent.state as with
  | exc e => simp [NextOk]
  | ub => simp [NextOk]
  | fuel => simp [NextOk]
  | ok v =>
    simp only [Res.bind_ok]
    cases v with
    | false =>
      simp only [Bool.false_eq_true, if_false, Res.pure_eq, Res.bind_ok]
      exact hk _ _ (.at j hj) hs rfl rfl
    | true =>
      simp only [if_true]
      cases ha : P.applyOp fuel op as parent.state with
      | exc e => simp [NextOk]
      | ub => simp [NextOk]
      | fuel => simp [NextOk]
      | ok s =>
        simp only [Res.bind_ok, Res.pure_eq]
        cases hvis : PNode.visited (PNode.insert parent.anc parent.state) s with
        | true =>
          simp only [Bool.not_true, Bool.false_eq_true, if_false, if_true]
          exact hk _ _ (.at j hj) ⟨rfl, rfl⟩ rfl rfl
        | false =>
          simp only [Bool.not_false, Bool.false_eq_true, if_false, if_true, NextOk]
          exact ⟨_, rfl, hsuf, by simp, rfl, .at j hj, rfl, rfl⟩

theorem drop_instances {P : Pddl} {op : Op} {ops : List Op} {as : List Obj} {j : Nat}
    (hj : (tuples (P.gen op))[j]? = some as) :
    ((tuples (P.gen op)).drop j).map (fun as => (op, as)) ++ instances P ops =
      (op, as) :: (((tuples (P.gen op)).drop (j + 1)).map (fun as => (op, as)) ++ instances P ops) := by
  obtain ⟨hlt, he⟩ := List.getElem?_eq_some_iff.1 hj
  rw [List.drop_eq_getElem_cons hlt, he]; rfl

theorem nodeNext_spec {P : Pddl} (hne : ∀ op ∈ P.actions, ∀ o ∈ P.gen op, o ≠ []) {fuel : Nat} {parent : PNode} :
    ∀ k it R, it.acts <:+ P.actions → Pos P it R → SiblingOk parent it.child → P.left it < k →
      NextOk P parent (P.scan fuel parent R) (P.nodeNext fuel parent k it) := by
  intro k
  induction k with
  | zero => intro it R _ _ _ h; omega
  | succ k ih =>
    intro it R hacts hpos hsib hleft
    cases hpos with
    | @past op ops c p hp =>
      simp only at hsib
      unfold nodeNext
      simp only [hp, if_true]
      cases ops with
      | nil => exact ⟨_, rfl, rfl⟩
      | cons op' rest =>
        have hin : instances P (op' :: rest) = (tuples (P.gen op')).map (fun as => (op', as)) ++ instances P rest := rfl
        have hne' := hne op' (hacts.subset (by simp))
        simp only [left, hp, List.map_cons, List.sum_cons] at hleft
        have hacts' : op' :: rest <:+ P.actions := (List.suffix_cons op _).trans hacts
        rcases begin_tuples hne' with ⟨h0, c', hb⟩ | ⟨h0, c', hc', hb⟩
        · simp only [hb, Res.bind_ok, h0, Int.natCast_zero, if_true]
          have : tuples (P.gen op') = [] := by
            rw [← List.length_eq_zero_iff, size_tuples, h0]
          rw [hin, this, List.map_nil, List.nil_append]
          refine ih _ _ hacts' (.past (by simp [h0])) hsib ?_
          simp only [left, h0]; omega
        · simp only [hb, Res.bind_ok]
          rw [if_neg (by omega), hin]
          have := drop_instances (ops := rest) hc'
          rw [List.drop_zero] at this
          rw [this]
          refine try_next (j := 0) hsib hc' hacts' ?_
          intro it' R' hp' hs' ha' hpar
          refine ih it' R' (by rw [ha']; exact hacts') hp' hs' ?_
          simp only [left, ha', hpar]; omega
    | @«at» op ops c as j hj =>
      have hlt : j < Comb.size (P.gen op) := by
        rw [← size_tuples]; exact (List.getElem?_eq_some_iff.1 hj).1
      simp only at hsib
      unfold nodeNext
      simp only
      rw [if_neg (by omega)]
      have hne' := hne op (hacts.subset (by simp))
      simp only [left] at hleft
      rcases advance_tuples hne' hj with ⟨h0, hb⟩ | ⟨h0, c', hc', hb⟩
      · simp only [hb, Res.bind_ok, if_true]
        have : (tuples (P.gen op)).drop (j + 1) = [] := by
          rw [List.drop_eq_nil_iff, size_tuples]; omega
        rw [this, List.map_nil, List.nil_append]
        refine ih _ _ hacts (.past rfl) hsib ?_
        simp only [left]; omega
      · simp only [hb, Res.bind_ok]
        rw [if_neg (by omega), drop_instances hc']
        refine try_next (j := j + 1) hsib hc' hacts ?_
        intro it' R' hp' hs' ha' hpar
        refine ih it' R' (by rw [ha']; exact hacts) hp' hs' ?_
        simp only [left, ha', hpar]; omega

theorem nodeBegin_spec {P : Pddl} (hne : ∀ op ∈ P.actions, ∀ o ∈ P.gen op, o ≠ []) {fuel : Nat} {parent : PNode}
    (h0 : P.actions ≠ []) :
    NextOk P parent (P.scan fuel parent (instances P P.actions)) (P.nodeBegin fuel parent P.nodeBudget) := by
  unfold nodeBegin nodeBudget
  cases ha : P.actions with
  | nil => exact absurd ha h0
  | cons op ops =>
    simp only [List.map_cons, List.sum_cons]
    have hin : instances P (op :: ops) = (tuples (P.gen op)).map (fun as => (op, as)) ++ instances P ops := rfl
    have hne' := hne op (by simp [ha])
    have hacts : op :: ops <:+ P.actions := by rw [ha]; exact List.suffix_refl _
    rcases begin_tuples hne' with ⟨h0, c', hb⟩ | ⟨h0, c', hc', hb⟩
    · simp only [hb, Res.bind_ok, h0, Int.natCast_zero, if_true]
      have : tuples (P.gen op) = [] := by
        rw [← List.length_eq_zero_iff, size_tuples, h0]
      rw [hin, this, List.map_nil, List.nil_append]
      refine nodeNext_spec hne _ _ _ hacts (.past (by simp [h0])) trivial ?_
      simp only [left, h0]; omega
    · simp only [hb, Res.bind_ok]
      rw [if_neg (by omega), hin]
      have := drop_instances (ops := ops) hc'
      rw [List.drop_zero] at this
      rw [this]
      have hnone : SiblingOk parent none := trivial
      refine try_next (j := 0) hnone hc' hacts ?_
      intro it' R' hp' hs' ha' hpar
      refine nodeNext_spec hne _ it' R' (by rw [ha']; exact hacts) hp' hs' ?_
      simp only [left, ha', hpar]; omega

theorem scan_rest {P : Pddl} {fuel : Nat} {parent : PNode} : ∀ {R c R'},
    P.scan fuel parent R = .ok (some (c, R')) → R'.length < R.length ∧ ∃ l, R = l ++ R'
  | [], c, R', h => by simp [scan] at h
  | (op, as) :: R, c, R', h => by
    simp only [scan, Res.bind_eq_ok] at h
    obtain ⟨v, -, h⟩ := h
    cases v with
    | false =>
      simp only [Bool.false_eq_true, if_false] at h
      obtain ⟨h1, l, h2⟩ := scan_rest h
      exact ⟨by simp; omega, (op, as) :: l, by rw [h2]; rfl⟩
    | true =>
      simp only [if_true, Res.bind_eq_ok] at h
      obtain ⟨s, -, h⟩ := h
      split at h
      · obtain ⟨h1, l, h2⟩ := scan_rest h
        exact ⟨by simp; omega, (op, as) :: l, by rw [h2]; rfl⟩
      · simp only [Res.pure_eq, Res.ok.injEq, Option.some.injEq, Prod.mk.injEq] at h
        obtain ⟨-, rfl⟩ := h
        exact ⟨by simp, [(op, as)], rfl⟩

theorem scanAll_eq {P : Pddl} {fuel : Nat} {parent : PNode} : ∀ R,
    P.scanAll fuel parent R = (do
      match ← P.scan fuel parent R with
      | none => pure []
      | some (c, R') => do
        let r ← P.scanAll fuel parent R'
        pure (c :: r))
  | [] => rfl
  | (op, as) :: R => by
    simp only [scanAll, scan]
    cases op.isValid P.omap parent.state as with
    | exc e => rfl
    | ub => rfl
    | fuel => rfl
    | ok v =>
      simp only [Res.bind_ok]
      cases v with
      | false => simpa using scanAll_eq R
      | true =>
        simp only [if_true]
        cases P.applyOp fuel op as parent.state with
        | exc e => rfl
        | ub => rfl
        | fuel => rfl
        | ok s =>
          simp only [Res.bind_ok]
          split
          · exact scanAll_eq R
          · rfl

theorem Pos.left_lt {P : Pddl} {it : NodeIt} {R} (h : Pos P it R) (hs : it.acts <:+ P.actions) :
    P.left it < P.nodeBudget := by
  obtain ⟨l, hl⟩ := hs
  unfold nodeBudget
  cases h with
  | past hp =>
    simp only [left, hp] at hl ⊢
    rw [← hl, List.map_append, List.sum_append, List.map_cons, List.sum_cons]
    omega
  | «at» j hj =>
    simp only [left] at hl ⊢
    rw [← hl, List.map_append, List.sum_append, List.map_cons, List.sum_cons]
    omega

theorem nodeLoop_spec {P : Pddl} (hne : ∀ op ∈ P.actions, ∀ o ∈ P.gen op, o ≠ []) {fuel : Nat} {parent : PNode} :
    ∀ m it R c, it.acts <:+ P.actions → Pos P it R → SiblingOk parent it.child → it.child = some c →
      R.length + 1 < m →
      P.nodeLoop fuel parent P.nodeBudget m it = (do let r ← P.scanAll fuel parent R; pure (c :: r)) := by
  intro m
  induction m with
  | zero => intro it R c _ _ _ _ h; omega
  | succ m ih =>
    intro it R c hacts hpos hsib hc hm
    have hnext := nodeNext_spec hne (fuel := fuel) P.nodeBudget it R hacts hpos hsib (hpos.left_lt hacts)
    unfold nodeLoop
    have hcons : ∃ op ops, it.acts = op :: ops := by cases hpos <;> exact ⟨_, _, rfl⟩
    obtain ⟨op, ops, hcons⟩ := hcons
    rw [hcons]
    simp only [hc]
    rw [scanAll_eq]
    cases hr : P.scan fuel parent R with
    | exc e => rw [hr] at hnext; rw [hnext]; rfl
    | ub => rw [hr] at hnext; rw [hnext]; rfl
    | fuel => rw [hr] at hnext; rw [hnext]; rfl
    | ok o =>
      rw [hr] at hnext
      cases o with
      | none =>
        obtain ⟨it', h1, h2⟩ := hnext
        rw [h1, Res.bind_ok]
        obtain ⟨m', rfl⟩ : ∃ m', m = m' + 1 := ⟨m - 1, by omega⟩
        unfold nodeLoop
        rw [h2]
        rfl
      | some cr =>
        obtain ⟨c', R'⟩ := cr
        obtain ⟨it', h1, h2, h3, h4, h5, h6⟩ := hnext
        have hlen := (scan_rest hr).1
        rw [h1, Res.bind_ok, ih it' R' c' h2 h5 h6 h4 (by omega)]
        rfl

theorem instances_length (P : Pddl) (ops : List Op) :
    (instances P ops).length ≤ (ops.map fun op => Comb.size (P.gen op) + 1).sum := by
  induction ops with
  | nil => simp [instances]
  | cons op ops ih =>
    have hin : instances P (op :: ops) = (tuples (P.gen op)).map (fun as => (op, as)) ++ instances P ops := rfl
    rw [hin]
    simp only [List.length_append, List.length_map, size_tuples, List.map_cons, List.sum_cons]
    omega

/-- A range-for over a node's children scans all instances. -/
theorem children_eq {P : Pddl} (hne : ∀ op ∈ P.actions, ∀ o ∈ P.gen op, o ≠ []) {fuel : Nat} {parent : PNode}
    (h0 : P.actions ≠ []) : P.children fuel parent = P.scanAll fuel parent (instances P P.actions) := by
  have hb := nodeBegin_spec hne (fuel := fuel) (parent := parent) h0
  unfold children
  rw [scanAll_eq]
  cases hr : P.scan fuel parent (instances P P.actions) with
  | exc e => rw [hr] at hb; rw [hb]; rfl
  | ub => rw [hr] at hb; rw [hb]; rfl
  | fuel => rw [hr] at hb; rw [hb]; rfl
  | ok o =>
    rw [hr] at hb
    cases o with
    | none =>
      obtain ⟨it', h1, h2⟩ := hb
      rw [h1, Res.bind_ok]
      unfold nodeBudget nodeLoop
      rw [h2]
      rfl
    | some cr =>
      obtain ⟨c', R'⟩ := cr
      obtain ⟨it', h1, h2, h3, h4, h5, h6⟩ := hb
      have hlen := (scan_rest hr).1
      have hl := instances_length P P.actions
      rw [h1, Res.bind_ok, nodeLoop_spec hne P.nodeBudget it' R' c' h2 h5 h6 h4 (by unfold nodeBudget; omega)]
      rfl

end Pddl
end Symbolic
