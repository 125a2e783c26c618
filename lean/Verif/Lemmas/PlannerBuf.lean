import Verif.Props.SearchBuf
import Verif.Props.Planner

/-!
# Children of a planner node, with the argument buffers

The proofs of Lemmas/Planner.lean for any function `app` in place of `Apply`; it becomes `Apply` right after construction.
-/

namespace Symbolic

variable [StrHash]

namespace Pddl

/-- `Apply` right after construction. -/
def applyFresh (P : Pddl) (ids : Name → Nat) (fuel : Nat) (op : Op) (args : List Obj) (s : State) : Res State :=
  (P.applyOpB ids fuel op args s Store.init).1

/-- `tryChild` with `app` for `Apply`. -/
def tryChildW (P : Pddl) (app : Op → List Obj → State → Res State) (parent : PNode) (it : NodeIt) : Res (NodeIt × Bool) :=
  match it.acts with
  | [] => .ub
  | op :: _ => do
    let v ← op.isValid P.omap parent.state it.param.comb
    if v then do
      let s ← app op it.param.comb parent.state
      let child := PNode.make parent it.child s (callOf op it.param.comb)
      pure ({ it with child := some child }, !(PNode.visited child.anc child.state))
    else pure (it, false)

/-- `nodeNext` with `app` for `Apply`. -/
def nodeNextW (P : Pddl) (app : Op → List Obj → State → Res State) (parent : PNode) : Nat → NodeIt → Res NodeIt
  | 0, _ => .fuel
  | k + 1, it =>
    match it.acts with
    | [] => .ok it
    | op :: ops =>
      if it.param.idx = (Comb.size (P.gen op) : Int) then
        match ops with
        | [] => .ok { it with acts := [] }
        | op' :: rest => do
          let b ← Comb.begin Obj.dflt (P.gen op')
          if b.idx = (Comb.size (P.gen op') : Int) then nodeNextW P app parent k ⟨op' :: rest, b, it.child⟩
          else do
            let r ← P.tryChildW app parent ⟨op' :: rest, b, it.child⟩
            if r.2 then pure r.1 else nodeNextW P app parent k r.1
      else do
        let q ← Comb.advance Obj.dflt (P.gen op) it.param 1
        if q.idx = (Comb.size (P.gen op) : Int) then nodeNextW P app parent k ⟨op :: ops, q, it.child⟩
        else do
          let r ← P.tryChildW app parent ⟨op :: ops, q, it.child⟩
          if r.2 then pure r.1 else nodeNextW P app parent k r.1

/-- `nodeBegin` with `app` for `Apply`. -/
def nodeBeginW (P : Pddl) (app : Op → List Obj → State → Res State) (parent : PNode) (k : Nat) : Res NodeIt :=
  match P.actions with
  | [] => .ub
  | op :: ops => do
    let b ← Comb.begin Obj.dflt (P.gen op)
    if b.idx = (Comb.size (P.gen op) : Int) then P.nodeNextW app parent k ⟨op :: ops, b, none⟩
    else do
      let r ← P.tryChildW app parent ⟨op :: ops, b, none⟩
      if r.2 then pure r.1 else P.nodeNextW app parent k r.1

/-- `nodeLoop` with `app` for `Apply`. -/
def nodeLoopW (P : Pddl) (app : Op → List Obj → State → Res State) (parent : PNode) (k : Nat) : Nat → NodeIt → Res (List PNode)
  | 0, _ => .fuel
  | m + 1, it =>
    match it.acts with
    | [] => .ok []
    | _ :: _ =>
      match it.child with
      | none => .ub
      | some c => do
        let it' ← P.nodeNextW app parent k it
        let rest ← nodeLoopW P app parent k m it'
        pure (c :: rest)

/-- `children` with `app` for `Apply`. -/
def childrenW (P : Pddl) (app : Op → List Obj → State → Res State) (parent : PNode) : Res (List PNode) := do
  let it ← P.nodeBeginW app parent P.nodeBudget
  P.nodeLoopW app parent P.nodeBudget P.nodeBudget it

/-- `scan` with `app` for `Apply`. -/
def scanW (P : Pddl) (app : Op → List Obj → State → Res State) (parent : PNode) :
    List (Op × List Obj) → Res (Option (PNode × List (Op × List Obj)))
  | [] => .ok none
  | (op, as) :: rest => do
    let v ← op.isValid P.omap parent.state as
    if v then do
      let s ← app op as parent.state
      if PNode.visited (PNode.insert parent.anc parent.state) s then scanW P app parent rest
      else pure (some (⟨s, PNode.insert parent.anc parent.state, callOf op as, parent.depth + 1⟩, rest))
    else scanW P app parent rest

/-- `scanAll` with `app` for `Apply`. -/
def scanAllW (P : Pddl) (app : Op → List Obj → State → Res State) (parent : PNode) : List (Op × List Obj) → Res (List PNode)
  | [] => .ok []
  | (op, as) :: rest => do
    let v ← op.isValid P.omap parent.state as
    if v then do
      let s ← app op as parent.state
      if PNode.visited (PNode.insert parent.anc parent.state) s then scanAllW P app parent rest
      else do
        let r ← scanAllW P app parent rest
        pure (⟨s, PNode.insert parent.anc parent.state, callOf op as, parent.depth + 1⟩ :: r)
    else scanAllW P app parent rest

theorem tryChild_eqW {P : Pddl} {app : Op → List Obj → State → Res State} {parent : PNode} {op : Op} {ops : List Op} {p : Comb.Iter Obj}
    {sib : Option PNode} (hs : SiblingOk parent sib) :
    P.tryChildW app parent ⟨op :: ops, p, sib⟩ = (do
      let v ← op.isValid P.omap parent.state p.comb
      if v then do
        let s ← app op p.comb parent.state
        pure (⟨op :: ops, p, some ⟨s, PNode.insert parent.anc parent.state, callOf op p.comb, parent.depth + 1⟩⟩,
          !(PNode.visited (PNode.insert parent.anc parent.state) s))
      else pure (⟨op :: ops, p, sib⟩, false)) := by
  unfold tryChildW
  simp only [make_ok hs]

theorem try_nextW {P : Pddl} {app : Op → List Obj → State → Res State} {parent : PNode} {op : Op} {ops : List Op} {as : List Obj} {j : Nat}
    {sib : Option PNode} (hs : SiblingOk parent sib) (hj : (tuples (P.gen op))[j]? = some as)
    (hsuf : op :: ops <:+ P.actions) {k : Nat}
    (hk : ∀ it' R, Pos P it' R → SiblingOk parent it'.child → it'.acts = op :: ops → it'.param = ⟨as, (j : Int)⟩ →
      NextOk P parent (P.scanW app parent R) (P.nodeNextW app parent k it')) :
    NextOk P parent
      (P.scanW app parent ((op, as) :: (((tuples (P.gen op)).drop (j + 1)).map (fun as => (op, as)) ++ instances P ops)))
      (do
        let r ← P.tryChildW app parent ⟨op :: ops, ⟨as, (j : Int)⟩, sib⟩
        if r.2 then pure r.1 else P.nodeNextW app parent k r.1) := by
  rw [tryChild_eqW hs]
  simp only [scanW]
  cases hv : op.isValid P.omap parent.state as with
  | exc e => simp [NextOk]
  | ub => simp [NextOk]
  | fuel => simp [NextOk]
  | ok v =>
    simp only [Res.bind_ok]
    cases v with
    | false =>
      simp only [Bool.false_eq_true, if_false, Res.pure_eq, Res.bind_ok]
      exact hk _ _ (.at j hj) hs rfl rfl
    | true =>
      simp only [if_true]
      cases ha : app op as parent.state with
      | exc e => simp [NextOk]
      | ub => simp [NextOk]
      | fuel => simp [NextOk]
      | ok s =>
        simp only [Res.bind_ok, Res.pure_eq]
        cases hvis : PNode.visited (PNode.insert parent.anc parent.state) s with
        | true =>
          simp only [Bool.not_true, Bool.false_eq_true, if_false, if_true]
          exact hk _ _ (.at j hj) ⟨rfl, rfl⟩ rfl rfl
        | false =>
          simp only [Bool.not_false, Bool.false_eq_true, if_false, if_true, NextOk]
          exact ⟨_, rfl, hsuf, by simp, rfl, .at j hj, rfl, rfl⟩

theorem nodeNext_specW {P : Pddl} (hne : ∀ op ∈ P.actions, ∀ o ∈ P.gen op, o ≠ []) {app : Op → List Obj → State → Res State} {parent : PNode} :
    ∀ k it R, it.acts <:+ P.actions → Pos P it R → SiblingOk parent it.child → P.left it < k →
      NextOk P parent (P.scanW app parent R) (P.nodeNextW app parent k it) := by
  intro k
  induction k with
  | zero => intro it R _ _ _ h; omega
  | succ k ih =>
    intro it R hacts hpos hsib hleft
    cases hpos with
    | @past op ops c p hp =>
      simp only at hsib
      unfold nodeNextW
      simp only [hp, if_true]
      cases ops with
      | nil => exact ⟨_, rfl, rfl⟩
      | cons op' rest =>
        have hin : instances P (op' :: rest) = (tuples (P.gen op')).map (fun as => (op', as)) ++ instances P rest := rfl
        have hne' := hne op' (hacts.subset (by simp))
        simp only [left, hp, List.map_cons, List.sum_cons] at hleft
        have hacts' : op' :: rest <:+ P.actions := (List.suffix_cons op _).trans hacts
        rcases begin_tuples hne' with ⟨h0, c', hb⟩ | ⟨h0, c', hc', hb⟩
        · simp only [hb, Res.bind_ok, h0, Int.natCast_zero, if_true]
          have : tuples (P.gen op') = [] := by
            rw [← List.length_eq_zero_iff, size_tuples, h0]
          rw [hin, this, List.map_nil, List.nil_append]
          refine ih _ _ hacts' (.past (by simp [h0])) hsib ?_
          simp only [left, h0]; omega
        · simp only [hb, Res.bind_ok]
          rw [if_neg (by omega), hin]
          have := drop_instances (ops := rest) hc'
          rw [List.drop_zero] at this
          rw [this]
          refine try_nextW (j := 0) hsib hc' hacts' ?_
          intro it' R' hp' hs' ha' hpar
          refine ih it' R' (by rw [ha']; exact hacts') hp' hs' ?_
          simp only [left, ha', hpar]; omega
    | @«at» op ops c as j hj =>
      have hlt : j < Comb.size (P.gen op) := by
        rw [← size_tuples]; exact (List.getElem?_eq_some_iff.1 hj).1
      simp only at hsib
      unfold nodeNextW
      simp only
      rw [if_neg (by omega)]
      have hne' := hne op (hacts.subset (by simp))
      simp only [left] at hleft
      rcases advance_tuples hne' hj with ⟨h0, hb⟩ | ⟨h0, c', hc', hb⟩
      · simp only [hb, Res.bind_ok, if_true]
        have : (tuples (P.gen op)).drop (j + 1) = [] := by
          rw [List.drop_eq_nil_iff, size_tuples]; omega
        rw [this, List.map_nil, List.nil_append]
        refine ih _ _ hacts (.past rfl) hsib ?_
        simp only [left]; omega
      · simp only [hb, Res.bind_ok]
        rw [if_neg (by omega), drop_instances hc']
        refine try_nextW (j := j + 1) hsib hc' hacts ?_
        intro it' R' hp' hs' ha' hpar
        refine ih it' R' (by rw [ha']; exact hacts) hp' hs' ?_
        simp only [left, ha', hpar]; omega

theorem nodeBegin_specW {P : Pddl} (hne : ∀ op ∈ P.actions, ∀ o ∈ P.gen op, o ≠ []) {app : Op → List Obj → State → Res State} {parent : PNode}
    (h0 : P.actions ≠ []) :
    NextOk P parent (P.scanW app parent (instances P P.actions)) (P.nodeBeginW app parent P.nodeBudget) := by
  unfold nodeBeginW nodeBudget
  cases ha : P.actions with
  | nil => exact absurd ha h0
  | cons op ops =>
    simp only [List.map_cons, List.sum_cons]
    have hin : instances P (op :: ops) = (tuples (P.gen op)).map (fun as => (op, as)) ++ instances P ops := rfl
    have hne' := hne op (by simp [ha])
    have hacts : op :: ops <:+ P.actions := by rw [ha]; exact List.suffix_refl _
    rcases begin_tuples hne' with ⟨h0, c', hb⟩ | ⟨h0, c', hc', hb⟩
    · simp only [hb, Res.bind_ok, h0, Int.natCast_zero, if_true]
      have : tuples (P.gen op) = [] := by
        rw [← List.length_eq_zero_iff, size_tuples, h0]
      rw [hin, this, List.map_nil, List.nil_append]
      refine nodeNext_specW hne _ _ _ hacts (.past (by simp [h0])) trivial ?_
      simp only [left, h0]; omega
    · simp only [hb, Res.bind_ok]
      rw [if_neg (by omega), hin]
      have := drop_instances (ops := ops) hc'
      rw [List.drop_zero] at this
      rw [this]
      have hnone : SiblingOk parent none := trivial
      refine try_nextW (j := 0) hnone hc' hacts ?_
      intro it' R' hp' hs' ha' hpar
      refine nodeNext_specW hne _ it' R' (by rw [ha']; exact hacts) hp' hs' ?_
      simp only [left, ha', hpar]; omega

theorem scan_restW {P : Pddl} {app : Op → List Obj → State → Res State} {parent : PNode} : ∀ {R c R'},
    P.scanW app parent R = .ok (some (c, R')) → R'.length < R.length ∧ ∃ l, R = l ++ R'
  | [], c, R', h => by simp [scanW] at h
  | (op, as) :: R, c, R', h => by
    simp only [scanW, Res.bind_eq_ok] at h
    obtain ⟨v, -, h⟩ := h
    cases v with
    | false =>
      simp only [Bool.false_eq_true, if_false] at h
      obtain ⟨h1, l, h2⟩ := scan_restW h
      exact ⟨by simp; omega, (op, as) :: l, by rw [h2]; rfl⟩
    | true =>
      simp only [if_true, Res.bind_eq_ok] at h
      obtain ⟨s, -, h⟩ := h
      split at h
      · obtain ⟨h1, l, h2⟩ := scan_restW h
        exact ⟨by simp; omega, (op, as) :: l, by rw [h2]; rfl⟩
      · simp only [Res.pure_eq, Res.ok.injEq, Option.some.injEq, Prod.mk.injEq] at h
        obtain ⟨-, rfl⟩ := h
        exact ⟨by simp, [(op, as)], rfl⟩

theorem scanAll_eqW {P : Pddl} {app : Op → List Obj → State → Res State} {parent : PNode} : ∀ R,
    P.scanAllW app parent R = (do
      match ← P.scanW app parent R with
      | none => pure []
      | some (c, R') => do
        let r ← P.scanAllW app parent R'
        pure (c :: r))
  | [] => rfl
  | (op, as) :: R => by
    simp only [scanAllW, scanW]
    cases op.isValid P.omap parent.state as with
    | exc e => rfl
    | ub => rfl
    | fuel => rfl
    | ok v =>
      simp only [Res.bind_ok]
      cases v with
      | false => simpa using scanAll_eqW R
      | true =>
        simp only [if_true]
        cases app op as parent.state with
        | exc e => rfl
        | ub => rfl
        | fuel => rfl
        | ok s =>
          simp only [Res.bind_ok]
          split
          · exact scanAll_eqW R
          · rfl

theorem nodeLoop_specW {P : Pddl} (hne : ∀ op ∈ P.actions, ∀ o ∈ P.gen op, o ≠ []) {app : Op → List Obj → State → Res State} {parent : PNode} :
    ∀ m it R c, it.acts <:+ P.actions → Pos P it R → SiblingOk parent it.child → it.child = some c →
      R.length + 1 < m →
      P.nodeLoopW app parent P.nodeBudget m it = (do let r ← P.scanAllW app parent R; pure (c :: r)) := by
  intro m
  induction m with
  | zero => intro it R c _ _ _ _ h; omega
  | succ m ih =>
    intro it R c hacts hpos hsib hc hm
    have hnext := nodeNext_specW hne (app := app) P.nodeBudget it R hacts hpos hsib (hpos.left_lt hacts)
    unfold nodeLoopW
    have hcons : ∃ op ops, it.acts = op :: ops := by cases hpos <;> exact ⟨_, _, rfl⟩
    obtain ⟨op, ops, hcons⟩ := hcons
    rw [hcons]
    simp only [hc]
    rw [scanAll_eqW]
    cases hr : P.scanW app parent R with
    | exc e => rw [hr] at hnext; rw [hnext]; rfl
    | ub => rw [hr] at hnext; rw [hnext]; rfl
    | fuel => rw [hr] at hnext; rw [hnext]; rfl
    | ok o =>
      rw [hr] at hnext
      cases o with
      | none =>
        obtain ⟨it', h1, h2⟩ := hnext
        rw [h1, Res.bind_ok]
        obtain ⟨m', rfl⟩ : ∃ m', m = m' + 1 := ⟨m - 1, by omega⟩
        unfold nodeLoopW
        rw [h2]
        rfl
      | some cr =>
        obtain ⟨c', R'⟩ := cr
        obtain ⟨it', h1, h2, h3, h4, h5, h6⟩ := hnext
        have hlen := (scan_restW hr).1
        rw [h1, Res.bind_ok, ih it' R' c' h2 h5 h6 h4 (by omega)]
        rfl

theorem children_eqW {P : Pddl} (hne : ∀ op ∈ P.actions, ∀ o ∈ P.gen op, o ≠ []) {app : Op → List Obj → State → Res State} {parent : PNode}
    (h0 : P.actions ≠ []) : P.childrenW app parent = P.scanAllW app parent (instances P P.actions) := by
  have hb := nodeBegin_specW hne (app := app) (parent := parent) h0
  unfold childrenW
  rw [scanAll_eqW]
  cases hr : P.scanW app parent (instances P P.actions) with
  | exc e => rw [hr] at hb; rw [hb]; rfl
  | ub => rw [hr] at hb; rw [hb]; rfl
  | fuel => rw [hr] at hb; rw [hb]; rfl
  | ok o =>
    rw [hr] at hb
    cases o with
    | none =>
      obtain ⟨it', h1, h2⟩ := hb
      rw [h1, Res.bind_ok]
      unfold nodeBudget nodeLoopW
      rw [h2]
      rfl
    | some cr =>
      obtain ⟨c', R'⟩ := cr
      obtain ⟨it', h1, h2, h3, h4, h5, h6⟩ := hb
      have hlen := (scan_restW hr).1
      have hl := instances_length P P.actions
      rw [h1, Res.bind_ok, nodeLoop_specW hne P.nodeBudget it' R' c' h2 h5 h6 h4 (by unfold nodeBudget; omega)]
      rfl

end Pddl

theorem scanAllW_ok {P : Pddl} {app : Op → List Obj → State → Res State} {n : PNode} : ∀ {R : List (Op × List Obj)} {cs : List PNode},
    P.scanAllW app n R = .ok cs →
    ∃ l, Offspring (fun a : Op × List Obj => a.1.isValid P.omap n.state a.2 = .ok true)
      (fun a => a.1.isValid P.omap n.state a.2 = .ok false)
      (fun a s => app a.1 a.2 n.state = .ok s) (fun s => s = n.state ∨ s ∈ n.anc) R l ∧
      cs = l.map (childNode n (PNode.insert n.anc n.state))
  | [], cs, h => by
    simp only [Pddl.scanAllW, Res.ok.injEq] at h
    subst h
    exact ⟨[], .nil, rfl⟩
  | (op, as) :: R, cs, h => by
    simp only [Pddl.scanAllW, Res.bind_eq_ok] at h
    obtain ⟨v, hv, h⟩ := h
    cases v with
    | false =>
      simp only [Bool.false_eq_true, if_false] at h
      obtain ⟨l, h1, h2⟩ := scanAllW_ok h
      exact ⟨l, .skip hv h1, h2⟩
    | true =>
      simp only [if_true, Res.bind_eq_ok] at h
      obtain ⟨s, hs, h⟩ := h
      split at h
      · rename_i hvis
        rw [visited_iff, mem_insert] at hvis
        obtain ⟨l, h1, h2⟩ := scanAllW_ok h
        exact ⟨l, .repeated hv hs hvis h1, h2⟩
      · rename_i hvis
        rw [visited_iff, mem_insert] at hvis
        simp only [Res.bind_eq_ok, Res.pure_eq, Res.ok.injEq] at h
        obtain ⟨r, hr, rfl⟩ := h
        obtain ⟨l, h1, h2⟩ := scanAllW_ok hr
        exact ⟨((op, as), s) :: l, .child hv hs hvis h1, by rw [h2]; rfl⟩

theorem scanAllW_of {P : Pddl} {app : Op → List Obj → State → Res State} {n : PNode} {R : List (Op × List Obj)}
    {l : List ((Op × List Obj) × State)}
    (h : Offspring (fun a : Op × List Obj => a.1.isValid P.omap n.state a.2 = .ok true)
      (fun a => a.1.isValid P.omap n.state a.2 = .ok false)
      (fun a s => app a.1 a.2 n.state = .ok s) (fun s => s = n.state ∨ s ∈ n.anc) R l) :
    P.scanAllW app n R = .ok (l.map (childNode n (PNode.insert n.anc n.state))) := by
  induction h with
  | nil => rfl
  | skip hv _ ih => simp only [Pddl.scanAllW, hv, Res.bind_ok, Bool.false_eq_true, if_false]; exact ih
  | repeated hv hs hseen _ ih =>
    rw [← mem_insert, ← visited_iff] at hseen
    simp only [Pddl.scanAllW, hv, Res.bind_ok, if_true, hs, hseen]; exact ih
  | child hv hs hseen _ ih =>
    rw [← mem_insert, ← visited_iff] at hseen
    simp only [Pddl.scanAllW, hv, Res.bind_ok, if_true, hs, if_neg hseen, ih]; rfl

variable {P : Pddl} (ids : Name → Nat) {fuel : Nat}

theorem tryChildB_fresh (parent : PNode) (it : NodeIt) :
    ByValue (P.tryChildB ids fuel parent it) (P.tryChildW (P.applyFresh ids fuel) parent it) := by
  obtain ⟨acts, param, child⟩ := it
  unfold Pddl.tryChildB Pddl.tryChildW
  cases acts
  · exact .lift _
  · refine (ByValue.lift _).bind fun v => ?_
    split
    · exact (applyOpB_det P ids fuel _ _ _).byValue.bind fun _ => .pure _
    · exact .pure _

theorem nodeNextB_fresh (parent : PNode) : ∀ (k : Nat) (it : NodeIt),
    ByValue (P.nodeNextB ids fuel parent k it) (P.nodeNextW (P.applyFresh ids fuel) parent k it)
  | 0, _ => .lift _
  | k + 1, it => by
    have one : ∀ it', ByValue (do
        let r ← P.tryChildB ids fuel parent it'
        if r.2 then pure r.1 else P.nodeNextB ids fuel parent k r.1) (do
        let r ← P.tryChildW (P.applyFresh ids fuel) parent it'
        if r.2 then pure r.1 else P.nodeNextW (P.applyFresh ids fuel) parent k r.1) := fun it' =>
      (tryChildB_fresh ids parent it').bind fun r => by
        split
        · exact .pure _
        · exact nodeNextB_fresh parent k _
    obtain ⟨acts, param, child⟩ := it
    rw [Pddl.nodeNextB, Pddl.nodeNextW]
    rcases acts with _ | ⟨op, ops⟩
    · exact .pure _
    · simp only
      split
      · cases ops
        · exact .pure _
        · refine (ByValue.lift _).bind fun b => ?_
          split
          · exact nodeNextB_fresh parent k _
          · exact one _
      · refine (ByValue.lift _).bind fun q => ?_
        split
        · exact nodeNextB_fresh parent k _
        · exact one _

theorem nodeBeginB_fresh (parent : PNode) (k : Nat) :
    ByValue (P.nodeBeginB ids fuel parent k) (P.nodeBeginW (P.applyFresh ids fuel) parent k) := by
  unfold Pddl.nodeBeginB Pddl.nodeBeginW
  cases P.actions
  · exact .lift _
  · refine (ByValue.lift _).bind fun b => ?_
    split
    · exact nodeNextB_fresh ids parent k _
    · refine (tryChildB_fresh ids parent _).bind fun r => ?_
      split
      · exact .pure _
      · exact nodeNextB_fresh ids parent k _

theorem nodeLoopB_fresh (parent : PNode) (k : Nat) : ∀ (j : Nat) (it : NodeIt),
    ByValue (P.nodeLoopB ids fuel parent k j it) (P.nodeLoopW (P.applyFresh ids fuel) parent k j it)
  | 0, _ => .lift _
  | j + 1, it => by
    obtain ⟨acts, param, child⟩ := it
    rw [Pddl.nodeLoopB, Pddl.nodeLoopW]
    cases acts
    · exact .pure _
    · cases child
      · exact .lift _
      · exact (nodeNextB_fresh ids parent k _).bind fun _ => (nodeLoopB_fresh parent k j _).bind fun _ => .pure _

theorem childrenB_fresh (parent : PNode) :
    ByValue (P.childrenB ids fuel parent) (P.childrenW (P.applyFresh ids fuel) parent) :=
  (nodeBeginB_fresh ids parent _).bind fun _ => nodeLoopB_fresh ids parent _ _ _

end Symbolic
