import Verif.Model.PlannerBack
import Verif.Lemmas.Planner

/-!
# Stepping back over the children of a planner node
-/

namespace Symbolic

variable [StrHash]

namespace Pddl

/-- The child of an instance and whether its state is new; `none` if the instance is not valid. -/
def childOf (P : Pddl) (fuel : Nat) (parent : PNode) (x : Op × List Obj) : Res (Option (PNode × Bool)) := do
  let v ← x.1.isValid P.omap parent.state x.2
  if v then do
    let s ← P.applyOp fuel x.1 x.2 parent.state
    pure (some (⟨s, PNode.insert parent.anc parent.state, callOf x.1 x.2, parent.depth + 1⟩,
      !(PNode.visited (PNode.insert parent.anc parent.state) s)))
  else pure none

/-- The children that are shown. -/
def shown (f : Op × List Obj → Option (PNode × Bool)) (L : List (Op × List Obj)) : List PNode :=
  L.filterMap fun x => match f x with
    | some (c, true) => some c
    | _ => none

/-- The children that are made. -/
def valids (f : Op × List Obj → Option (PNode × Bool)) (L : List (Op × List Obj)) : List PNode :=
  L.filterMap fun x => (f x).map Prod.fst

theorem scanAll_childOf {P : Pddl} {fuel : Nat} {parent : PNode} : ∀ {R cs}, P.scanAll fuel parent R = .ok cs →
    ∃ f, (∀ x ∈ R, P.childOf fuel parent x = .ok (f x)) ∧ cs = shown f R := by
  intro R cs h
  have key : ∀ R cs, P.scanAll fuel parent R = .ok cs → ∀ x ∈ R, ∃ y, P.childOf fuel parent x = .ok y := by
    intro R
    induction R with
    | nil => intro cs _ x hx; simp at hx
    | cons y R ih =>
      obtain ⟨op, as⟩ := y
      intro cs h x hx
      simp only [scanAll, Res.bind_eq_ok] at h
      obtain ⟨v, hv, h⟩ := h
      rcases List.mem_cons.1 hx with rfl | hx
      · simp only [childOf, hv, Res.bind_ok]
        cases v with
        | false => exact ⟨_, rfl⟩
        | true =>
          simp only [if_true, Res.bind_eq_ok] at h ⊢
          obtain ⟨s, hs, _⟩ := h
          exact ⟨_, s, hs, rfl⟩
      · cases v with
        | false => exact ih cs (by simpa using h) x hx
        | true =>
          simp only [if_true, Res.bind_eq_ok] at h
          obtain ⟨s, _, h⟩ := h
          split at h
          · exact ih cs h x hx
          · simp only [Res.bind_eq_ok] at h
            obtain ⟨r, hr, _⟩ := h
            exact ih r hr x hx
  classical
  refine ⟨fun x => match P.childOf fuel parent x with
    | .ok y => y
    | _ => none, ?_, ?_⟩
  · intro x hx
    obtain ⟨y, hy⟩ := key R cs h x hx
    simp only [hy]
  · induction R generalizing cs with
    | nil => simp only [scanAll, Res.ok.injEq] at h; subst h; rfl
    | cons y R ih =>
      obtain ⟨op, as⟩ := y
      simp only [scanAll, Res.bind_eq_ok] at h
      obtain ⟨v, hv, h⟩ := h
      simp only [shown] at ih ⊢
      cases v with
      | false =>
        have : P.childOf fuel parent (op, as) = .ok none := by simp [childOf, hv]
        simp only [List.filterMap_cons, this]
        exact ih (by simpa using h)
      | true =>
        simp only [if_true, Res.bind_eq_ok] at h
        obtain ⟨s, hs, h⟩ := h
        have e : P.childOf fuel parent (op, as) = .ok (some (⟨s, PNode.insert parent.anc parent.state, callOf op as, parent.depth + 1⟩,
            !(PNode.visited (PNode.insert parent.anc parent.state) s))) := by simp [childOf, hv, hs]
        simp only [List.filterMap_cons, e]
        cases hvis : PNode.visited (PNode.insert parent.anc parent.state) s with
        | true =>
          simp only [hvis, if_true] at h
          simp only [Bool.not_true]
          exact ih h
        | false =>
          simp only [hvis, Bool.false_eq_true, if_false, Res.bind_eq_ok] at h
          obtain ⟨r, hr, h⟩ := h
          simp only [Res.pure_eq, Res.ok.injEq] at h
          subst h
          simp only [Bool.not_false]
          rw [← ih hr]

theorem tryChild_childOf {P : Pddl} {fuel : Nat} {parent : PNode} {op : Op} {ops : List Op} {p : Comb.Iter Obj}
    {sib : Option PNode} (hs : SiblingOk parent sib) {y : Option (PNode × Bool)} (h : P.childOf fuel parent (op, p.comb) = .ok y) :
    P.tryChild fuel parent ⟨op :: ops, p, sib⟩ = .ok (match (generalizing := false) y with
      | some (c, b) => (⟨op :: ops, p, some c⟩, b)
      | none => (⟨op :: ops, p, sib⟩, false)) ∧
    ∀ c b, y = some (c, b) → SiblingOk parent (some c) := by
  rw [tryChild_eq hs]
  simp only [childOf, Res.bind_eq_ok] at h
  obtain ⟨v, hv, h⟩ := h
  simp only [hv, Res.bind_ok]
  cases v with
  | false =>
    simp only [Bool.false_eq_true, if_false, Res.pure_eq, Res.ok.injEq] at h
    subst h
    exact ⟨rfl, by simp⟩
  | true =>
    simp only [if_true, Res.bind_eq_ok] at h ⊢
    obtain ⟨s, hs', h⟩ := h
    simp only [Res.pure_eq, Res.ok.injEq] at h
    subst h
    refine ⟨by simp [hs'], ?_⟩
    intro c b hc
    simp only [Option.some.injEq, Prod.mk.injEq] at hc
    obtain ⟨rfl, rfl⟩ := hc
    exact ⟨rfl, rfl⟩

/-- The iterator stands at an instance; `L` are the instances before it. -/
def Before (P : Pddl) (it : NodeIt) (L : List (Op × List Obj)) : Prop :=
  ∃ pre op ops as, ∃ j : Nat, P.actions = pre ++ op :: ops ∧ it.acts = op :: ops ∧ it.param = ⟨as, (j : Int)⟩ ∧
    (tuples (P.gen op))[j]? = some as ∧ L = instances P pre ++ ((tuples (P.gen op)).take j).map fun as => (op, as)

/-- Every action has arguments, and only the first parameter may have a single possible argument. -/
def Plural (P : Pddl) : Prop := ∀ op ∈ P.actions, P.gen op ≠ [] ∧ (∀ o ∈ P.gen op, o ≠ []) ∧ ∀ o ∈ (P.gen op).tail, 2 ≤ o.length

omit [StrHash] in
theorem mask_plural {os : List (List Obj)} (h2 : ∀ o ∈ os.tail, 2 ≤ o.length) : Comb.mask Obj.dflt os = os := by
  cases os with
  | nil => rfl
  | cons o os =>
    simp only [Comb.mask]
    congr 1
    conv_rhs => rw [← List.map_id os]
    apply List.map_congr_left
    intro o' ho'
    have := h2 o' (by simpa using ho')
    rw [if_neg (by omega)]; rfl

omit [StrHash] in
theorem last_tuples {os : List (List Obj)} (h0 : os ≠ []) (hne : ∀ o ∈ os, o ≠ []) (h2 : ∀ o ∈ os.tail, 2 ≤ o.length) :
    ∃ (j : Nat) (as : List Obj), j + 1 = (tuples os).length ∧ (tuples os)[j]? = some as ∧
      (do let e ← Comb.endIt Obj.dflt os; Comb.advance Obj.dflt os e (-1)) = .ok ⟨as, (j : Int)⟩ := by
  obtain ⟨c, h1, h3⟩ := Comb.rbegin_spec Obj.dflt h0 hne
  rw [mask_plural h2] at h1
  have hp := Comb.count_pos hne
  have hs := Comb.size_of_ne_nil h0
  refine ⟨Comb.count os - 1, c, by rw [size_tuples, hs]; omega, by unfold tuples; rw [if_neg h0]; exact h1, ?_⟩
  have he : Comb.endIt Obj.dflt os = .ok ⟨[], (Comb.size os : Int)⟩ := by
    simp [Comb.endIt, Comb.iter, Comb.outside_nat]
  rw [he, hs]
  simp only [Res.bind_ok, Comb.advance]
  have e1 : (Comb.count os : Int) + -1 = ((Comb.count os - 1 : Nat) : Int) := by omega
  rw [e1, h3]

omit [StrHash] in
theorem advance_back {os : List (List Obj)} (hne : ∀ o ∈ os, o ≠ []) {j : Nat} {as : List Obj}
    (h : (tuples os)[j + 1]? = some as) :
    ∃ c, (tuples os)[j]? = some c ∧ Comb.advance Obj.dflt os ⟨as, ((j + 1 : Nat) : Int)⟩ (-1) = .ok ⟨c, (j : Int)⟩ := by
  have hj : j + 1 < Comb.size os := by
    rw [← size_tuples]; exact (List.getElem?_eq_some_iff.1 h).1
  have h0 : os ≠ [] := by rintro rfl; simp [tuples] at h
  have hs := Comb.size_of_ne_nil h0
  unfold tuples at h ⊢
  rw [if_neg h0] at h ⊢
  obtain ⟨c, h1, h2⟩ := Comb.moveTo_spec Obj.dflt h0 (Comb.Masked.refl os) hne (j + 1) j (by omega) (by omega) h
  refine ⟨c, h1, ?_⟩
  have : ((j + 1 : Nat) : Int) + -1 = (j : Int) := by omega
  simp only [Comb.advance, this, h2]

theorem instances_append (P : Pddl) (l l' : List Op) : instances P (l ++ l') = instances P l ++ instances P l' := by
  simp [instances]

theorem instances_cons (P : Pddl) (op : Op) (l : List Op) :
    instances P (op :: l) = (tuples (P.gen op)).map (fun as => (op, as)) ++ instances P l := rfl

/-- Going to the previous action. -/
theorem prevAction_spec {P : Pddl} (hP : P.Plural) {it : NodeIt} {pre suf : List Op} (ha : P.actions = pre ++ suf) (hs : it.acts = suf)
    (hpre : pre ≠ []) : ∃ L x p ops, P.prevAction it = .ok ⟨x.1 :: ops, p, it.child⟩ ∧ p.comb = x.2 ∧
      instances P pre = L ++ [x] ∧ ∀ c, Before P ⟨x.1 :: ops, p, c⟩ L := by
  obtain ⟨pre', op, rfl⟩ : ∃ pre' op, pre = pre' ++ [op] := ⟨pre.dropLast, pre.getLast hpre, (List.dropLast_append_getLast hpre).symm⟩
  have hd : P.actions.drop (P.actions.length - it.acts.length - 1) = op :: suf := by
    have e : P.actions.length - it.acts.length - 1 = pre'.length := by
      rw [ha, hs]; simp only [List.length_append, List.length_cons, List.length_nil]; omega
    rw [e, ha, List.append_assoc]
    exact List.drop_left' rfl
  obtain ⟨h0, hne, h2⟩ := hP op (by rw [ha]; simp)
  obtain ⟨j, as, hj, hg, he⟩ := last_tuples h0 hne h2
  refine ⟨instances P pre' ++ ((tuples (P.gen op)).take j).map (fun as => (op, as)), (op, as), ⟨as, (j : Int)⟩, suf, ?_, rfl, ?_, ?_⟩
  · unfold prevAction
    rw [hd]
    simp only
    simp only [Res.bind_eq_ok] at he
    obtain ⟨e, h3, h4⟩ := he
    simp only [h3, Res.bind_ok, h4, Res.pure_eq]
  · rw [instances_append, instances_cons]
    have : tuples (P.gen op) = (tuples (P.gen op)).take j ++ [as] := by
      have := List.take_add_one (l := tuples (P.gen op)) (i := j)
      rw [hg, hj, List.take_length] at this
      simpa using this
    have e2 : instances P [] = [] := rfl
    rw [e2, List.append_nil]
    conv_lhs => rw [this]
    rw [List.map_append, List.append_assoc]
    rfl
  · intro c
    exact ⟨pre', op, suf, as, j, by rw [ha]; simp, rfl, rfl, hg, rfl⟩

/-- One move back. -/
theorem stepBack_spec {P : Pddl} (hP : P.Plural) {it : NodeIt} {L : List (Op × List Obj)} (h : Before P it L) :
    (L = [] ∧ it.acts.length = P.actions.length ∧ it.param.idx = 0) ∨
    ∃ L' x p ops, L = L' ++ [x] ∧ ¬ (it.acts.length = P.actions.length ∧ it.param.idx = 0) ∧
      (∀ op rest, it.acts = op :: rest →
        (if it.param.idx = 0 then P.prevAction it else do
          let q ← Comb.advance Obj.dflt (P.gen op) it.param (-1)
          pure { it with param := q }) = .ok ⟨x.1 :: ops, p, it.child⟩) ∧ p.comb = x.2 ∧ ∀ c, Before P ⟨x.1 :: ops, p, c⟩ L' := by
  obtain ⟨pre, op, ops, as, j, ha, hacts, hpar, hg, rfl⟩ := h
  cases j with
  | zero =>
    by_cases hpre : pre = []
    · subst hpre
      refine .inl ⟨by simp [instances], by rw [hacts, ha]; rfl, by rw [hpar]; rfl⟩
    · right
      obtain ⟨L, x, p, ops', h1, h2, h3, h4⟩ := prevAction_spec hP ha hacts hpre
      refine ⟨L, x, p, ops', by simpa using h3, ?_, ?_, h2, h4⟩
      · rintro ⟨h, _⟩
        rw [hacts, ha, List.length_append] at h
        have : 0 < pre.length := List.length_pos_iff.2 hpre
        omega
      · intro op' rest _
        rw [if_pos (by rw [hpar]; rfl), h1]
  | succ j =>
    right
    obtain ⟨h0, hne, h2⟩ := hP op (by rw [ha]; simp)
    obtain ⟨c, h1, h3⟩ := advance_back hne hg
    have hn : ¬ it.param.idx = 0 := by rw [hpar]; simp only; omega
    refine ⟨instances P pre ++ ((tuples (P.gen op)).take j).map (fun as => (op, as)), (op, c), ⟨c, (j : Int)⟩, ops, ?_, fun h => hn h.2, ?_, rfl, ?_⟩
    · rw [List.take_add_one, h1]
      simp
    · intro op' rest he
      rw [hacts] at he
      cases he
      rw [if_neg hn, hpar, h3]
      simp only [Res.bind_ok, Res.pure_eq, hacts]
    · intro c'
      exact ⟨pre, op, ops, c, j, ha, rfl, rfl, h1, rfl⟩

/-- What the loop of `--` finds among the instances before it. -/
def Found (P : Pddl) (parent : PNode) (f : Op × List Obj → Option (PNode × Bool)) (L : List (Op × List Obj)) (sib : Option PNode)
    (it' : NodeIt) : Prop :=
  SiblingOk parent it'.child ∧
    ((shown f L = [] ∧ Before P it' [] ∧ it'.child = (valids f L).head?.or sib) ∨
      ∃ L' c, shown f L = shown f L' ++ [c] ∧ Before P it' L' ∧ it'.child = some c ∧
        (valids f L).head?.or sib = (valids f L').head?.or (some c) ∧ L'.length < L.length ∧ ∀ y ∈ L', y ∈ L)

theorem prevLoop_spec {P : Pddl} (hP : P.Plural) {fuel : Nat} {parent : PNode} {f : Op × List Obj → Option (PNode × Bool)} :
    ∀ (k : Nat) (it : NodeIt) (L : List (Op × List Obj)), (∀ x ∈ L, P.childOf fuel parent x = .ok (f x)) → Before P it L →
      SiblingOk parent it.child → L.length < k → ∃ it', P.prevLoop fuel parent k it = .ok it' ∧ Found P parent f L it.child it' := by
  intro k
  induction k with
  | zero => intro it L _ _ _ h; omega
  | succ k ih =>
    intro it L hf hB hs hk
    have hB' := hB
    obtain ⟨_, op, ops, _, _, _, hacts, _, _, _⟩ := hB'
    rw [prevLoop]
    rcases stepBack_spec hP hB with ⟨rfl, h1, h2⟩ | ⟨L', x, p, ops', rfl, hn, hmove, hp, hB''⟩
    · refine ⟨it, ?_, hs, .inl ⟨rfl, hB, by simp [valids]⟩⟩
      split
      · rename_i h; rw [hacts] at h; cases h
      · rw [if_pos ⟨h1, h2⟩]
    · have hx := hf x (by simp)
      have hx' : P.childOf fuel parent (x.1, p.comb) = .ok (f x) := by rw [hp]; exact hx
      obtain ⟨ht, hso⟩ := tryChild_childOf (ops := ops') (p := p) hs hx'
      have hstep : P.prevLoop fuel parent (k + 1) it = (do
          let r ← P.tryChild fuel parent ⟨x.1 :: ops', p, it.child⟩
          if r.2 then pure r.1 else P.prevLoop fuel parent k r.1) := by
        rw [prevLoop]
        split
        · rename_i h; rw [hacts] at h; cases h
        · rename_i op' rest he
          rw [if_neg hn, hmove _ _ he]
          rfl
      rw [prevLoop] at hstep
      rw [hstep, ht]
      simp only [Res.bind_ok]
      have hf' : ∀ y ∈ L', P.childOf fuel parent y = .ok (f y) := fun y hy => hf y (by simp [hy])
      have hlen : (L' ++ [x]).length = L'.length + 1 := by simp
      cases hfx : f x with
      | none =>
        simp only [Bool.false_eq_true, if_false]
        obtain ⟨it', h1, h2, h3⟩ := ih ⟨x.1 :: ops', p, it.child⟩ L' hf' (hB'' _) hs (by omega)
        have e1 : shown f (L' ++ [x]) = shown f L' := by simp [shown, hfx]
        have e2 : valids f (L' ++ [x]) = valids f L' := by simp [valids, hfx]
        refine ⟨it', h1, h2, ?_⟩
        rw [e1, e2]
        rcases h3 with h3 | ⟨L'', c, a1, a2, a3, a4, a5, a6⟩
        · exact .inl h3
        · exact .inr ⟨L'', c, a1, a2, a3, a4, by omega, fun y hy => by simp [a6 y hy]⟩
      | some cb =>
        obtain ⟨c, b⟩ := cb
        have hso' := hso c b hfx
        have e2 : (valids f (L' ++ [x])).head?.or it.child = (valids f L').head?.or (some c) := by
          simp only [valids, List.filterMap_append, List.filterMap_cons, hfx, Option.map_some, List.filterMap_nil]
          cases (List.filterMap (fun x => Option.map Prod.fst (f x)) L') <;> simp
        cases b with
        | true =>
          simp only [if_true, Res.pure_eq]
          refine ⟨_, rfl, hso', .inr ⟨L', c, by simp [shown, hfx], hB'' _, rfl, e2, by omega, fun y hy => by simp [hy]⟩⟩
        | false =>
          simp only [Bool.false_eq_true, if_false]
          obtain ⟨it', h1, h2, h3⟩ := ih ⟨x.1 :: ops', p, some c⟩ L' hf' (hB'' _) hso' (by omega)
          have e1 : shown f (L' ++ [x]) = shown f L' := by simp [shown, hfx]
          refine ⟨it', h1, h2, ?_⟩
          rw [e1, e2]
          rcases h3 with h3 | ⟨L'', c', a1, a2, a3, a4, a5, a6⟩
          · exact .inl h3
          · exact .inr ⟨L'', c', a1, a2, a3, a4, by omega, fun y hy => by simp [a6 y hy]⟩

theorem nodePrev_before {P : Pddl} {fuel : Nat} {parent : PNode} {k : Nat} {it : NodeIt} {L : List (Op × List Obj)} (h : Before P it L) :
    P.nodePrev fuel parent k it = P.prevLoop fuel parent k it := by
  obtain ⟨_, op, ops, _, _, _, hacts, _, _, _⟩ := h
  unfold nodePrev
  split
  · rename_i h; rw [hacts] at h; cases h
  · rfl

/-- What is visited in `m` steps: the children before, backwards, and then the first one made again and again. -/
def visitedBack (cs : List PNode) (x : Option PNode) (m : Nat) : List (Option PNode) :=
  (cs.reverse.map some).take m ++ List.replicate (m - cs.length) x

omit [StrHash] in
theorem visitedBack_nil [StrHash] (x : Option PNode) (m : Nat) : visitedBack [] x m = List.replicate m x := by simp [visitedBack]

theorem visitedBack_snoc (cs : List PNode) (c : PNode) (x : Option PNode) (m : Nat) :
    visitedBack (cs ++ [c]) x (m + 1) = some c :: visitedBack cs x m := by
  simp [visitedBack]

theorem nodeBackLoop_spec {P : Pddl} (hP : P.Plural) {fuel : Nat} {parent : PNode} {f : Op × List Obj → Option (PNode × Bool)} {k : Nat} :
    ∀ (m : Nat) (it : NodeIt) (L : List (Op × List Obj)), (∀ x ∈ L, P.childOf fuel parent x = .ok (f x)) → Before P it L →
      SiblingOk parent it.child → L.length < k →
      P.nodeBackLoop fuel parent k m it = .ok (visitedBack (shown f L) ((valids f L).head?.or it.child) m) := by
  intro m
  induction m with
  | zero => intro it L _ _ _ _; simp [nodeBackLoop, visitedBack]
  | succ m ih =>
    intro it L hf hB hs hk
    obtain ⟨it', h1, h2, h3⟩ := prevLoop_spec hP k it L hf hB hs hk
    simp only [nodeBackLoop, nodePrev_before hB, h1, Res.bind_ok]
    rcases h3 with ⟨e, hB', hc⟩ | ⟨L', c, e, hB', hc, hv, hlt, hsub⟩
    · rw [ih it' [] (by simp) hB' h2 (by simp only [List.length_nil]; omega), e, ← hc]
      simp [shown, valids, visitedBack_nil, List.replicate_succ]
    · rw [ih it' L' (fun y hy => hf y (hsub y hy)) hB' h2 (by omega), e, hv, visitedBack_snoc, hc]
      rfl

/-- From the end. -/
theorem stepsBack_spec {P : Pddl} (hP : P.Plural) (h0 : P.actions ≠ []) {fuel : Nat} {parent : PNode} {f : Op × List Obj → Option (PNode × Bool)}
    {k : Nat} (hf : ∀ x ∈ instances P P.actions, P.childOf fuel parent x = .ok (f x)) (hk : (instances P P.actions).length < k) (m : Nat) :
    P.stepsBack fuel parent k m =
      .ok (visitedBack (shown f (instances P P.actions)) (valids f (instances P P.actions)).head? m) := by
  unfold stepsBack
  have he : ∃ b, P.nodeEnd = .ok ⟨[], b, none⟩ := by
    unfold nodeEnd
    cases ha : P.actions with
    | nil => exact absurd ha h0
    | cons op ops =>
      obtain ⟨hg, hne, _⟩ := hP op (by rw [ha]; simp)
      rcases begin_tuples hne with ⟨_, c, hc⟩ | ⟨_, c, _, hc⟩
      · exact ⟨⟨c, 0⟩, by simp [hc]⟩
      · exact ⟨⟨c, 0⟩, by simp [hc]⟩
  obtain ⟨b, hb⟩ := he
  rw [hb]
  simp only [Res.bind_ok]
  cases m with
  | zero => simp [nodeBackLoop, visitedBack]
  | succ m =>
    simp only [nodeBackLoop, nodePrev]
    obtain ⟨L, x, p, ops, h1, h2, h3, h4⟩ := prevAction_spec hP (it := ⟨[], b, none⟩) (suf := []) (pre := P.actions) (by simp) rfl h0
    have hx := hf x (by rw [h3]; simp)
    have hx' : P.childOf fuel parent (x.1, p.comb) = .ok (f x) := by rw [h2]; exact hx
    obtain ⟨ht, hso⟩ := tryChild_childOf (ops := ops) (p := p) (sib := none) (by trivial) hx'
    have hf' : ∀ y ∈ L, P.childOf fuel parent y = .ok (f y) := fun y hy => hf y (by rw [h3]; simp [hy])
    have hlen : L.length < k := by rw [h3] at hk; simp at hk; omega
    simp only [h1, Res.bind_ok, ht]
    rw [h3]
    -- after a miss, the loop continues as if it had started at the instance
    have cont : ∀ (sib : Option PNode), SiblingOk parent sib →
        (do
          let it' ← P.prevLoop fuel parent k ⟨x.1 :: ops, p, sib⟩
          let rest ← P.nodeBackLoop fuel parent k m it'
          pure (it'.child :: rest)) = .ok (visitedBack (shown f L) ((valids f L).head?.or sib) (m + 1)) := by
      intro sib hsib
      have := nodeBackLoop_spec hP (f := f) (m + 1) ⟨x.1 :: ops, p, sib⟩ L hf' (h4 sib) hsib hlen
      simp only [nodeBackLoop, nodePrev] at this
      exact this
    cases hfx : f x with
    | none =>
      have e1 : shown f (L ++ [x]) = shown f L := by simp [shown, hfx]
      have e2 : valids f (L ++ [x]) = valids f L := by simp [valids, hfx]
      simp only [Bool.false_eq_true, if_false]
      rw [cont none (by trivial), e1, e2, Option.or_none]
    | some cb =>
      obtain ⟨c, b'⟩ := cb
      have e2 : (valids f (L ++ [x])).head? = (valids f L).head?.or (some c) := by
        simp only [valids, List.filterMap_append, List.filterMap_cons, hfx, Option.map_some, List.filterMap_nil]
        cases (List.filterMap (fun x => Option.map Prod.fst (f x)) L) <;> simp
      cases b' with
      | true =>
        simp only [if_true, Res.pure_eq, Res.bind_ok]
        rw [nodeBackLoop_spec hP m _ L hf' (h4 (some c)) (hso c _ hfx) hlen]
        have e1 : shown f (L ++ [x]) = shown f L ++ [c] := by simp [shown, hfx]
        rw [e1, e2, visitedBack_snoc]
        rfl
      | false =>
        have e1 : shown f (L ++ [x]) = shown f L := by simp [shown, hfx]
        simp only [Bool.false_eq_true, if_false]
        rw [cont (some c) (hso c _ hfx), e1, e2]

end Pddl
end Symbolic
