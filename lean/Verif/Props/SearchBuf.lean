import Verif.Props.CallsBuf
import Verif.Props.Search

/-!
# C44, C48, C49: plans found by the searches, with the argument buffers

The searches and `IsValidPlan` run with the buffers of Model/ActionBuf.lean, on domains with any axioms, also those that trigger
themselves.
-/

namespace Symbolic

/-- With admissible buffers `x` leaves admissible buffers, and what it returns satisfies `Q`. -/
def Post (x : BufM α) (Q : α → Prop) : Prop := ∀ st, BufInv st → BufInv (x st).2 ∧ ∀ a, (x st).1 = .ok a → Q a

theorem Post.lift {r : Res α} {Q : α → Prop} (h : ∀ a, r = .ok a → Q a) : Post (BufM.lift r) Q := fun _ hi => ⟨hi, h⟩

theorem Post.pure {a : α} {Q : α → Prop} (h : Q a) : Post (pure a : BufM α) Q := Post.lift (r := .ok a) fun b hb => by
  cases hb; exact h

theorem Post.bind {x : BufM α} {f : α → BufM β} {Q : α → Prop} {Q' : β → Prop} (hx : Post x Q)
    (hf : ∀ a, Q a → Post (f a) Q') : Post (x >>= f) Q' := by
  intro st hi
  obtain ⟨h1, h2⟩ := hx st hi
  rw [BufM.bind_run]
  generalize x st = y at h1 h2 ⊢
  obtain ⟨r1, t1⟩ := y
  cases r1 with
  | ok a => exact hf a (h2 a rfl) t1 h1
  | exc _ => exact ⟨h1, fun b hb => by cases hb⟩
  | ub => exact ⟨h1, fun b hb => by cases hb⟩
  | fuel => exact ⟨h1, fun b hb => by cases hb⟩

theorem ByValue.andThen {x : BufM α} {a : α} {f : α → BufM β} {r : Res β} (hx : ByValue x (.ok a)) (hf : ByValue (f a) r) :
    ByValue (x >>= f) r := by
  intro st hi
  obtain ⟨h1, h2⟩ := hx st hi
  rw [BufM.bind_run]
  generalize x st = y at h1 h2 ⊢
  obtain ⟨r1, t1⟩ := y
  simp only at h1 h2
  subst h1
  exact hf t1 h2

/-- A result that does not depend on the buffers is the one right after construction. -/
theorem Det.post {x : BufM α} (h : Det [] x) : Post x fun a => (x Store.init).1 = .ok a := fun st hi => by
  have := h st Store.init hi BufInv.init (by simp)
  exact ⟨this.2.1, fun a ha => this.1 ▸ ha⟩

theorem Det.byValue {x : BufM α} (h : Det [] x) : ByValue x (x Store.init).1 := fun st hi => by
  have := h st Store.init hi BufInv.init (by simp)
  exact ⟨this.1, this.2.1⟩

section
variable [StrHash] (P : Pddl) (ids : Name → Nat) (fuel : Nat)

/-- `c` is what an instance of an action leads to from `n`. -/
def StepB (n c : PNode) : Prop :=
  ∃ a ∈ instances P P.actions, a.1.isValid P.omap n.state a.2 = .ok true ∧
    (P.applyOpB ids fuel a.1 a.2 n.state Store.init).1 = .ok c.state ∧ c.action = Pddl.callOf a.1 a.2

/-- What holds of the iterator over the children of `n`. -/
structure ItOk (n : PNode) (it : NodeIt) : Prop where
  acts : it.acts <:+ P.actions
  pos : ∀ op ops, it.acts = op :: ops → it.param.idx = (Comb.size (P.gen op) : Int) ∨
    ∃ j : Nat, it.param.idx = (j : Int) ∧ (tuples (P.gen op))[j]? = some it.param.comb
  child : ∀ c, it.child = some c → StepB P ids fuel n c

variable {P} (hne : ∀ op ∈ P.actions, ∀ o ∈ P.gen op, o ≠ [])

theorem make_fields (n : PNode) (sib : Option PNode) (s : State) (a : Name) :
    (PNode.make n sib s a).state = s ∧ (PNode.make n sib s a).action = a := by
  cases sib <;> exact ⟨rfl, rfl⟩

theorem tryChildB_post {n : PNode} {op : Op} {ops : List Op} {p : Comb.Iter Obj} {sib : Option PNode}
    (h : ItOk P ids fuel n ⟨op :: ops, p, sib⟩) (hp : p.idx ≠ (Comb.size (P.gen op) : Int)) :
    Post (P.tryChildB ids fuel n ⟨op :: ops, p, sib⟩) fun r => ItOk P ids fuel n r.1 ∧ (r.2 = true → ∃ c, r.1.child = some c) := by
  unfold Pddl.tryChildB
  refine Post.bind (Post.lift fun v hv => hv) fun v hv => ?_
  split
  · rename_i hv'
    subst hv'
    refine (applyOpB_det P ids fuel _ _ _).post.bind fun s hs => Post.pure ⟨⟨h.acts, h.pos, ?_⟩, fun _ => ⟨_, rfl⟩⟩
    intro c hc
    cases hc
    obtain ⟨h1, h2⟩ := make_fields n sib s (Pddl.callOf op p.comb)
    rcases h.pos op ops rfl with hp' | ⟨j, -, hj⟩
    · exact absurd hp' hp
    · refine ⟨(op, p.comb), ?_, hv, by rw [h1]; exact hs, h2⟩
      unfold instances
      exact List.mem_flatMap.2 ⟨op, h.acts.subset (by simp), List.mem_map.2 ⟨_, List.mem_of_getElem? hj, rfl⟩⟩
  · exact Post.pure ⟨h, by simp⟩

include hne

/-- The iterator at the first instance of an action. -/
theorem begin_itOk {n : PNode} {op : Op} {ops : List Op} {b : Comb.Iter Obj} {sib : Option PNode} (ha : op :: ops <:+ P.actions)
    (hc : ∀ c, sib = some c → StepB P ids fuel n c) (hb : Comb.begin Obj.dflt (P.gen op) = .ok b) :
    ItOk P ids fuel n ⟨op :: ops, b, sib⟩ := by
  refine ⟨ha, ?_, hc⟩
  rintro op' ops' he
  cases he
  rcases Pddl.begin_tuples (hne op (ha.subset (by simp))) with ⟨h0, c, h⟩ | ⟨h0, c, h1, h⟩
  · rw [hb] at h; cases h; exact .inl (by simp [h0])
  · rw [hb] at h; cases h; exact .inr ⟨0, rfl, h1⟩

theorem nodeNextB_post {n : PNode} : ∀ (k : Nat) (it : NodeIt), ItOk P ids fuel n it →
    Post (P.nodeNextB ids fuel n k it) (ItOk P ids fuel n)
  | 0, _, _ => Post.lift fun _ h => by cases h
  | k + 1, ⟨acts, p, sib⟩, h => by
    have one : ∀ {op : Op} {ops : List Op} {q : Comb.Iter Obj}, ItOk P ids fuel n ⟨op :: ops, q, sib⟩ →
        q.idx ≠ (Comb.size (P.gen op) : Int) → Post (do
          let r ← P.tryChildB ids fuel n ⟨op :: ops, q, sib⟩
          if r.2 then pure r.1 else P.nodeNextB ids fuel n k r.1) (ItOk P ids fuel n) := fun h hq =>
      (tryChildB_post ids fuel h hq).bind fun r hr => by
        split
        · exact Post.pure hr.1
        · exact nodeNextB_post k _ hr.1
    rw [Pddl.nodeNextB]
    rcases acts with _ | ⟨op, ops⟩
    · exact Post.pure h
    · simp only
      split
      · rcases ops with _ | ⟨op', rest⟩
        · exact Post.pure ⟨List.nil_suffix, (fun _ _ he => by cases he), h.child⟩
        · refine Post.bind (Post.lift fun b hb => hb) fun b hb => ?_
          have hs : op' :: rest <:+ P.actions := (List.suffix_cons op _).trans h.acts
          have hi := begin_itOk ids fuel hne hs h.child hb
          split
          · exact nodeNextB_post k _ hi
          · rename_i hq
            exact one hi hq
      · rename_i hq
        refine Post.bind (Post.lift fun q hq => hq) fun q hq' => ?_
        have hi : ItOk P ids fuel n ⟨op :: ops, q, sib⟩ := by
          refine ⟨h.acts, ?_, h.child⟩
          rintro op' ops' he
          cases he
          rcases h.pos op ops rfl with hp | ⟨j, hj, hc⟩
          · exact absurd hp hq
          · obtain ⟨comb, idx⟩ := p
            simp only at hj hc
            subst hj
            rcases Pddl.advance_tuples (hne op (h.acts.subset (by simp))) hc with ⟨-, e⟩ | ⟨-, c, h1, e⟩
            · rw [hq'] at e; cases e; exact .inl rfl
            · rw [hq'] at e; cases e; exact .inr ⟨j + 1, rfl, h1⟩
        split
        · exact nodeNextB_post k _ hi
        · rename_i hq2
          exact one hi hq2

theorem nodeLoopB_post {n : PNode} (k : Nat) : ∀ (j : Nat) (it : NodeIt), ItOk P ids fuel n it →
    Post (P.nodeLoopB ids fuel n k j it) fun l => ∀ c ∈ l, StepB P ids fuel n c
  | 0, _, _ => Post.lift fun _ h => by cases h
  | j + 1, ⟨acts, p, sib⟩, h => by
    rw [Pddl.nodeLoopB]
    rcases acts with _ | ⟨op, ops⟩
    · exact Post.pure (by simp)
    · rcases sib with _ | c
      · exact Post.lift fun _ h => by cases h
      · refine (nodeNextB_post ids fuel hne k _ h).bind fun it' hi => (nodeLoopB_post k j it' hi).bind fun l hl => Post.pure ?_
        intro c' hc'
        rcases List.mem_cons.1 hc' with rfl | hc'
        · exact h.child _ rfl
        · exact hl _ hc'

theorem childrenB_post (n : PNode) : Post (P.childrenB ids fuel n) fun l => ∀ c ∈ l, StepB P ids fuel n c := by
  unfold Pddl.childrenB
  refine Post.bind (Q := ItOk P ids fuel n) ?_ fun it hi => nodeLoopB_post ids fuel hne _ _ it hi
  unfold Pddl.nodeBeginB
  cases ha : P.actions with
  | nil => exact Post.lift fun _ h => by cases h
  | cons op ops =>
    refine Post.bind (Post.lift fun b hb => hb) fun b hb => ?_
    have hi : ItOk P ids fuel n ⟨op :: ops, b, none⟩ := begin_itOk ids fuel hne (by rw [ha]; exact List.suffix_refl _) (by simp) hb
    split
    · exact nodeNextB_post ids fuel hne _ _ hi
    · rename_i hq
      refine (tryChildB_post ids fuel hi hq).bind fun r hr => ?_
      split
      · exact Post.pure hr.1
      · exact nodeNextB_post ids fuel hne _ _ hr.1
end

/-- The space that a search sees, whatever the buffers hold. -/
def SpaceB.fresh (sp : SpaceB N) : Space N := ⟨sp.goal, fun n => (sp.expand n Store.init).1⟩

/-- The plans of a loop are those its iterators point at. -/
theorem Bfs.run_mem {sp : Space N} {d : Nat} {clock : Nat → Nat → Bool} {fuel : Nat} {root : N} {ps : List (List N)}
    (h : Bfs.run sp d clock fuel root = .ok ps) : ∀ p ∈ ps, PlanPath sp.Child sp.Goal d root p := by
  unfold Bfs.run at h
  obtain ⟨it, h1, h2⟩ := Res.bind_eq_ok.1 h
  have key : ∀ (steps i : Nat) (it : Bfs.It N) (ps : List (List N)), Bfs.Reached sp d root it →
      Bfs.collect sp d clock fuel steps i it = .ok ps → ∀ p ∈ ps, PlanPath sp.Child sp.Goal d root p := by
    intro steps
    induction steps with
    | zero => intro i it ps _ h; simp [Bfs.collect] at h
    | succ steps ih =>
      intro i it ps hr h
      unfold Bfs.collect at h
      split at h
      · cases h; simp
      · cases hc : it.cur with
        | none => rw [hc] at h; cases h
        | some path =>
          rw [hc] at h
          obtain ⟨it', h1, h⟩ := Res.bind_eq_ok.1 h
          obtain ⟨rest, h2, h⟩ := Res.bind_eq_ok.1 h
          cases h
          intro p hp
          rcases List.mem_cons.1 hp with rfl | hp
          · exact C44_bfs_sound sp d root it hr _ hc
          · exact ih _ it' rest (.next hr h1) h2 p hp
  exact key _ _ _ _ (.begin h1) h2

theorem Dfs.run_mem {sp : Space N} {d fuel : Nat} {root : N} {ps : List (List N)}
    (h : Dfs.run sp d fuel root = .ok ps) : ∀ p ∈ ps, PlanPath sp.Child sp.Goal d root p := by
  unfold Dfs.run at h
  obtain ⟨it, h1, h2⟩ := Res.bind_eq_ok.1 h
  have key : ∀ (steps : Nat) (it : Dfs.It N) (ps : List (List N)), Dfs.Reached sp d root it →
      Dfs.collect sp d fuel steps it = .ok ps → ∀ p ∈ ps, PlanPath sp.Child sp.Goal d root p := by
    intro steps
    induction steps with
    | zero => intro it ps _ h; simp [Dfs.collect] at h
    | succ steps ih =>
      intro it ps hr h
      unfold Dfs.collect at h
      split at h
      · cases h; simp
      · rename_i hf
        obtain ⟨it', h1, h⟩ := Res.bind_eq_ok.1 h
        obtain ⟨rest, h2, h⟩ := Res.bind_eq_ok.1 h
        cases h
        intro p hp
        rcases List.mem_cons.1 hp with rfl | hp
        · exact C48_dfs_sound sp d root it hr (by simpa using hf)
        · exact ih it' rest (.next hr h1) h2 p hp
  exact key _ _ _ (.begin h1) h2

theorem Astar.run_mem {sp : Space N} {d : Nat} {pick : Nat → List (N × List N) → Nat} {fuel : Nat} {root : N} {ps : List (List N)}
    (h : Astar.run sp d pick fuel root = .ok ps) : ∀ p ∈ ps, PlanPath sp.Child sp.Goal d root p := by
  unfold Astar.run at h
  obtain ⟨it, h1, h2⟩ := Res.bind_eq_ok.1 h
  have key : ∀ (steps : Nat) (it : Astar.It N) (ps : List (List N)), Astar.Reached sp d pick root it →
      Astar.collect sp d pick fuel steps it = .ok ps → ∀ p ∈ ps, PlanPath sp.Child sp.Goal d root p := by
    intro steps
    induction steps with
    | zero => intro it ps _ h; simp [Astar.collect] at h
    | succ steps ih =>
      intro it ps hr h
      unfold Astar.collect at h
      split at h
      · cases h; simp
      · rename_i hf
        obtain ⟨it', h1, h⟩ := Res.bind_eq_ok.1 h
        obtain ⟨rest, h2, h⟩ := Res.bind_eq_ok.1 h
        cases h
        intro p hp
        rcases List.mem_cons.1 hp with rfl | hp
        · exact C49_astar_sound sp d pick root it hr (by simpa using hf)
        · exact ih it' rest (.next hr h1) h2 p hp
  exact key _ _ _ (.begin h1) h2

section
variable [StrHash] (t : Ptree) (b : Bool) (k : Nat) (P : Pddl) (hP : Pddl.make t b k = .ok P)
  (hnd : ((t.constants ++ t.objects).map Obj.name).Nodup) (hops : Callable t)
  (hclean : ∀ o ∈ t.constants ++ t.objects, CleanArg o.name)
include hP hnd hops hclean

/-- The actions along a path of children to a goal are accepted one by one. -/
theorem pathB_valid (ids : Name → Nat) (fuel : Nat) {root : PNode} {p : List PNode}
    (hp : IsPath (P.spaceB ids fuel).fresh.Child root p)
    (hg : ∃ n, p.getLast? = some n ∧ (P.spaceB ids fuel).fresh.Goal n) :
    ByValue (P.validPlanFromB ids fuel root.state (p.tail.map PNode.action)) (.ok true) := by
  have B := Pddl.built hP
  have hne : ∀ op ∈ P.actions, ∀ o ∈ P.gen op, o ≠ [] := by
    intro op _; unfold Pddl.gen; rw [B.omap]; exact paramTypes_ne (ObjMap.nonEmpty_create _) _
  induction hp with
  | single r =>
    obtain ⟨n, hn, hg⟩ := hg
    simp at hn; subst hn
    have hg : P.isGoalSatisfied r.state = .ok true := hg
    simp only [List.tail_cons, List.map_nil, Pddl.validPlanFromB, hg]
    exact .lift _
  | @cons r c p hc hp ih =>
    obtain ⟨l, hl, hm⟩ := hc
    obtain ⟨a, ha, h1, h2, h3⟩ := (childrenB_post ids fuel hne r Store.init BufInv.init).2 l hl c hm
    have hh := hp.head
    cases p with
    | nil => simp at hh
    | cons x xs =>
      simp only [List.head?_cons, Option.some.injEq] at hh
      subst hh
      have ih := ih (by obtain ⟨n, hn, hg⟩ := hg; exact ⟨n, by simpa using hn, hg⟩)
      simp only [List.tail_cons, List.map_cons, Pddl.validPlanFromB, h3, parse_instance t b k P hP hnd hops hclean ha]
      have hs := (applyOpB_det P ids fuel a.1 a.2 r.state).byValue
      rw [h2] at hs
      refine ByValue.andThen (ByValue.lift _) ?_
      simp only [h1]
      refine ByValue.andThen (ByValue.lift _) ?_
      simp only [if_true]
      exact hs.andThen ih

/-- **C44, C48, C49 (buffers).** Whatever axioms there are and whatever calls were made before: the actions of every sequence found by
any of the searches from `initial_state()` form a plan that `IsValidPlan` accepts, after any further calls. -/
theorem C44_buffers (ids : Name → Nat) (fuel d : Nat) (hinit : (P.consistentStateB fuel P.initial Store.init).1 = .ok P.initial)
    (search : Pddl.AnyCall) (hsearch : (∃ clock, search = .bfs d clock P.initial) ∨ search = .dfs d P.initial ∨
      ∃ pick, search = .astar d pick P.initial)
    (before after : List Pddl.AnyCall) (ps : List (List PNode))
    (h : (P.answerB ids fuel search (P.runAny ids fuel before Store.init)).1 = .ok (.plans ps)) :
    ∀ p ∈ ps, p.length ≤ d + 1 ∧
      (P.isValidPlanB ids fuel (p.tail.map PNode.action) (P.runAny ids fuel after Store.init)).1 = .ok true := by
  have hi := runAny_inv P ids fuel before BufInv.init
  have hs : ∀ n, ByValue ((P.spaceB ids fuel).expand n) ((P.spaceB ids fuel).fresh.expand n) := fun n =>
    (childrenB_det P ids n).byValue
  have hroot : ByValue (P.plannerRootB fuel P.initial) (.ok (PNode.root P.initial)) := by
    have := (consistentFixB_det (m := P.omap) (axs := P.axioms) (fuel := fuel) fuel P.initial).byValue
    have h' : (Pddl.consistentFixB P.omap P.axioms fuel fuel P.initial Store.init).1 = .ok P.initial := hinit
    rw [h'] at this
    exact this.andThen (.pure _)
  have path : ∀ p ∈ ps, PlanPath (P.spaceB ids fuel).fresh.Child (P.spaceB ids fuel).fresh.Goal d (PNode.root P.initial) p := by
    rcases hsearch with ⟨clock, rfl⟩ | rfl | ⟨pick, rfl⟩
    · have hv := (hroot.andThen (f := Bfs.runB (P.spaceB ids fuel) d clock fuel)
        ((Bfs.nextB_val (d := d) (sv := (P.spaceB ids fuel).fresh) rfl hs (clock 0) fuel 0 (Bfs.start _)).bind fun it =>
          Bfs.collectB_val (d := d) rfl hs clock fuel fuel 1 it)).bind fun l => ByValue.pure (Pddl.Answer.plans l)
      have hv := (hv _ hi).1
      have h := hv.symm.trans h
      obtain ⟨l, h1, h2⟩ := Res.bind_eq_ok.1 h
      cases h2
      exact Bfs.run_mem h1
    · have hv := (hroot.andThen (f := Dfs.runB (P.spaceB ids fuel) d fuel)
        ((Dfs.nextB_val (d := d) (sv := (P.spaceB ids fuel).fresh) rfl hs fuel (Dfs.start _)).bind fun it =>
          Dfs.collectB_val (d := d) rfl hs fuel fuel it)).bind fun l => ByValue.pure (Pddl.Answer.plans l)
      have hv := (hv _ hi).1
      have h := hv.symm.trans h
      obtain ⟨l, h1, h2⟩ := Res.bind_eq_ok.1 h
      cases h2
      exact Dfs.run_mem h1
    · have hv := (hroot.andThen (f := Astar.runB (P.spaceB ids fuel) d pick fuel)
        ((Astar.nextB_val (d := d) (sv := (P.spaceB ids fuel).fresh) rfl hs pick fuel (Astar.start _)).bind fun it =>
          Astar.collectB_val (d := d) rfl hs pick fuel fuel it)).bind fun l => ByValue.pure (Pddl.Answer.plans l)
      have hv := (hv _ hi).1
      have h := hv.symm.trans h
      obtain ⟨l, h1, h2⟩ := Res.bind_eq_ok.1 h
      cases h2
      exact Astar.run_mem h1
  intro p hp
  refine ⟨(path p hp).length, ?_⟩
  exact (pathB_valid t b k P hP hnd hops hclean ids fuel (path p hp).path (path p hp).reached _
    (runAny_inv P ids fuel after BufInv.init)).1

end

namespace Buffers
open Demo
attribute [local instance] lenHash

/-- The domain of `C55_reentrant_refuted`, with the goal `p(a, b, a)` and `p(a, a, a)`. -/
def swirlTree : Ptree :=
  { rotTree with goal := .conj [.atom n!"p" [.const a, .const b, .const a], .atom n!"p" [.const a, .const a, .const a]] }

theorem swirlMade : (Pddl.make swirlTree true 5).isOk = true := by decide +kernel
def swirlP : Pddl := get _ swirlMade
theorem swirlP_made : Pddl.make swirlTree true 5 = .ok swirlP := get_eq _ _

theorem swirl_callable : Callable swirlTree := by
  intro op hop ha
  simp only [swirlTree, rotTree, List.mem_cons, List.not_mem_nil, or_false] at hop
  rcases hop with rfl | rfl
  · exact ⟨⟨[], _, rfl, rfl, by simp⟩, by simp [CleanHead, put]⟩
  · simp [rot] at ha

/-- The actions of the plans. -/
def texts : Res (List (List PNode)) → Option (List (List Name))
  | .ok l => some (l.map fun p => p.tail.map PNode.action)
  | _ => none

/-- **C55, refuted for searches:** with an axiom that triggers itself the planner finds a plan of one action that does not exist when
arguments are passed by value; `IsValidPlan` accepts it. -/
theorem C55_planner_refuted :
    texts (swirlP.bfsB (fun _ => 7) 30 1 (fun _ _ => false) swirlP.initial Store.init).1 = some [[n!"put(a, b, a)"]] ∧
    (swirlP.isValidPlanB (fun _ => 7) 30 [n!"put(a, b, a)"] Store.init).1 = .ok true ∧
    texts (do let r ← swirlP.plannerRoot 30 swirlP.initial; Bfs.run (swirlP.space 30) 1 (fun _ _ => false) 30 r) = some [] ∧
    swirlP.isValidPlan 30 [n!"put(a, b, a)"] = .ok false := by decide +kernel

/-- The plans of that search are accepted after any calls. -/
example (before after : List Pddl.AnyCall) (ps : List (List PNode))
    (h : (swirlP.answerB (fun _ => 7) 30 (.bfs 1 (fun _ _ => false) swirlP.initial)
      (swirlP.runAny (fun _ => 7) 30 before Store.init)).1 = .ok (.plans ps)) :
    ∀ p ∈ ps, p.length ≤ 2 ∧ (swirlP.isValidPlanB (fun _ => 7) 30 (p.tail.map PNode.action)
      (swirlP.runAny (fun _ => 7) 30 after Store.init)).1 = .ok true :=
  C44_buffers swirlTree true 5 swirlP swirlP_made (by decide) swirl_callable (by
    intro o ho
    change o ∈ [table, a, b] at ho
    simp only [List.mem_cons, List.not_mem_nil, or_false] at ho
    rcases ho with rfl | rfl | rfl <;> simp [CleanArg, IsSep, a, b, table])
    (fun _ => 7) 30 1 (by decide +kernel) _ (.inl ⟨_, rfl⟩) before after ps h

end Buffers

end Symbolic
