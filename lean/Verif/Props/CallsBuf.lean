import Verif.Model.ApiBuf
import Verif.Props.BuffersApi

/-!
# C18, C55: argument buffers, for every call that applies actions or axioms
-/

namespace Symbolic

/-! ## Any contents of the buffers -/

section
variable {α : Type}

theorem Det.catch {x : BufM α} (h : Det [] x) : Det [] (BufM.catchExc x) := by
  intro st st' h1 h2 hr
  obtain ⟨e, i⟩ := h st st' h1 h2 hr
  exact ⟨congrArg catchExc e, i⟩

theorem ByValue.catch {x : BufM α} {r : Res α} (h : ByValue x r) : ByValue (BufM.catchExc x) (catchExc r) := by
  intro st hi
  obtain ⟨e, i1⟩ := h st hi
  exact ⟨congrArg catchExc e, i1⟩

theorem ByValue.pure (a : α) : ByValue (pure a : BufM α) (.ok a) := ByValue.lift (.ok a)
end

section
variable [StrHash] {m : ObjMap} {axs : List Ax} {fuel : Nat}

omit [StrHash] in
theorem Op.run_det {σ : Type} [StateLike σ] (id : Nat) (op : Op) (args : List Obj) (s : σ) :
    Det [] (op.run m axs fuel id args s) :=
  (Eff.run_det (fireB_det m axs fuel) id op.eff [] op.params (.val args) s).ofVal

omit [StrHash] in
theorem Op.run_byValue {σ : Type} [StateLike σ] {rank : Bool → Name → Nat} (hrank : Ranked rank axs) (id : Nat) (op : Op)
    (args : List Obj) (s : σ) : ByValue (op.run m axs fuel id args s) (op.apply m axs fuel args s) := by
  intro st hi
  obtain ⟨R, hR⟩ := Eff.bounded rank op.eff
  have := Eff.run_val (m := m) (fireB_val (m := m) hrank fuel) id op.eff [] op.params (.val args) args s trivial hR st hi rfl
  exact ⟨this.1, this.2.1⟩

theorem consistentLoopB_det (id : Nat) (ax : Ax) (state : State) : ∀ (l : List (List Obj)) (test : State),
    Det [] (consistentLoopB m axs fuel id ax state l test)
  | [], _ => .pure _
  | as :: l, test => by
    rw [consistentLoopB]
    refine (Det.lift _).bind fun b => ?_
    split
    · refine (Op.run_det id ax.op as test).catch.bind fun r => ?_
      split
      · exact .pure _
      · split
        · exact .pure _
        · exact consistentLoopB_det id ax state l _
    · exact consistentLoopB_det id ax state l _

theorem axApplyLoopB_det (id : Nat) (ax : Ax) : ∀ (l : List (List Obj)) (s : State), Det [] (axApplyLoopB m axs fuel id ax l s)
  | [], _ => .pure _
  | as :: l, s => by
    rw [axApplyLoopB]
    refine (Det.lift _).bind fun b => Det.bind ?_ fun _ => (axApplyLoopB_det id ax l _).bind fun _ => .pure _
    split
    · exact Op.run_det id ax.op as s
    · exact .pure _

theorem consistentPLoopB_det (id : Nat) (ax : Ax) : ∀ (l : List (List Obj)) (s : PartialState) (c : Bool),
    Det [] (consistentPLoopB m axs fuel id ax l s c)
  | [], _, _ => .pure _
  | as :: l, s, c => by
    rw [consistentPLoopB]
    refine (Det.lift _).bind fun b => ?_
    split
    · refine (Op.run_det id ax.op as s).catch.bind fun r => ?_
      split
      · exact .pure _
      · split
        · exact .pure _
        · exact consistentPLoopB_det id ax l _ _
    · exact consistentPLoopB_det id ax l _ _

theorem consistentPPassB_det : ∀ (l : List Ax) (k : Nat) (s : PartialState) (c : Bool),
    Det [] (consistentPPassB m axs fuel k l s c)
  | [], _, _, _ => .pure _
  | ax :: l, k, s, c => by
    rw [consistentPPassB]
    refine (consistentPLoopB_det k ax _ _ _).bind fun r => ?_
    split
    · exact consistentPPassB_det l _ _ _
    · exact .pure _

theorem consistentPFixB_det : ∀ (k : Nat) (s : PartialState), Det [] (consistentPFixB m axs fuel k s)
  | 0, _ => .lift _
  | k + 1, s => by
    rw [consistentPFixB]
    refine (consistentPPassB_det axs 0 s false).bind fun r => ?_
    split
    · split
      · exact consistentPFixB_det k _
      · exact .pure _
    · exact .pure _

theorem axApplyPLoopB_det (id : Nat) (ax : Ax) : ∀ (l : List (List Obj)) (s : PartialState),
    Det [] (axApplyPLoopB m axs fuel id ax l s)
  | [], _ => .pure _
  | as :: l, s => by
    rw [axApplyPLoopB]
    refine (Det.lift _).bind fun b => Det.bind ?_ fun _ => (axApplyPLoopB_det id ax l _).bind fun _ => .pure _
    split
    · exact Op.run_det id ax.op as s
    · exact .pure _

theorem consistentPassB_det : ∀ (l : List Ax) (k : Nat) (s : State), Det [] (Pddl.consistentPassB m axs fuel k l s)
  | [], _, _ => .pure _
  | ax :: l, k, s => by
    rw [Pddl.consistentPassB]
    exact (axApplyLoopB_det k ax _ _).bind fun _ => (consistentPassB_det l _ _).bind fun _ => .pure _

theorem consistentFixB_det : ∀ (k : Nat) (s : State), Det [] (Pddl.consistentFixB m axs fuel k s)
  | 0, _ => .lift _
  | k + 1, s => by
    rw [Pddl.consistentFixB]
    refine (consistentPassB_det axs 0 s).bind fun r => ?_
    split
    · exact consistentFixB_det k _
    · exact .pure _

theorem consistentPassPB_det : ∀ (l : List Ax) (k : Nat) (s : PartialState), Det [] (Pddl.consistentPassPB m axs fuel k l s)
  | [], _, _ => .pure _
  | ax :: l, k, s => by
    rw [Pddl.consistentPassPB]
    refine (axApplyPLoopB_det k ax _ _).bind fun r => ?_
    split
    · exact .lift _
    · exact (consistentPassPB_det l _ _).bind fun _ => .pure _

theorem consistentFixPB_det (i : Nat) (s : PartialState) : Det [] (Pddl.consistentFixPB m axs fuel i s) := by
  induction h : Pddl.kMaxIterations + 1 - i generalizing i s with
  | zero =>
    rw [Pddl.consistentFixPB]
    refine (consistentPassPB_det axs 0 s).bind fun r => ?_
    rw [dif_pos (by omega)]
    exact .lift _
  | succ n ih =>
    rw [Pddl.consistentFixPB]
    refine (consistentPassPB_det axs 0 s).bind fun r => ?_
    split
    · exact .lift _
    · split
      · exact ih _ _ (by omega)
      · exact .pure _

theorem validLoopB_det (s : State) : ∀ (l : List Ax) (k : Nat), Det [] (Pddl.validLoopB m axs fuel s k l)
  | [], _ => .pure _
  | ax :: l, k => by
    rw [Pddl.validLoopB]
    refine (consistentLoopB_det k ax s _ _).bind fun b => ?_
    split
    · exact validLoopB_det s l _
    · exact .pure _

variable (P : Pddl) (ids : Name → Nat)

theorem tryChildB_det (parent : PNode) (it : NodeIt) : Det [] (P.tryChildB ids fuel parent it) := by
  unfold Pddl.tryChildB
  split
  · exact .lift _
  · refine (Det.lift _).bind fun v => ?_
    split
    · exact (applyOpB_det P ids fuel _ _ _).bind fun _ => .pure _
    · exact .pure _

theorem nodeNextB_det (parent : PNode) : ∀ (k : Nat) (it : NodeIt), Det [] (P.nodeNextB ids fuel parent k it)
  | 0, _ => .lift _
  | k + 1, it => by
    have one : ∀ it', Det [] (do
        let r ← P.tryChildB ids fuel parent it'
        if r.2 then pure r.1 else P.nodeNextB ids fuel parent k r.1) := fun it' =>
      (tryChildB_det P ids parent it').bind fun r => by
        split
        · exact .pure _
        · exact nodeNextB_det parent k _
    rw [Pddl.nodeNextB]
    split
    · exact .pure _
    · split
      · split
        · exact .pure _
        · refine (Det.lift _).bind fun b => ?_
          split
          · exact nodeNextB_det parent k _
          · exact one _
      · refine (Det.lift _).bind fun q => ?_
        split
        · exact nodeNextB_det parent k _
        · exact one _

theorem nodeBeginB_det (parent : PNode) (k : Nat) : Det [] (P.nodeBeginB ids fuel parent k) := by
  unfold Pddl.nodeBeginB
  split
  · exact .lift _
  · refine (Det.lift _).bind fun b => ?_
    split
    · exact nodeNextB_det P ids parent k _
    · refine (tryChildB_det P ids parent _).bind fun r => ?_
      split
      · exact .pure _
      · exact nodeNextB_det P ids parent k _

theorem nodeLoopB_det (parent : PNode) (k : Nat) : ∀ (j : Nat) (it : NodeIt), Det [] (P.nodeLoopB ids fuel parent k j it)
  | 0, _ => .lift _
  | j + 1, it => by
    rw [Pddl.nodeLoopB]
    split
    · exact .pure _
    · split
      · exact .lift _
      · exact (nodeNextB_det P ids parent k it).bind fun _ => (nodeLoopB_det parent k j _).bind fun _ => .pure _

theorem childrenB_det (parent : PNode) : Det [] (P.childrenB ids fuel parent) :=
  (nodeBeginB_det P ids parent _).bind fun _ => nodeLoopB_det P ids parent _ _ _

theorem plannerRootB_det (s : State) : Det [] (P.plannerRootB fuel s) := (consistentFixB_det fuel s).bind fun _ => .pure _
end

section
variable {N : Type} {sp : SpaceB N} {d : Nat}

theorem Bfs.nextB_det (h : ∀ n, Det [] (sp.expand n)) (late : Nat → Bool) : ∀ (fuel k : Nat) (it : Bfs.It N),
    Det [] (Bfs.nextB sp d late fuel k it)
  | 0, _, _ => .lift _
  | fuel + 1, k, it => by
    rw [Bfs.nextB]
    split
    · exact .pure _
    · split
      · exact .pure _
      · refine (Det.lift _).bind fun g => ?_
        split
        · exact .pure _
        · split
          · exact Bfs.nextB_det h late fuel _ _
          · exact (h _).bind fun _ => Bfs.nextB_det h late fuel _ _

theorem Bfs.collectB_det (h : ∀ n, Det [] (sp.expand n)) (clock : Nat → Nat → Bool) (fuel : Nat) : ∀ (steps i : Nat) (it : Bfs.It N),
    Det [] (Bfs.collectB sp d clock fuel steps i it)
  | 0, _, _ => .lift _
  | steps + 1, i, it => by
    rw [Bfs.collectB]
    split
    · exact .pure _
    · split
      · exact .lift _
      · exact (Bfs.nextB_det h _ _ _ _).bind fun _ => (Bfs.collectB_det h clock fuel steps _ _).bind fun _ => .pure _

theorem Dfs.nextB_det (h : ∀ n, Det [] (sp.expand n)) : ∀ (fuel : Nat) (it : Dfs.It N), Det [] (Dfs.nextB sp d fuel it)
  | 0, _ => .lift _
  | fuel + 1, it => by
    rw [Dfs.nextB]
    split
    · exact .pure _
    · refine (Det.lift _).bind fun g => ?_
      split
      · exact .pure _
      · split
        · exact Dfs.nextB_det h fuel _
        · exact (h _).bind fun _ => Dfs.nextB_det h fuel _

theorem Dfs.collectB_det (h : ∀ n, Det [] (sp.expand n)) (fuel : Nat) : ∀ (steps : Nat) (it : Dfs.It N),
    Det [] (Dfs.collectB sp d fuel steps it)
  | 0, _ => .lift _
  | steps + 1, it => by
    rw [Dfs.collectB]
    split
    · exact .pure _
    · exact (Dfs.nextB_det h _ _).bind fun _ => (Dfs.collectB_det h fuel steps _).bind fun _ => .pure _

theorem Astar.nextB_det (h : ∀ n, Det [] (sp.expand n)) (pick : Nat → List (N × List N) → Nat) : ∀ (fuel : Nat) (it : Astar.It N),
    Det [] (Astar.nextB sp d pick fuel it)
  | 0, _ => .lift _
  | fuel + 1, it => by
    rw [Astar.nextB]
    split
    · exact .pure _
    · split
      · exact .lift _
      · refine (Det.lift _).bind fun g => ?_
        split
        · exact .pure _
        · split
          · exact Astar.nextB_det h pick fuel _
          · exact (h _).bind fun _ => Astar.nextB_det h pick fuel _

theorem Astar.collectB_det (h : ∀ n, Det [] (sp.expand n)) (pick : Nat → List (N × List N) → Nat) (fuel : Nat) :
    ∀ (steps : Nat) (it : Astar.It N), Det [] (Astar.collectB sp d pick fuel steps it)
  | 0, _ => .lift _
  | steps + 1, it => by
    rw [Astar.collectB]
    split
    · exact .pure _
    · exact (Astar.nextB_det h _ _ _).bind fun _ => (Astar.collectB_det h pick fuel steps _).bind fun _ => .pure _
end

section
variable [StrHash] (P : Pddl) (ids : Name → Nat) (fuel : Nat)

theorem answerB_det (c : Pddl.AnyCall) : Det [] (P.answerB ids fuel c) := by
  have hs : ∀ n, Det [] ((P.spaceB ids fuel).expand n) := childrenB_det P ids
  cases c with
  | next s call => exact (nextStateB_det P ids fuel s call).bind fun _ => .pure _
  | apply s calls => exact (applyActionsB_det P ids fuel calls s).bind fun _ => .pure _
  | plan plan => exact (validPlanFromB_det P ids fuel plan P.initial).bind fun _ => .pure _
  | tuple s call next =>
    refine Det.bind ((Det.lift _).bind fun _ => (Det.lift _).bind fun b => ?_) fun _ => .pure _
    split
    · exact (applyOpB_det P ids fuel _ _ _).bind fun _ => .pure _
    · exact .pure _
  | consistent s => exact (consistentFixB_det fuel s).bind fun _ => .pure _
  | consistentP s => exact (consistentFixPB_det 0 s).bind fun _ => .pure _
  | valid s => exact (validLoopB_det s P.axioms 0).bind fun _ => .pure _
  | validP s => exact (consistentPFixB_det fuel s).bind fun _ => .pure _
  | bfs d clock s =>
    exact Det.bind ((plannerRootB_det P s).bind fun _ => (Bfs.nextB_det hs _ _ _ _).bind fun _ =>
      Bfs.collectB_det hs clock fuel _ _ _) fun _ => .pure _
  | dfs d s =>
    exact Det.bind ((plannerRootB_det P s).bind fun _ => (Dfs.nextB_det hs _ _).bind fun _ =>
      Dfs.collectB_det hs fuel _ _) fun _ => .pure _
  | astar d pick s =>
    exact Det.bind ((plannerRootB_det P s).bind fun _ => (Astar.nextB_det hs pick _ _).bind fun _ =>
      Astar.collectB_det hs pick fuel _ _) fun _ => .pure _

theorem runAny_inv : ∀ (cs : List Pddl.AnyCall) {st : Store}, BufInv st → BufInv (P.runAny ids fuel cs st)
  | [], _, h => h
  | c :: cs, st, h => runAny_inv cs (answerB_det P ids fuel c st st h h (by simp)).2.1

/-- **C18 (all calls).** Every call that applies actions or axioms - `NextState`, `ApplyActions`, `IsValidPlan`, `IsValidTuple`,
`ConsistentState` and `IsValidState` of both kinds of states, and planning with each search - answers as right after construction,
whatever calls were made before, successful or not. -/
theorem C18_calls_history_independent (history : List Pddl.AnyCall) (c : Pddl.AnyCall) :
    (P.answerB ids fuel c (P.runAny ids fuel history Store.init)).1 = (P.answerB ids fuel c Store.init).1 :=
  (answerB_det P ids fuel c _ _ (runAny_inv P ids fuel history BufInv.init) BufInv.init (by simp)).1
end

/-! ## Arguments by value -/

section
variable [StrHash] {m : ObjMap} {axs : List Ax} {fuel : Nat} {rank : Bool → Name → Nat}

theorem consistentLoopB_val (hr : Ranked rank axs) (id : Nat) (ax : Ax) (state : State) : ∀ (l : List (List Obj)) (test : State),
    ByValue (consistentLoopB m axs fuel id ax state l test) (consistentLoop m axs fuel ax state l test)
  | [], _ => .pure _
  | as :: l, test => by
    rw [consistentLoopB, consistentLoop]
    refine (ByValue.lift _).bind fun b => ?_
    split
    · refine (Op.run_byValue hr id ax.op as test).catch.bind fun r => ?_
      cases r with
      | none => exact .pure _
      | some q =>
        simp only
        split
        · exact .pure _
        · exact consistentLoopB_val hr id ax state l _
    · exact consistentLoopB_val hr id ax state l _

theorem axApplyLoopB_val (hr : Ranked rank axs) (id : Nat) (ax : Ax) : ∀ (l : List (List Obj)) (s : State),
    ByValue (axApplyLoopB m axs fuel id ax l s) (axApplyLoop m axs fuel ax l s)
  | [], _ => .pure _
  | as :: l, s => by
    rw [axApplyLoopB, axApplyLoop]
    refine (ByValue.lift _).bind fun b => ByValue.bind ?_ fun _ => (axApplyLoopB_val hr id ax l _).bind fun _ => .pure _
    split
    · exact Op.run_byValue hr id ax.op as s
    · exact .pure _

theorem consistentPLoopB_val (hr : Ranked rank axs) (id : Nat) (ax : Ax) : ∀ (l : List (List Obj)) (s : PartialState) (c : Bool),
    ByValue (consistentPLoopB m axs fuel id ax l s c) (consistentPLoop m axs fuel ax l s c)
  | [], _, _ => .pure _
  | as :: l, s, c => by
    rw [consistentPLoopB, consistentPLoop]
    refine (ByValue.lift _).bind fun b => ?_
    rcases b with _ | (_ | _)
    · exact consistentPLoopB_val hr id ax l _ _
    · exact consistentPLoopB_val hr id ax l _ _
    · refine (Op.run_byValue hr id ax.op as s).catch.bind fun r => ?_
      cases r with
      | none => exact .pure _
      | some q =>
        simp only
        split
        · exact .pure _
        · exact consistentPLoopB_val hr id ax l _ _

theorem consistentPPassB_val (hr : Ranked rank axs) : ∀ (l : List Ax) (k : Nat) (s : PartialState) (c : Bool),
    ByValue (consistentPPassB m axs fuel k l s c) (consistentPPass m axs fuel l s c)
  | [], _, _, _ => .pure _
  | ax :: l, k, s, c => by
    rw [consistentPPassB, consistentPPass]
    refine (consistentPLoopB_val hr k ax _ _ _).bind fun r => ?_
    split
    · exact consistentPPassB_val hr l _ _ _
    · exact .pure _

theorem consistentPFixB_val (hr : Ranked rank axs) : ∀ (k : Nat) (s : PartialState),
    ByValue (consistentPFixB m axs fuel k s) (consistentPFix m axs fuel k s)
  | 0, _ => .lift _
  | k + 1, s => by
    rw [consistentPFixB, consistentPFix]
    refine (consistentPPassB_val hr axs 0 s false).bind fun r => ?_
    split
    · split
      · exact consistentPFixB_val hr k _
      · exact .pure _
    · exact .pure _

theorem axApplyPLoopB_val (hr : Ranked rank axs) (id : Nat) (ax : Ax) : ∀ (l : List (List Obj)) (s : PartialState),
    ByValue (axApplyPLoopB m axs fuel id ax l s) (axApplyPLoop m axs fuel ax l s)
  | [], _ => .pure _
  | as :: l, s => by
    rw [axApplyPLoopB, axApplyPLoop]
    refine (ByValue.lift _).bind fun b => ByValue.bind ?_ fun _ => (axApplyPLoopB_val hr id ax l _).bind fun _ => .pure _
    split
    · exact Op.run_byValue hr id ax.op as s
    · exact .pure _

theorem consistentPassB_val (hr : Ranked rank axs) : ∀ (l : List Ax) (k : Nat) (s : State),
    ByValue (Pddl.consistentPassB m axs fuel k l s) (Pddl.consistentPass m axs fuel l s)
  | [], _, _ => .pure _
  | ax :: l, k, s => by
    rw [Pddl.consistentPassB, Pddl.consistentPass]
    exact (axApplyLoopB_val hr k ax _ _).bind fun _ => (consistentPassB_val hr l _ _).bind fun _ => .pure _

theorem consistentFixB_val (hr : Ranked rank axs) : ∀ (k : Nat) (s : State),
    ByValue (Pddl.consistentFixB m axs fuel k s) (Pddl.consistentFix m axs fuel k s)
  | 0, _ => .lift _
  | k + 1, s => by
    rw [Pddl.consistentFixB, Pddl.consistentFix]
    refine (consistentPassB_val hr axs 0 s).bind fun r => ?_
    split
    · exact consistentFixB_val hr k _
    · exact .pure _

theorem consistentPassPB_val (hr : Ranked rank axs) : ∀ (l : List Ax) (k : Nat) (s : PartialState),
    ByValue (Pddl.consistentPassPB m axs fuel k l s) (Pddl.consistentPassP m axs fuel l s)
  | [], _, _ => .pure _
  | ax :: l, k, s => by
    rw [Pddl.consistentPassPB, Pddl.consistentPassP]
    refine (axApplyPLoopB_val hr k ax _ _).bind fun r => ?_
    split
    · exact .lift _
    · exact (consistentPassPB_val hr l _ _).bind fun _ => .pure _

theorem consistentFixPB_val (hr : Ranked rank axs) (i : Nat) (s : PartialState) :
    ByValue (Pddl.consistentFixPB m axs fuel i s) (Pddl.consistentFixP m axs fuel i s) := by
  induction h : Pddl.kMaxIterations + 1 - i generalizing i s with
  | zero =>
    rw [Pddl.consistentFixPB, Pddl.consistentFixP]
    refine (consistentPassPB_val hr axs 0 s).bind fun r => ?_
    rw [dif_pos (by omega), dif_pos (by omega)]
    exact .lift _
  | succ n ih =>
    rw [Pddl.consistentFixPB, Pddl.consistentFixP]
    refine (consistentPassPB_val hr axs 0 s).bind fun r => ?_
    split
    · exact .lift _
    · split
      · exact ih _ _ (by omega)
      · exact .pure _

theorem validLoopB_val (hr : Ranked rank axs) (s : State) : ∀ (l : List Ax) (k : Nat),
    ByValue (Pddl.validLoopB m axs fuel s k l) (Pddl.validLoop m axs fuel s l)
  | [], _ => .pure _
  | ax :: l, k => by
    rw [Pddl.validLoopB, Pddl.validLoop]
    refine (consistentLoopB_val hr k ax s _ _).bind fun b => ?_
    split
    · exact validLoopB_val hr s l _
    · exact .pure _

variable {P : Pddl} (ids : Name → Nat)

theorem tryChildB_val (hr : Ranked rank P.axioms) (parent : PNode) (it : NodeIt) :
    ByValue (P.tryChildB ids fuel parent it) (P.tryChild fuel parent it) := by
  obtain ⟨acts, param, child⟩ := it
  unfold Pddl.tryChildB Pddl.tryChild
  cases acts
  · exact .lift _
  · refine (ByValue.lift _).bind fun v => ?_
    split
    · exact (applyOpB_val ids fuel hr _ _ _).bind fun _ => .pure _
    · exact .pure _

theorem nodeNextB_val (hr : Ranked rank P.axioms) (parent : PNode) : ∀ (k : Nat) (it : NodeIt),
    ByValue (P.nodeNextB ids fuel parent k it) (P.nodeNext fuel parent k it)
  | 0, _ => .lift _
  | k + 1, it => by
    have one : ∀ it', ByValue (do
        let r ← P.tryChildB ids fuel parent it'
        if r.2 then pure r.1 else P.nodeNextB ids fuel parent k r.1) (do
        let r ← P.tryChild fuel parent it'
        if r.2 then pure r.1 else P.nodeNext fuel parent k r.1) := fun it' =>
      (tryChildB_val ids hr parent it').bind fun r => by
        split
        · exact .pure _
        · exact nodeNextB_val hr parent k _
    obtain ⟨acts, param, child⟩ := it
    rw [Pddl.nodeNextB, Pddl.nodeNext]
    rcases acts with _ | ⟨op, ops⟩
    · exact .pure _
    · simp only
      split
      · cases ops
        · exact .pure _
        · refine (ByValue.lift _).bind fun b => ?_
          split
          · exact nodeNextB_val hr parent k _
          · exact one _
      · refine (ByValue.lift _).bind fun q => ?_
        split
        · exact nodeNextB_val hr parent k _
        · exact one _

theorem nodeBeginB_val (hr : Ranked rank P.axioms) (parent : PNode) (k : Nat) :
    ByValue (P.nodeBeginB ids fuel parent k) (P.nodeBegin fuel parent k) := by
  unfold Pddl.nodeBeginB Pddl.nodeBegin
  cases P.actions
  · exact .lift _
  · refine (ByValue.lift _).bind fun b => ?_
    split
    · exact nodeNextB_val ids hr parent k _
    · refine (tryChildB_val ids hr parent _).bind fun r => ?_
      split
      · exact .pure _
      · exact nodeNextB_val ids hr parent k _

theorem nodeLoopB_val (hr : Ranked rank P.axioms) (parent : PNode) (k : Nat) : ∀ (j : Nat) (it : NodeIt),
    ByValue (P.nodeLoopB ids fuel parent k j it) (P.nodeLoop fuel parent k j it)
  | 0, _ => .lift _
  | j + 1, it => by
    obtain ⟨acts, param, child⟩ := it
    rw [Pddl.nodeLoopB, Pddl.nodeLoop]
    cases acts
    · exact .pure _
    · cases child
      · exact .lift _
      · exact (nodeNextB_val ids hr parent k _).bind fun _ => (nodeLoopB_val hr parent k j _).bind fun _ => .pure _

theorem childrenB_val (hr : Ranked rank P.axioms) (parent : PNode) :
    ByValue (P.childrenB ids fuel parent) (P.children fuel parent) :=
  (nodeBeginB_val ids hr parent _).bind fun _ => nodeLoopB_val ids hr parent _ _ _

theorem plannerRootB_val (hr : Ranked rank P.axioms) (s : State) : ByValue (P.plannerRootB fuel s) (P.plannerRoot fuel s) :=
  (consistentFixB_val hr fuel s).bind fun _ => .pure _
end

section
variable {N : Type} {sp : SpaceB N} {sv : Space N} {d : Nat}

theorem Bfs.nextB_val (hg : sp.goal = sv.goal) (h : ∀ n, ByValue (sp.expand n) (sv.expand n)) (late : Nat → Bool) :
    ∀ (fuel k : Nat) (it : Bfs.It N), ByValue (Bfs.nextB sp d late fuel k it) (Bfs.next sv d late fuel k it)
  | 0, _, _ => .lift _
  | fuel + 1, k, it => by
    obtain ⟨queue, cur⟩ := it
    rw [Bfs.nextB, Bfs.next, hg]
    rcases queue with _ | ⟨⟨node, ancestors⟩, queue⟩
    · exact .pure _
    · simp only
      split
      · exact .pure _
      · refine (ByValue.lift _).bind fun g => ?_
        split
        · exact .pure _
        · split
          · exact Bfs.nextB_val hg h late fuel _ _
          · exact (h _).bind fun _ => Bfs.nextB_val hg h late fuel _ _

theorem Bfs.collectB_val (hg : sp.goal = sv.goal) (h : ∀ n, ByValue (sp.expand n) (sv.expand n)) (clock : Nat → Nat → Bool)
    (fuel : Nat) : ∀ (steps i : Nat) (it : Bfs.It N),
    ByValue (Bfs.collectB sp d clock fuel steps i it) (Bfs.collect sv d clock fuel steps i it)
  | 0, _, _ => .lift _
  | steps + 1, i, it => by
    rw [Bfs.collectB, Bfs.collect]
    split
    · exact .pure _
    · cases it.cur
      · exact .lift _
      · exact (Bfs.nextB_val hg h _ _ _ _).bind fun _ => (Bfs.collectB_val hg h clock fuel steps _ _).bind fun _ => .pure _

theorem Dfs.nextB_val (hg : sp.goal = sv.goal) (h : ∀ n, ByValue (sp.expand n) (sv.expand n)) : ∀ (fuel : Nat) (it : Dfs.It N),
    ByValue (Dfs.nextB sp d fuel it) (Dfs.next sv d fuel it)
  | 0, _ => .lift _
  | fuel + 1, it => by
    obtain ⟨stack, cur⟩ := it
    rw [Dfs.nextB, Dfs.next, hg]
    rcases stack with _ | ⟨⟨node, ancestors⟩, stack⟩
    · exact .pure _
    · simp only
      refine (ByValue.lift _).bind fun g => ?_
      split
      · exact .pure _
      · split
        · exact Dfs.nextB_val hg h fuel _
        · exact (h _).bind fun _ => Dfs.nextB_val hg h fuel _

theorem Dfs.collectB_val (hg : sp.goal = sv.goal) (h : ∀ n, ByValue (sp.expand n) (sv.expand n)) (fuel : Nat) :
    ∀ (steps : Nat) (it : Dfs.It N), ByValue (Dfs.collectB sp d fuel steps it) (Dfs.collect sv d fuel steps it)
  | 0, _ => .lift _
  | steps + 1, it => by
    rw [Dfs.collectB, Dfs.collect]
    split
    · exact .pure _
    · exact (Dfs.nextB_val hg h _ _).bind fun _ => (Dfs.collectB_val hg h fuel steps _).bind fun _ => .pure _

theorem Astar.nextB_val (hg : sp.goal = sv.goal) (h : ∀ n, ByValue (sp.expand n) (sv.expand n))
    (pick : Nat → List (N × List N) → Nat) : ∀ (fuel : Nat) (it : Astar.It N),
    ByValue (Astar.nextB sp d pick fuel it) (Astar.next sv d pick fuel it)
  | 0, _ => .lift _
  | fuel + 1, it => by
    rw [Astar.nextB, Astar.next, hg]
    split
    · exact .pure _
    · rcases Astar.pop pick it.pops it.queue with _ | ⟨⟨node, ancestors⟩, queue⟩
      · exact .lift _
      · refine (ByValue.lift _).bind fun g => ?_
        split
        · exact .pure _
        · split
          · exact Astar.nextB_val hg h pick fuel _
          · exact (h _).bind fun _ => Astar.nextB_val hg h pick fuel _

theorem Astar.collectB_val (hg : sp.goal = sv.goal) (h : ∀ n, ByValue (sp.expand n) (sv.expand n))
    (pick : Nat → List (N × List N) → Nat) (fuel : Nat) : ∀ (steps : Nat) (it : Astar.It N),
    ByValue (Astar.collectB sp d pick fuel steps it) (Astar.collect sv d pick fuel steps it)
  | 0, _ => .lift _
  | steps + 1, it => by
    rw [Astar.collectB, Astar.collect]
    split
    · exact .pure _
    · exact (Astar.nextB_val hg h _ _ _).bind fun _ => (Astar.collectB_val hg h pick fuel steps _).bind fun _ => .pure _
end

section
variable [StrHash]

/-- The answer of a call when all arguments are passed by value. -/
def Pddl.answer (P : Pddl) (fuel : Nat) : Pddl.AnyCall → Res Pddl.Answer
  | .next s call => do let r ← P.nextState fuel s call; pure (.state r)
  | .apply s calls => do let r ← P.applyActions fuel s calls; pure (.state r)
  | .plan plan => do let r ← P.isValidPlan fuel plan; pure (.bool r)
  | .tuple s call next => do let r ← P.isValidTuple fuel s call next; pure (.bool r)
  | .consistent s => do let r ← P.consistentState fuel s; pure (.state r)
  | .consistentP s => do let r ← P.consistentStateP fuel s; pure (.partialState r)
  | .valid s => do let r ← P.isValidState fuel s; pure (.bool r)
  | .validP s => do let r ← P.isValidStateP fuel s; pure (.bool r)
  | .bfs d clock s => do
    let root ← P.plannerRoot fuel s
    let r ← Bfs.run (P.space fuel) d clock fuel root
    pure (.plans r)
  | .dfs d s => do
    let root ← P.plannerRoot fuel s
    let r ← Dfs.run (P.space fuel) d fuel root
    pure (.plans r)
  | .astar d pick s => do
    let root ← P.plannerRoot fuel s
    let r ← Astar.run (P.space fuel) d pick fuel root
    pure (.plans r)

variable {P : Pddl} (ids : Name → Nat) (fuel : Nat)

/-- **C55 (all calls), partial.** If no axiom can (indirectly) trigger itself, every call that applies actions or axioms - see
`C18_calls_history_independent` - gives, after any calls, the answer it gives when all arguments are passed by value.

Missing for the full claim: an axiom that triggers itself overwrites its own arguments (`C55_calls_refuted`). -/
theorem C55_calls_partial (rank : Bool → Name → Nat) (hrank : Ranked rank P.axioms) (history : List Pddl.AnyCall)
    (c : Pddl.AnyCall) :
    (P.answerB ids fuel c (P.runAny ids fuel history Store.init)).1 = P.answer fuel c := by
  have hi := runAny_inv P ids fuel history BufInv.init
  have old := C55_api_partial ids fuel rank hrank []
  have hs : ∀ n, ByValue ((P.spaceB ids fuel).expand n) ((P.space fuel).expand n) := childrenB_val ids hrank
  suffices h : ByValue (P.answerB ids fuel c) (P.answer fuel c) from (h _ hi).1
  -- a result that does not depend on the buffers is by value
  have ofDet : ∀ {α : Type} {x : BufM α} {r : Res α}, Det [] x → (x Store.init).1 = r → ByValue x r := fun h e st hst => by
    have := h st Store.init hst BufInv.init (by simp)
    exact ⟨this.1.trans e, this.2.1⟩
  cases c with
  | next s call => exact (ofDet (nextStateB_det P ids fuel s call) (old.1 s call)).bind fun _ => .pure _
  | apply s calls => exact (ofDet (applyActionsB_det P ids fuel calls s) (old.2.1 s calls)).bind fun _ => .pure _
  | plan plan => exact (ofDet (validPlanFromB_det P ids fuel plan P.initial) (old.2.2 plan)).bind fun _ => .pure _
  | tuple s call next =>
    refine ByValue.bind ((ByValue.lift _).bind fun _ => (ByValue.lift _).bind fun b => ?_) fun _ => .pure _
    split
    · exact (applyOpB_val ids fuel hrank _ _ _).bind fun _ => .pure _
    · exact .pure _
  | consistent s => exact (consistentFixB_val hrank fuel s).bind fun _ => .pure _
  | consistentP s => exact (consistentFixPB_val hrank 0 s).bind fun _ => .pure _
  | valid s => exact (validLoopB_val hrank s P.axioms 0).bind fun _ => .pure _
  | validP s => exact (consistentPFixB_val hrank fuel s).bind fun _ => .pure _
  | bfs d clock s =>
    have h := (plannerRootB_val (fuel := fuel) hrank s).bind fun root =>
      ByValue.bind (Bfs.nextB_val (d := d) (sp := P.spaceB ids fuel) (sv := P.space fuel) rfl hs (clock 0) fuel 0 (Bfs.start root))
        fun it => (Bfs.collectB_val (d := d) rfl hs clock fuel fuel 1 it)
    have h' := h.bind fun l => ByValue.pure (Pddl.Answer.plans l)
    intro st hst
    refine ⟨((h' st hst).1).trans ?_, (h' st hst).2⟩
    simp only [Pddl.answer, Bfs.run, Bfs.begin]
    cases P.plannerRoot fuel s <;> rfl
  | dfs d s =>
    have h := (plannerRootB_val (fuel := fuel) hrank s).bind fun root =>
      ByValue.bind (Dfs.nextB_val (d := d) (sp := P.spaceB ids fuel) (sv := P.space fuel) rfl hs fuel (Dfs.start root))
        fun it => (Dfs.collectB_val (d := d) rfl hs fuel fuel it)
    have h' := h.bind fun l => ByValue.pure (Pddl.Answer.plans l)
    intro st hst
    refine ⟨((h' st hst).1).trans ?_, (h' st hst).2⟩
    simp only [Pddl.answer, Dfs.run, Dfs.begin]
    cases P.plannerRoot fuel s <;> rfl
  | astar d pick s =>
    have h := (plannerRootB_val (fuel := fuel) hrank s).bind fun root =>
      ByValue.bind (Astar.nextB_val (d := d) (sp := P.spaceB ids fuel) (sv := P.space fuel) rfl hs pick fuel (Astar.start root))
        fun it => (Astar.collectB_val (d := d) rfl hs pick fuel fuel it)
    have h' := h.bind fun l => ByValue.pure (Pddl.Answer.plans l)
    intro st hst
    refine ⟨((h' st hst).1).trans ?_, (h' st hst).2⟩
    simp only [Pddl.answer, Astar.run, Astar.begin]
    cases P.plannerRoot fuel s <;> rfl

end

namespace Buffers
open Demo
attribute [local instance] lenHash

/-- Some calls: an action, a closure, a call that throws, a search, and a check that catches an exception. -/
def someCalls : List Pddl.AnyCall :=
  [.next (State.ofList [on b table]) n!"pick(b)", .consistent (State.ofList [inhand a]), .next State.empty n!"nosuch(b)",
    .dfs 3 P.initial, .valid (State.ofList [inhand a])]

/-- After these calls plans and states are judged as by value. -/
example (ids : Name → Nat) :
    (P.answerB ids 5 (.plan [n!"pick(a)", n!"place(a, b)"]) (P.runAny ids 5 someCalls Store.init)).1 = .ok (.bool true) ∧
    (P.answerB ids 5 (.valid (State.ofList [on a table, inhand a])) (P.runAny ids 5 someCalls Store.init)).1 = .ok (.bool false) := by
  rw [C55_calls_partial ids 5 _ demo_ranked, C55_calls_partial ids 5 _ demo_ranked]
  constructor
  · have h : P.isValidPlan 5 [n!"pick(a)", n!"place(a, b)"] = .ok true := by decide +kernel
    simp only [Pddl.answer, h]; rfl
  · have h : P.isValidState 5 (State.ofList [on a table, inhand a]) = .ok false := by decide +kernel
    simp only [Pddl.answer, h]; rfl

/-- The planner finds the demo's plan after these calls. -/
example (ids : Name → Nat) : (P.answerB ids 40 (.bfs 3 (fun _ _ => false) P.initial) (P.runAny ids 40 someCalls Store.init)).1 =
    P.answer 40 (.bfs 3 (fun _ _ => false) P.initial) := C55_calls_partial ids 40 _ demo_ranked _ _

/-- With an axiom that triggers itself `ConsistentState` adds an atom that does not follow from the axiom, and `IsValidTuple`
rejects the state that the action and the axiom lead to. -/
theorem C55_calls_refuted :
    (rotP.consistentStateB 9 (State.ofList [p3 a b a]) Store.init).1 = .ok (State.ofList [p3 a b a, p3 b a a, p3 a a b, p3 a a a]) ∧
    rotP.consistentState 9 (State.ofList [p3 a b a]) = .ok (State.ofList [p3 a b a, p3 b a a, p3 a a b]) ∧
    (rotP.isValidTupleB (fun _ => 7) 4 State.empty n!"put(a, b, a)" (State.ofList [p3 a b a, p3 b a a, p3 a a b]) Store.init).1 =
      .ok false ∧
    rotP.isValidTuple 4 State.empty n!"put(a, b, a)" (State.ofList [p3 a b a, p3 b a a, p3 a a b]) = .ok true := by decide +kernel

end Buffers

end Symbolic
