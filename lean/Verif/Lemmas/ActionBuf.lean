import Verif.Model.ActionBuf
import Verif.Lemmas.FormulaBuf
import Verif.Spec.Trigger

/-!
# Buffers of actions

Every buffer is fully determined by the arguments it is filled from, so its old contents do not matter. If axioms
cannot trigger each other in circles, a buffer is not overwritten while it is in use.
-/

namespace Symbolic

theorem BufM.bind_run (x : BufM α) (f : α → BufM β) (st : Store) : (x >>= f) st =
    match x st with
    | (.ok a, st') => f a st'
    | (.exc e, st') => (.exc e, st')
    | (.ub, st') => (.ub, st')
    | (.fuel, st') => (.fuel, st') := rfl

theorem BufM.pure_run (a : α) (st : Store) : (pure a : BufM α) st = (.ok a, st) := rfl

/-- Contents that a buffer can have: as constructed, except at the assigned positions. -/
def BufInv (st : Store) : Prop :=
  ∀ l, (st l).length = l.init.length ∧ ∀ i, i ∉ l.idx.map Prod.fst → (st l)[i]? = l.init[i]?

theorem BufInv.init : BufInv Store.init := fun _ => ⟨rfl, fun _ _ => rfl⟩

theorem BufInv.set {st : Store} (h : BufInv st) {l : Loc} {i : Nat} (hi : i ∈ l.idx.map Prod.fst) (a : Obj) :
    BufInv (st.set l ((st l).set i a)) := by
  intro l'
  unfold Store.set
  split
  · rename_i e
    subst e
    refine ⟨by simpa using (h l').1, fun j hj => ?_⟩
    rw [List.getElem?_set_ne (by rintro rfl; exact hj hi)]
    exact (h l').2 j hj
  · exact h l'

/-! ## Results do not depend on old contents -/

/-- With admissible buffers, the result depends on the buffers only through the listed references; buffers with equal
contents stay equal. -/
def Det (rs : List Ref) (x : BufM α) : Prop :=
  ∀ st1 st2, BufInv st1 → BufInv st2 → (∀ r ∈ rs, r.read st1 = r.read st2) →
    (x st1).1 = (x st2).1 ∧ BufInv (x st1).2 ∧ BufInv (x st2).2 ∧ ∀ l, st1 l = st2 l → (x st1).2 l = (x st2).2 l

theorem read_keep {st1 st2 st1' st2' : Store} (h : ∀ l, st1 l = st2 l → st1' l = st2' l) {r : Ref}
    (hr : r.read st1 = r.read st2) : r.read st1' = r.read st2' := by
  cases r with
  | val v => rfl
  | buf l => exact h l hr

theorem Det.weaken {rs rs' : List Ref} {x : BufM α} (h : Det rs x) (hs : ∀ r ∈ rs, r ∈ rs') : Det rs' x :=
  fun st1 st2 h1 h2 hr => h st1 st2 h1 h2 (fun r hm => hr r (hs r hm))

theorem Det.ofVal {v : List Obj} {rs : List Ref} {x : BufM α} (h : Det [.val v] x) : Det rs x :=
  fun st1 st2 h1 h2 _ => h st1 st2 h1 h2 (by simp [Ref.read])

theorem Det.lift {rs : List Ref} (r : Res α) : Det rs (BufM.lift r) := fun _ _ h1 h2 _ => ⟨rfl, h1, h2, fun _ h => h⟩

theorem Det.pure {rs : List Ref} (a : α) : Det rs (pure a : BufM α) := Det.lift (.ok a)

theorem Det.read {rs : List Ref} {r : Ref} (h : r ∈ rs) : Det rs (BufM.read r) :=
  fun _ _ h1 h2 hr => ⟨by simp only [BufM.read, hr r h], h1, h2, fun _ h => h⟩

theorem Det.bind {rs : List Ref} {x : BufM α} {f : α → BufM β} (hx : Det rs x) (hf : ∀ a, Det rs (f a)) :
    Det rs (x >>= f) := by
  intro st1 st2 h1 h2 hr
  obtain ⟨e, i1, i2, hk⟩ := hx st1 st2 h1 h2 hr
  rw [BufM.bind_run, BufM.bind_run]
  generalize hy1 : x st1 = y1 at e i1 hk ⊢
  generalize hy2 : x st2 = y2 at e i2 hk ⊢
  obtain ⟨r1, t1⟩ := y1
  obtain ⟨r2, t2⟩ := y2
  simp only at e i1 i2 hk
  subst e
  cases r1 with
  | ok a =>
    obtain ⟨e', j1, j2, hk'⟩ := hf a t1 t2 i1 i2 (fun r hm => read_keep hk (hr r hm))
    exact ⟨e', j1, j2, fun l hl => hk' l (hk l hl)⟩
  | exc _ => exact ⟨rfl, i1, i2, hk⟩
  | ub => exact ⟨rfl, i1, i2, hk⟩
  | fuel => exact ⟨rfl, i1, i2, hk⟩

theorem assign_det {r : Ref} {l : Loc} : ∀ (idx : List (Nat × Nat)) (st1 st2 : Store),
    (∀ p ∈ idx, p.1 ∈ l.idx.map Prod.fst) → BufInv st1 → BufInv st2 → r.read st1 = r.read st2 →
    (∀ i, i ∉ idx.map Prod.fst → (st1 l)[i]? = (st2 l)[i]?) →
    (assignLoop r l idx st1).1 = (assignLoop r l idx st2).1 ∧ BufInv (assignLoop r l idx st1).2 ∧
      BufInv (assignLoop r l idx st2).2 ∧
      (∀ l', st1 l' = st2 l' → (assignLoop r l idx st1).2 l' = (assignLoop r l idx st2).2 l') ∧
      ((assignLoop r l idx st1).1 = .ok () → (assignLoop r l idx st1).2 l = (assignLoop r l idx st2).2 l)
  | [], st1, st2, _, h1, h2, _, hl => ⟨rfl, h1, h2, fun _ h => h, fun _ => List.ext_getElem? (fun i => hl i (by simp))⟩
  | (i, j) :: idx, st1, st2, hsub, h1, h2, hr, hl => by
    simp only [assignLoop]
    rw [hr]
    have hlen : (st1 l).length = (st2 l).length := by rw [(h1 l).1, (h2 l).1]
    cases hj : Res.index (r.read st2) j with
    | ok a =>
      simp only
      rw [hlen]
      split
      · have hi := hsub (i, j) (by simp)
        have keep : ∀ l', st1 l' = st2 l' → (st1.set l ((st1 l).set i a)) l' = (st2.set l ((st2 l).set i a)) l' := by
          intro l' e
          unfold Store.set
          split
          · rename_i e'; subst e'; rw [e]
          · exact e
        obtain ⟨a1, a2, a3, a4, a5⟩ := assign_det idx (st1.set l ((st1 l).set i a)) (st2.set l ((st2 l).set i a))
          (fun p hp => hsub p (by simp [hp])) (h1.set hi a) (h2.set hi a) (read_keep keep hr) (by
            intro k hk
            simp only [Store.set, if_true]
            rw [List.getElem?_set, List.getElem?_set]
            by_cases e : i = k
            · simp [e, hlen]
            · simp only [e, if_false]
              exact hl k (by simp [hk, Ne.symm e]))
        exact ⟨a1, a2, a3, fun l' e => a4 l' (keep l' e), a5⟩
      · exact ⟨rfl, h1, h2, fun _ h => h, fun h => by simp at h⟩
    | exc e => exact ⟨rfl, h1, h2, fun _ h => h, fun h => by simp at h⟩
    | ub => exact ⟨rfl, h1, h2, fun _ h => h, fun h => by simp at h⟩
    | fuel => exact ⟨rfl, h1, h2, fun _ h => h, fun h => by simp at h⟩

theorem Det.assign {rs : List Ref} {r : Ref} (hr : r ∈ rs) {l : Loc} {g : BufM α} (hg : Det (.buf l :: rs) g) :
    Det rs (assignLoop r l l.idx >>= fun _ => g) := by
  intro st1 st2 h1 h2 hrs
  obtain ⟨e, i1, i2, hk, hl⟩ := assign_det (r := r) (l := l) l.idx st1 st2 (fun p hp => List.mem_map.2 ⟨p, hp, rfl⟩) h1 h2
    (hrs r hr) (fun i hi => by rw [(h1 l).2 i hi, (h2 l).2 i hi])
  rw [BufM.bind_run, BufM.bind_run]
  generalize assignLoop r l l.idx st1 = y1 at e i1 hk hl ⊢
  generalize assignLoop r l l.idx st2 = y2 at e i2 hk hl ⊢
  obtain ⟨r1, t1⟩ := y1
  obtain ⟨r2, t2⟩ := y2
  simp only at e i1 i2 hk hl
  subst e
  cases r1 with
  | ok a =>
    obtain ⟨e', j1, j2, hk'⟩ := hg t1 t2 i1 i2 (by
      intro r' hm
      rcases List.mem_cons.1 hm with rfl | hm
      · exact hl rfl
      · exact read_keep hk (hrs r' hm))
    exact ⟨e', j1, j2, fun l hl => hk' l (hk l hl)⟩
  | exc _ => exact ⟨rfl, i1, i2, hk⟩
  | ub => exact ⟨rfl, i1, i2, hk⟩
  | fuel => exact ⟨rfl, i1, i2, hk⟩

section
variable {σ : Type} [StateLike σ]

def FireDet (fire : FireB σ) : Prop := ∀ l r s, Det [r] (fire l r s)

variable {m : ObjMap} {fire : FireB σ}

theorem runSimple_det (hf : FireDet fire) (l : Loc) (r : Ref) (s : σ) : Det [r] (runSimple m fire l r s) := by
  unfold runSimple
  refine Det.assign (by simp) ?_
  refine (Det.read (by simp)).bind fun os => ?_
  cases atomKind m l.pred with
  | eq =>
    refine (Det.lift _).bind fun a => (Det.lift _).bind fun b => ?_
    split
    · exact Det.pure _
    · exact Det.lift _
  | type =>
    refine (Det.lift _).bind fun a => ?_
    split
    · exact Det.pure _
    · exact Det.lift _
  | plain =>
    dsimp only
    generalize (if l.sign = true then StateLike.insert s (Atom.ofObjs l.pred os)
      else StateLike.erase s (Atom.ofObjs l.pred os)) = q
    split
    · exact Det.pure _
    · exact ((hf l r _).weaken (by simp)).bind fun _ => Det.pure _

theorem runSimples_det (hf : FireDet fire) (op : Nat) (path : List Nat) (sign : Bool) (params : List Obj) (r : Ref) :
    ∀ (lits : List (Name × List Term)) (k : Nat) (s : σ),
    Det [r] (runSimples m fire op path sign params r k lits s)
  | [], _, _ => Det.pure _
  | (_, _) :: lits, k, _ => (runSimple_det hf _ r _).bind fun _ =>
    (runSimples_det hf op path sign params r lits (k + 1) _).bind fun _ => Det.pure _

omit [StateLike σ] in
theorem runLoop_det {r : Ref} {f : List Obj → σ → BufM (Nat × σ)} (hf : ∀ os s, Det [r] (f os s)) :
    ∀ (l : List (List Obj)) (s : σ), Det [r] (runLoop f l s)
  | [], _ => Det.pure _
  | os :: l, s => (hf os s).bind fun _ => (runLoop_det hf l _).bind fun _ => Det.pure _

mutual
theorem Eff.run_det (hf : FireDet fire) (op : Nat) : ∀ (e : Eff) (path : List Nat) (params : List Obj) (r : Ref) (s : σ),
    Det [r] (e.run m fire op path params r s)
  | .mk fs adds dels cs, path, params, r, s => by
    simp only [Eff.run]
    exact (FList.run_det hf op fs path 0 params r s).bind fun _ => (runSimples_det hf op path true params r adds 0 _).bind
      fun _ => (runSimples_det hf op path false params r dels 0 _).bind fun _ =>
      (CList.run_det hf op cs path 0 params r _).bind fun _ => Det.pure _
theorem FList.run_det (hf : FireDet fire) (op : Nat) : ∀ (e : FList) (path : List Nat) (k : Nat) (params : List Obj)
    (r : Ref) (s : σ), Det [r] (e.run m fire op path k params r s)
  | .nil, _, _, _, _, _ => by simp only [FList.run]; exact Det.pure _
  | .cons vars e rest, path, k, params, r, s => by
    simp only [FList.run]
    exact (Det.lift _).bind fun _ => (runLoop_det (fun os s => (Det.read (by simp)).bind fun args =>
      Det.ofVal (Eff.run_det hf op e _ _ (.val (args ++ os)) s)) _ _).bind fun _ =>
      (FList.run_det hf op rest path (k + 1) params r _).bind fun _ => Det.pure _
theorem CList.run_det (hf : FireDet fire) (op : Nat) : ∀ (e : CList) (path : List Nat) (k : Nat) (params : List Obj)
    (r : Ref) (s : σ), Det [r] (e.run m fire op path k params r s)
  | .nil, _, _, _, _, _ => by simp only [CList.run]; exact Det.pure _
  | .cons g e rest, path, k, params, r, s => by
    simp only [CList.run]
    refine (Det.read (by simp)).bind fun _ => (Det.lift _).bind fun b => Det.bind ?_ fun _ =>
      (CList.run_det hf op rest path (k + 1) params r _).bind fun _ => Det.pure _
    split
    · exact Eff.run_det hf op e _ _ r s
    · exact Det.pure _
end

omit [StateLike σ] in
theorem runFire_det {run : Nat → Ax → Ref → σ → BufM (Nat × σ)} (hrun : ∀ k ax r s, Det [r] (run k ax r s)) (l : Loc)
    (r : Ref) : ∀ (axs : List Ax) (k : Nat) (s : σ), Det [r] (runFire run l r k axs s)
  | [], _, _ => Det.pure _
  | ax :: axs, k, s => by
    have ih := fun s => runFire_det hrun l r axs (k + 1) s
    simp only [runFire]
    split
    · refine (Det.lift _).bind fun mt => ?_
      cases mt with
      | none => exact ih s
      | some mt =>
        refine (Det.read (by simp)).bind fun args => (Det.lift _).bind fun b => ?_
        cases b
        · exact ih s
        · refine Det.bind (Det.assign (by simp) ?_) fun _ => ih _
          exact (hrun k ax _ s).weaken (by simp)
    · exact ih s

theorem fireB_det (m : ObjMap) (axs : List Ax) : ∀ n, FireDet (fireB (σ := σ) m axs n)
  | 0 => fun l r s => runFire_det (fun _ _ _ _ => Det.lift _) l r axs 0 s
  | n + 1 => fun l r s => runFire_det (fun k ax r s => Eff.run_det (fireB_det m axs n) k ax.op.eff _ _ r s) l r axs 0 s

theorem runCalls_inv (m : ObjMap) (axs : List Ax) (fuel : Nat) : ∀ (cs : List (ActionCall σ)) {st : Store}, BufInv st →
    BufInv (runCalls m axs fuel cs st)
  | [], _, h => h
  | c :: cs, st, h => runCalls_inv m axs fuel cs
    (Eff.run_det (fireB_det m axs fuel) c.id c.op.eff [] c.op.params (.val c.args) c.state st st h h (by simp)).2.1

end

/-! ## Without re-entrance the buffers can be ignored -/

/-- `x` returns `res` and overwrites no axiom buffer of rank at least `R`. -/
def Val (rank : Bool → Name → Nat) (R : Nat) (r : Ref) (args : List Obj) (x : BufM α) (res : Res α) : Prop :=
  ∀ st, BufInv st → r.read st = args →
    (x st).1 = res ∧ BufInv (x st).2 ∧ ∀ l : Loc, l.ax.isSome = true → R ≤ rank l.sign l.pred → (x st).2 l = st l

/-- Nobody who only overwrites buffers of rank less than `R` overwrites this. -/
def Ref.Above (rank : Bool → Name → Nat) (R : Nat) : Ref → Prop
  | .val _ => True
  | .buf l => l.ax.isSome = true ∧ R ≤ rank l.sign l.pred

section
variable {rank : Bool → Name → Nat} {R : Nat} {r : Ref} {args : List Obj}

theorem Val.lift (res : Res α) : Val rank R r args (BufM.lift res) res := fun _ h _ => ⟨rfl, h, fun _ _ _ => rfl⟩

theorem Val.pure (a : α) : Val rank R r args (pure a : BufM α) (pure a) := Val.lift (.ok a)

theorem Val.liftBind (res : Res α) {f : α → BufM β} {g : α → Res β}
    (hf : ∀ a, res = .ok a → Val rank R r args (f a) (g a)) : Val rank R r args (BufM.lift res >>= f) (res >>= g) := by
  intro st hi he
  rw [BufM.bind_run]
  cases res with
  | ok a => exact hf a rfl st hi he
  | exc _ => exact ⟨rfl, hi, fun _ _ _ => rfl⟩
  | ub => exact ⟨rfl, hi, fun _ _ _ => rfl⟩
  | fuel => exact ⟨rfl, hi, fun _ _ _ => rfl⟩

theorem Val.read {β : Type} {f : List Obj → BufM β} {res : Res β} (h : Val rank R r args (f args) res) :
    Val rank R r args (BufM.read r >>= f) res := by
  intro st hi hr
  have e : (BufM.read r >>= f) st = f args st := by
    rw [BufM.bind_run]
    show f (r.read st) st = _
    rw [hr]
  rw [e]
  exact h st hi hr

theorem Val.bind (hr : r.Above rank R) {x : BufM α} {res : Res α} {f : α → BufM β} {g : α → Res β}
    (hx : Val rank R r args x res) (hf : ∀ a, Val rank R r args (f a) (g a)) :
    Val rank R r args (x >>= f) (res >>= g) := by
  intro st hi he
  obtain ⟨h1, h2, h3⟩ := hx st hi he
  rw [BufM.bind_run]
  generalize x st = y at h1 h2 h3 ⊢
  obtain ⟨r1, t1⟩ := y
  simp only at h1 h2 h3
  subst h1
  cases r1 with
  | ok a =>
    have he' : r.read t1 = args := by
      cases r with
      | val v => exact he
      | buf l => rw [← he]; exact h3 l hr.1 hr.2
    obtain ⟨h4, h5, h6⟩ := hf a t1 h2 he'
    exact ⟨h4, h5, fun l hl hR => (h6 l hl hR).trans (h3 l hl hR)⟩
  | exc _ => exact ⟨rfl, h2, h3⟩
  | ub => exact ⟨rfl, h2, h3⟩
  | fuel => exact ⟨rfl, h2, h3⟩

theorem Val.mono {R' : Nat} (h : R' ≤ R) {x : BufM α} {res : Res α} (hx : Val rank R' r args x res) :
    Val rank R r args x res :=
  fun st hi he => ⟨(hx st hi he).1, (hx st hi he).2.1, fun l hl hR => (hx st hi he).2.2 l hl (h.trans hR)⟩

/-- Filling a buffer from somewhere else. -/
theorem assign_val {l : Loc} (hne : ∀ l', r = .buf l' → l' ≠ l) : ∀ (idx : List (Nat × Nat)) (st : Store),
    (∀ p ∈ idx, p.1 ∈ l.idx.map Prod.fst) → BufInv st → r.read st = args →
    (∀ buf, applyLoop args idx (st l) = .ok buf → (assignLoop r l idx st).1 = .ok () ∧ (assignLoop r l idx st).2 l = buf) ∧
      (applyLoop args idx (st l) = .ub → (assignLoop r l idx st).1 = .ub) ∧
      (∀ e, applyLoop args idx (st l) ≠ .exc e) ∧ applyLoop args idx (st l) ≠ .fuel ∧
      BufInv (assignLoop r l idx st).2 ∧ ∀ l', l' ≠ l → (assignLoop r l idx st).2 l' = st l'
  | [], st, _, hi, _ => by
    refine ⟨fun buf h => ?_, by simp [applyLoop], by simp [applyLoop], by simp [applyLoop], hi, fun _ _ => rfl⟩
    simp only [applyLoop, Res.ok.injEq] at h
    exact ⟨rfl, h⟩
  | (i, j) :: idx, st, hsub, hi, hr => by
    simp only [assignLoop, applyLoop]
    rw [hr]
    cases hj : Res.index args j with
    | ok a =>
      simp only [Res.bind_ok]
      split
      · have hm := hsub (i, j) (by simp)
        have hr' : r.read (st.set l ((st l).set i a)) = args := by
          cases r with
          | val v => exact hr
          | buf l' =>
            rw [← hr]
            show (st.set l ((st l).set i a)) l' = st l'
            simp only [Store.set, hne l' rfl, if_false]
        have e : (st.set l ((st l).set i a)) l = (st l).set i a := by simp [Store.set]
        obtain ⟨h1, h2, h3, h4, h5, h6⟩ := assign_val hne idx (st.set l ((st l).set i a))
          (fun p hp => hsub p (by simp [hp])) (hi.set hm a) hr'
        rw [e] at h1 h2 h3 h4
        refine ⟨h1, h2, h3, h4, h5, fun l' hl' => ?_⟩
        rw [h6 l' hl']
        simp only [Store.set, hl', if_false]
      · exact ⟨by simp, fun _ => rfl, by simp, by simp, hi, fun _ _ => rfl⟩
    | ub => exact ⟨by simp, fun _ => rfl, by simp, by simp, hi, fun _ _ => rfl⟩
    | exc e => simp [Res.index] at hj; split at hj <;> simp at hj
    | fuel => simp [Res.index] at hj; split at hj <;> simp at hj

theorem Val.assign {l : Loc} (hr : r.Above rank R) (hl : l.ax.isSome = true → rank l.sign l.pred < R)
    {g : BufM α} {h : List Obj → Res α}
    (hg : ∀ buf st, BufInv st → r.read st = args → st l = buf → (g st).1 = h buf ∧ BufInv (g st).2 ∧
      ∀ l' : Loc, l'.ax.isSome = true → R ≤ rank l'.sign l'.pred → (g st).2 l' = st l') :
    Val rank R r args (assignLoop r l l.idx >>= fun _ => g) (do
      let buf ← applyLoop args l.idx l.init
      h buf) := by
  intro st hi he
  have hne : ∀ l', r = .buf l' → l' ≠ l := by
    rintro l' rfl rfl
    have := hl hr.1
    have := hr.2
    omega
  obtain ⟨h1, h2, h3, h4, h5, h6⟩ := assign_val hne l.idx st (fun p hp => List.mem_map.2 ⟨p, hp, rfl⟩) hi he
  rw [applyLoop_agree args l.idx (st l) l.init (hi l).1 (hi l).2] at h1 h2 h3 h4
  have keep : ∀ l' : Loc, l'.ax.isSome = true → R ≤ rank l'.sign l'.pred → (assignLoop r l l.idx st).2 l' = st l' := by
    intro l' ha hR
    refine h6 l' ?_
    rintro rfl
    have := hl ha
    omega
  rw [BufM.bind_run]
  cases ha : applyLoop args l.idx l.init with
  | ok buf =>
    obtain ⟨a1, a2⟩ := h1 buf ha
    generalize assignLoop r l l.idx st = y at a1 a2 h5 h6 keep ⊢
    obtain ⟨r1, t1⟩ := y
    simp only at a1 a2 h5 h6 keep
    subst a1
    have he' : r.read t1 = args := by
      cases r with
      | val v => exact he
      | buf l' => rw [← he]; exact keep l' hr.1 hr.2
    obtain ⟨b1, b2, b3⟩ := hg buf t1 h5 he' a2
    exact ⟨b1, b2, fun l' hl' hR => (b3 l' hl' hR).trans (keep l' hl' hR)⟩
  | exc e => exact absurd ha (h3 e)
  | fuel => exact absurd ha h4
  | ub =>
    have a1 := h2 ha
    generalize assignLoop r l l.idx st = y at a1 h5 h6 keep ⊢
    obtain ⟨r1, t1⟩ := y
    simp only at a1 h5 h6 keep
    subst a1
    exact ⟨rfl, h5, keep⟩

end

section
variable {σ : Type} [StateLike σ] {rank : Bool → Name → Nat}

/-- Firing an effect of rank less than `R` behaves as without buffers. -/
def FireVal (rank : Bool → Name → Nat) (fire : FireB σ) (fire' : Fire σ) : Prop :=
  ∀ (l : Loc) R r args s, l.ax = none → rank l.sign l.pred < R → r.Above rank R →
    Val rank R r args (fire l r s) (fire' l.sign l.pred l.params l.eff args s)

variable {m : ObjMap} {fire : FireB σ} {fire' : Fire σ} {R : Nat} {r : Ref} {args : List Obj}

theorem runSimple_val (hf : FireVal rank fire fire') (hr : r.Above rank R) (op : Nat) (path : List Nat) (sign : Bool)
    (pred : Name) (ts : List Term) (params : List Obj) (s : σ) (hlt : rank sign pred < R) :
    Val rank R r args (runSimple m fire ⟨op, path, sign, pred, params, ts.map Term.obj, none⟩ r s)
      (applySimple m fire' sign pred ts params args s) := by
  unfold runSimple applySimple
  refine Val.assign (l := ⟨op, path, sign, pred, params, ts.map Term.obj, none⟩) hr (by simp)
    (h := fun os => _) ?_
  intro os st hi he hl
  rw [BufM.bind_run]
  show _ ∧ _
  have hread : BufM.read (.buf ⟨op, path, sign, pred, params, ts.map Term.obj, none⟩) st = (.ok os, st) := by
    simp only [BufM.read, Ref.read, hl]
  rw [hread]
  simp only
  refine (?_ : Val rank R r args _ _) st hi he
  cases atomKind m pred with
  | eq =>
    refine Val.bind hr (Val.lift _) fun a => Val.bind hr (Val.lift _) fun b => ?_
    split
    · exact Val.pure _
    · exact Val.lift _
  | type =>
    refine Val.bind hr (Val.lift _) fun a => ?_
    split
    · exact Val.pure _
    · exact Val.lift _
  | plain =>
    dsimp only
    generalize (if sign = true then StateLike.insert s (Atom.ofObjs pred os)
      else StateLike.erase s (Atom.ofObjs pred os)) = q
    split
    · exact Val.pure _
    · exact Val.bind hr (hf ⟨op, path, sign, pred, params, ts.map Term.obj, none⟩ R r args _ rfl hlt hr)
        fun _ => Val.pure _

theorem runSimples_val (hf : FireVal rank fire fire') (hr : r.Above rank R) (op : Nat) (path : List Nat) (sign : Bool)
    (params : List Obj) : ∀ (lits : List (Name × List Term)) (k : Nat) (s : σ),
    (∀ p, ListsPred lits p → rank sign p < R) →
    Val rank R r args (runSimples m fire op path sign params r k lits s)
      (applySimples m fire' sign params args lits s)
  | [], _, _, _ => Val.pure _
  | (pred, ts) :: lits, k, s, h => by
    simp only [runSimples, applySimples]
    exact Val.bind hr (runSimple_val hf hr op _ sign pred ts params s (h pred ⟨ts, by simp⟩)) fun _ =>
      Val.bind hr (runSimples_val hf hr op path sign params lits (k + 1) _ (fun p ⟨ts, hm⟩ => h p ⟨ts, by simp [hm]⟩))
      fun _ => Val.pure _

omit [StateLike σ] in
theorem runLoop_val (hr : r.Above rank R) {f : List Obj → σ → BufM (Nat × σ)} {g : List Obj → σ → Res (Nat × σ)}
    (h : ∀ os s, Val rank R r args (f os s) (g os s)) : ∀ (l : List (List Obj)) (s : σ),
    Val rank R r args (runLoop f l s) (loopEff g l s)
  | [], _ => Val.pure _
  | os :: l, s => Val.bind hr (h os s) fun _ => Val.bind hr (runLoop_val hr h l _) fun _ => Val.pure _

omit [StateLike σ] in
theorem bounded_lits (rank : Bool → Name → Nat) (sign : Bool) : ∀ (l : List (Name × List Term)),
    ∃ R, ∀ p, ListsPred l p → rank sign p < R
  | [] => ⟨0, by simp [ListsPred]⟩
  | (q, ts) :: l => by
    obtain ⟨R, h⟩ := bounded_lits rank sign l
    refine ⟨max R (rank sign q + 1), ?_⟩
    rintro p ⟨us, hm⟩
    rcases List.mem_cons.1 hm with h' | h'
    · cases h'; omega
    · have := h p ⟨us, h'⟩; omega

mutual
theorem Eff.bounded (rank : Bool → Name → Nat) : ∀ e : Eff, ∃ R, ∀ sign p, e.Touches sign p → rank sign p < R
  | .mk fs adds dels cs => by
    obtain ⟨R1, h1⟩ := FList.bounded rank fs
    obtain ⟨R2, h2⟩ := bounded_lits rank true adds
    obtain ⟨R3, h3⟩ := bounded_lits rank false dels
    obtain ⟨R4, h4⟩ := CList.bounded rank cs
    refine ⟨R1 + R2 + R3 + R4, ?_⟩
    intro sign p h
    rcases h with h | ⟨rfl, h⟩ | ⟨rfl, h⟩ | h
    · have := h1 sign p h; omega
    · have := h2 p h; omega
    · have := h3 p h; omega
    · have := h4 sign p h; omega
theorem FList.bounded (rank : Bool → Name → Nat) : ∀ e : FList, ∃ R, ∀ sign p, e.Touches sign p → rank sign p < R
  | .nil => ⟨0, by simp [FList.Touches]⟩
  | .cons _ e rest => by
    obtain ⟨R1, h1⟩ := Eff.bounded rank e
    obtain ⟨R2, h2⟩ := FList.bounded rank rest
    refine ⟨R1 + R2, fun sign p h => ?_⟩
    rcases h with h | h
    · have := h1 sign p h; omega
    · have := h2 sign p h; omega
theorem CList.bounded (rank : Bool → Name → Nat) : ∀ e : CList, ∃ R, ∀ sign p, e.Touches sign p → rank sign p < R
  | .nil => ⟨0, by simp [CList.Touches]⟩
  | .cons _ e rest => by
    obtain ⟨R1, h1⟩ := Eff.bounded rank e
    obtain ⟨R2, h2⟩ := CList.bounded rank rest
    refine ⟨R1 + R2, fun sign p h => ?_⟩
    rcases h with h | h
    · have := h1 sign p h; omega
    · have := h2 sign p h; omega
end

mutual
theorem Eff.run_val (hf : FireVal rank fire fire') (op : Nat) : ∀ (e : Eff) (path : List Nat) (params : List Obj)
    (r : Ref) (args : List Obj) (s : σ), r.Above rank R → (∀ sign p, e.Touches sign p → rank sign p < R) →
    Val rank R r args (e.run m fire op path params r s) (e.apply m fire' params args s)
  | .mk fs adds dels cs, path, params, r, args, s, hr, h => by
    simp only [Eff.run, Eff.apply]
    simp only [Eff.Touches] at h
    exact Val.bind hr (FList.run_val hf op fs path 0 params r args s hr (fun sg p hp => h sg p (Or.inl hp))) fun _ =>
      Val.bind hr (runSimples_val hf hr op path true params adds 0 _
        (fun p hp => h true p (Or.inr (Or.inl ⟨rfl, hp⟩)))) fun _ =>
      Val.bind hr (runSimples_val hf hr op path false params dels 0 _
        (fun p hp => h false p (Or.inr (Or.inr (Or.inl ⟨rfl, hp⟩))))) fun _ =>
      Val.bind hr (CList.run_val hf op cs path 0 params r args _ hr
        (fun sg p hp => h sg p (Or.inr (Or.inr (Or.inr hp))))) fun _ => Val.pure _
theorem FList.run_val (hf : FireVal rank fire fire') (op : Nat) : ∀ (e : FList) (path : List Nat) (k : Nat)
    (params : List Obj) (r : Ref) (args : List Obj) (s : σ), r.Above rank R →
    (∀ sign p, e.Touches sign p → rank sign p < R) →
    Val rank R r args (e.run m fire op path k params r s) (e.apply m fire' params args s)
  | .nil, _, _, _, _, _, _, _, _ => by simp only [FList.run, FList.apply]; exact Val.pure _
  | .cons vars e rest, path, k, params, r, args, s, hr, h => by
    simp only [FList.run, FList.apply]
    simp only [FList.Touches] at h
    refine Val.bind hr (Val.lift _) fun _ => Val.bind hr (runLoop_val hr (fun os s => Val.read ?_) _ _) fun _ =>
      Val.bind hr (FList.run_val hf op rest path (k + 1) params r args _ hr (fun sg p hp => h sg p (Or.inr hp)))
      fun _ => Val.pure _
    intro st hi he
    exact Eff.run_val hf op e _ _ (.val (args ++ os)) (args ++ os) s trivial (fun sg p hp => h sg p (Or.inl hp)) st hi rfl
theorem CList.run_val (hf : FireVal rank fire fire') (op : Nat) : ∀ (e : CList) (path : List Nat) (k : Nat)
    (params : List Obj) (r : Ref) (args : List Obj) (s : σ), r.Above rank R →
    (∀ sign p, e.Touches sign p → rank sign p < R) →
    Val rank R r args (e.run m fire op path k params r s) (e.apply m fire' params args s)
  | .nil, _, _, _, _, _, _, _, _ => by simp only [CList.run, CList.apply]; exact Val.pure _
  | .cons g e rest, path, k, params, r, args, s, hr, h => by
    simp only [CList.run, CList.apply]
    simp only [CList.Touches] at h
    refine Val.read (Val.bind hr (Val.lift _) fun b => Val.bind hr ?_ fun _ =>
      Val.bind hr (CList.run_val hf op rest path (k + 1) params r args _ hr (fun sg p hp => h sg p (Or.inr hp)))
      fun _ => Val.pure _)
    cases b
    · exact Val.pure _
    · exact Eff.run_val hf op e _ _ r args s hr (fun sg p hp => h sg p (Or.inl hp))
end

omit [StateLike σ] in
theorem runFire_val {run : Nat → Ax → Ref → σ → BufM (Nat × σ)} {run' : Ax → List Obj → σ → Res (Nat × σ)}
    (l : Loc) (hl : l.ax = none) (hR : rank l.sign l.pred < R) (hr : r.Above rank R) :
    ∀ (axs : List Ax) (k : Nat) (s : σ),
    (∀ ax ∈ axs, ∀ k r as s, r.Above rank (rank ax.pos ax.pred) →
      Val rank (rank ax.pos ax.pred) r as (run k ax r s) (run' ax as s)) →
    Val rank R r args (runFire run l r k axs s) (fireLoop run' l.sign l.pred l.params l.eff args axs s)
  | [], _, _, _ => Val.pure _
  | ax :: axs, k, s, hrun => by
    have ih := fun s => runFire_val l hl hR hr axs (k + 1) s (fun a ha => hrun a (by simp [ha]))
    simp only [runFire, fireLoop]
    split
    · rename_i hm
      refine Val.liftBind _ fun mt hmt => ?_
      cases mt with
      | none => exact ih s
      | some mt =>
        unfold AxMatch.apply
        simp only [Res.bind_assoc']
        refine Val.read (Val.liftBind _ fun b _ => ?_)
        cases b
        · exact ih s
        · obtain ⟨h1, h2⟩ := hm
          have hl' : ∀ q : Loc, q = { l with ax := some (k, ax.op.params, ax.ctxArgs) } → q.init = mt.args ∧ q.idx = mt.idx := by
            rintro _ rfl
            simp only [Loc.init, Loc.idx, hmt, and_self]
          obtain ⟨e1, e2⟩ := hl' _ rfl
          simp only [if_true]
          rw [Res.bind_assoc']
          simp only [Res.pure_eq, Res.bind_ok]
          rw [← Res.bind_assoc']
          have hrun1 := hrun ax (by simp) k
          rw [h1, h2] at hrun1
          refine Val.bind hr (res := (applyLoop args mt.idx mt.args >>= fun as => run' ax as s)) ?_ (fun _ => ih _)
          rw [← e1, ← e2]
          refine Val.assign (l := { l with ax := some (k, ax.op.params, ax.ctxArgs) }) (h := fun as => run' ax as s) hr (fun _ => hR) ?_
          intro buf st hi _ hb
          obtain ⟨a, b, c⟩ := hrun1 (.buf { l with ax := some (k, ax.op.params, ax.ctxArgs) }) buf s
            ⟨rfl, Nat.le_refl _⟩ st hi hb
          exact ⟨a, b, fun l' hl' hR' => c l' hl' (hR.le.trans hR')⟩
    · exact ih s

theorem fireB_val {axs : List Ax} (hrank : Ranked rank axs) : ∀ n,
    FireVal (σ := σ) rank (fireB m axs n) (fireN m axs n)
  | 0 => fun l _ _ _ s hl hR hr => runFire_val l hl hR hr axs 0 s (fun _ _ _ _ _ _ _ => Val.lift _)
  | n + 1 => fun l _ _ _ s hl hR hr => runFire_val l hl hR hr axs 0 s (fun ax hm k r as s hr =>
      Eff.run_val (fireB_val hrank n) k ax.op.eff [] ax.op.params r as s hr (fun sg p hp => hrank ax hm sg p hp))

end

end Symbolic
