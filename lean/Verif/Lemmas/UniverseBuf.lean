import Verif.Lemmas.Universe
import Verif.Lemmas.ActionBuf

/-!
Axioms that never undo each other terminate also with the shared buffers, even if they trigger themselves: whatever the
buffers hold, they hold objects of a finite universe.
-/

namespace Symbolic

/-- The effect's arguments and the axiom's parameters are in the universe. -/
def LocIn (U : Obj → Prop) (l : Loc) : Prop :=
  (∀ o ∈ l.eff, U o) ∧ ∀ k ps cs, l.ax = some (k, ps, cs) → ∀ o ∈ ps, U o

/-- Buffers have the length they were constructed with, and hold objects of the universe. -/
def BufIn (U : Obj → Prop) (st : Store) : Prop :=
  ∀ l, (st l).length = l.init.length ∧ (LocIn U l → ∀ o ∈ st l, U o)

def RefIn (U : Obj → Prop) : Ref → Prop
  | .val v => ∀ o ∈ v, U o
  | .buf l => LocIn U l

theorem RefIn.read {U : Obj → Prop} {st : Store} (h : BufIn U st) : ∀ {r : Ref}, RefIn U r → ∀ o ∈ r.read st, U o
  | .val _, hr => hr
  | .buf l, hr => (h l).2 hr

theorem BufIn.init {U : Obj → Prop} : BufIn U Store.init := by
  intro l
  refine ⟨rfl, fun hl o ho => ?_⟩
  simp only [Store.init, Loc.init] at ho
  split at ho
  · exact hl.1 o ho
  · rename_i k ps cs hax
    split at ho
    · rename_i mt hmt
      exact axMatchLoop_in _ _ _ _ hl.1 (hl.2 k ps cs hax) hmt o ho
    · simp at ho

theorem BufIn.set {U : Obj → Prop} {st : Store} (h : BufIn U st) {l : Loc} {i : Nat} {a : Obj} (ha : U a) :
    BufIn U (st.set l ((st l).set i a)) := by
  intro l'
  unfold Store.set
  split
  · rename_i e
    subst e
    refine ⟨by simpa using (h l').1, fun hl o ho => ?_⟩
    rcases List.mem_or_eq_of_mem_set ho with ho | rfl
    · exact (h l').2 hl o ho
    · exact ha
  · exact h l'

/-- Started with admissible buffers, the computation leaves admissible buffers, does not run out of budget (if `T`), and a
value it returns satisfies `Q`. -/
def Tri (U : Obj → Prop) (T : Prop) (x : BufM α) (Q : α → Prop) : Prop :=
  ∀ st, BufIn U st → BufIn U (x st).2 ∧ (T → (x st).1 ≠ .fuel) ∧ ∀ a, (x st).1 = .ok a → Q a

section
variable {U : Obj → Prop} {T : Prop}

theorem Tri.pure {a : α} {Q : α → Prop} (h : Q a) : Tri U T (Pure.pure a : BufM α) Q :=
  fun st hs => by
    rw [BufM.pure_run]
    exact ⟨hs, fun _ => by simp, fun b hb => by cases hb; exact h⟩

theorem Tri.bind {x : BufM α} {f : α → BufM β} {Q : α → Prop} {R : β → Prop} (h : Tri U T x Q)
    (hf : ∀ a, Q a → Tri U T (f a) R) : Tri U T (x >>= f) R := by
  intro st hs
  obtain ⟨h1, h2, h3⟩ := h st hs
  rw [BufM.bind_run]
  cases hx : x st with
  | mk r st' =>
    rw [hx] at h1 h2 h3
    cases r with
    | ok a => exact hf a (h3 a rfl) st' h1
    | exc e => exact ⟨h1, fun _ => by simp, by simp⟩
    | ub => exact ⟨h1, fun _ => by simp, by simp⟩
    | fuel => exact ⟨h1, fun hT => absurd rfl (h2 hT), by simp⟩

theorem Tri.weaken {x : BufM α} {Q R : α → Prop} (h : Tri U T x Q) (hq : ∀ a, Q a → R a) : Tri U T x R :=
  fun st hs => ⟨(h st hs).1, (h st hs).2.1, fun a ha => hq a ((h st hs).2.2 a ha)⟩

theorem Tri.lift {r : Res α} {Q : α → Prop} (hne : r ≠ .fuel) (h : ∀ a, r = .ok a → Q a) : Tri U T (BufM.lift r) Q :=
  fun st hs => ⟨hs, fun _ => hne, h⟩

theorem Tri.read {r : Ref} (hr : RefIn U r) : Tri U T (BufM.read r) (fun os => ∀ o ∈ os, U o) :=
  fun st hs => ⟨hs, fun _ => by simp [BufM.read], fun a ha => by
    simp only [BufM.read, Res.ok.injEq] at ha
    exact ha ▸ hr.read hs⟩

theorem Tri.readBuf {l : Loc} (hl : LocIn U l) :
    Tri U T (BufM.read (.buf l)) (fun os => (∀ o ∈ os, U o) ∧ os.length = l.init.length) :=
  fun st hs => ⟨hs, fun _ => by simp [BufM.read], fun a ha => by
    simp only [BufM.read, Ref.read, Res.ok.injEq] at ha
    exact ha ▸ ⟨(hs l).2 hl, (hs l).1⟩⟩

theorem assignLoop_tri {r : Ref} (hr : RefIn U r) (l : Loc) : ∀ idx, Tri U T (assignLoop r l idx) (fun _ => True)
  | [], st, hs => ⟨hs, fun _ => by simp [assignLoop], fun _ _ => trivial⟩
  | (i, j) :: idx, st, hs => by
    rw [assignLoop]
    cases hx : Res.index (r.read st) j with
    | ok a =>
      have ha : a ∈ r.read st := by
        unfold Res.index at hx
        split at hx
        · rename_i h; cases hx; exact List.mem_of_getElem? h
        · cases hx
      simp only
      split
      · exact assignLoop_tri hr l idx _ (hs.set (hr.read hs a ha))
      · exact ⟨hs, fun _ => by simp, by simp⟩
    | exc e => exact ⟨hs, fun _ => by simp, by simp⟩
    | ub => exact ⟨hs, fun _ => by simp, by simp⟩
    | fuel => exact absurd hx (Res.index_ne_fuel _ _)

variable {σ : Type} [StateLike σ]

/-- As `Guard`, with buffers. -/
structure GuardB (T : Prop) (U : Obj → Prop) (W : Bool → Name → Nat → Prop) (I J : Nat → σ → Prop) (fire : FireB σ) :
    Prop where
  zero : ∀ sign pred os n s, W sign pred os.length → (∀ o ∈ os, U o) → I n s →
    (stepS sign (Atom.ofObjs pred os) s).1 = 0 → I n (stepS sign (Atom.ofObjs pred os) s).2
  step : ∀ sign pred os n s, W sign pred os.length → (∀ o ∈ os, U o) → I n s →
    (stepS sign (Atom.ofObjs pred os) s).1 ≠ 0 →
    J (max n (stepS sign (Atom.ofObjs pred os) s).1) (stepS sign (Atom.ofObjs pred os) s).2
  fire : ∀ l r n s, LocIn U l → RefIn U r → J n s → Tri U T (fire l r s) (I n)

variable {W : Bool → Name → Nat → Prop} {I J : Nat → σ → Prop} {fire : FireB σ} {objects : List Obj}

omit [StateLike σ] in
theorem Tri.seq {n : Nat} {x : BufM (Nat × σ)} {f : σ → BufM (Nat × σ)} (h : Tri U T x fun a => I (max n a.1) a.2)
    (hf : ∀ k s, I k s → Tri U T (f s) fun a => I (max k a.1) a.2) :
    Tri U T (do let a ← x; let b ← f a.2; Pure.pure (max a.1 b.1, b.2)) (fun a => I (max n a.1) a.2) :=
  h.bind fun a ha => (hf _ _ ha).bind fun b hb => .pure (by rwa [← Nat.max_assoc])

theorem runSimple_tri (G : GuardB T U W I J fire) {m : ObjMap} {l : Loc} (hl : LocIn U l) (hax : l.ax = none)
    (hW : W l.sign l.pred l.eff.length) {r : Ref} (hr : RefIn U r) {n : Nat} {s : σ} (hI : I n s) :
    Tri U T (runSimple m fire l r s) (fun a => I (max n a.1) a.2) := by
  unfold runSimple
  refine (assignLoop_tri hr l _).bind fun _ _ => (Tri.readBuf hl).bind fun os hos => ?_
  have hlen : os.length = l.eff.length := by rw [hos.2, Loc.init, hax]
  have idx : ∀ k, Tri U T (BufM.lift (Res.index os k)) (fun _ => True) := fun k =>
    .lift (Res.index_ne_fuel _ _) fun _ _ => trivial
  have throw : Tri U T (BufM.lift (.exc .runtimeError) : BufM (Nat × σ)) (fun a => I (max n a.1) a.2) :=
    .lift (by simp) (by simp)
  have same : Tri U T (Pure.pure (0, s) : BufM (Nat × σ)) (fun a => I (max n a.1) a.2) := .pure (by simpa using hI)
  cases atomKind m l.pred
  · refine (idx 0).bind fun a _ => (idx 1).bind fun b _ => ?_
    split
    · exact same
    · exact throw
  · refine (idx 0).bind fun a _ => ?_
    split
    · exact same
    · exact throw
  · dsimp only
    rw [show (if l.sign = true then StateLike.insert s (Atom.ofObjs l.pred os) else
      StateLike.erase s (Atom.ofObjs l.pred os)) = stepS l.sign (Atom.ofObjs l.pred os) s from rfl]
    split
    · rename_i hc
      refine .pure ?_
      rw [hc, Nat.max_zero]
      exact G.zero _ _ os n s (hlen ▸ hW) hos.1 hI hc
    · rename_i hc
      exact (G.fire l r _ _ hl hr (G.step _ _ os n s (hlen ▸ hW) hos.1 hI hc)).bind fun s' h => .pure h

theorem runSimples_tri (G : GuardB T U W I J fire) {m : ObjMap} {op : Nat} {path : List Nat} {sign : Bool}
    {params : List Obj} {r : Ref} (hr : RefIn U r) : ∀ {l : List (Name × List Term)} {k n : Nat} {s : σ},
    (∀ p ts, (p, ts) ∈ l → W sign p ts.length) → LitsIn U l → I n s →
    Tri U T (runSimples m fire op path sign params r k l s) (fun a => I (max n a.1) a.2)
  | [], k, n, s, _, _, hI => by rw [runSimples]; exact .pure (by simpa using hI)
  | (pred, ts) :: l, k, n, s, hW, ht, hI => by
    rw [runSimples]
    refine (runSimple_tri G ⟨by simpa using ht pred ts (by simp), by simp⟩ rfl (by simpa using hW pred ts (by simp))
      hr hI).seq fun k s h => ?_
    exact runSimples_tri G hr (fun p t hm => hW p t (by simp [hm])) (fun p t hm => ht p t (by simp [hm])) h

omit [StateLike σ] in
theorem runLoop_tri {f : List Obj → σ → BufM (Nat × σ)} : ∀ {l : List (List Obj)} {n : Nat} {s : σ},
    (∀ os ∈ l, ∀ k s, I k s → Tri U T (f os s) (fun a => I (max k a.1) a.2)) → I n s →
    Tri U T (runLoop f l s) (fun a => I (max n a.1) a.2)
  | [], n, s, _, hI => by rw [runLoop]; exact .pure (by simpa using hI)
  | os :: l, n, s, hf, hI => by
    rw [runLoop]
    exact (hf os (by simp) n s hI).seq fun k s h => runLoop_tri (fun os ho => hf os (by simp [ho])) h

variable [TotalState σ]

mutual
theorem Eff.run_tri (G : GuardB T U W I J fire) (hobj : ∀ o ∈ objects, U o) (op : Nat) : ∀ (e : Eff) (path : List Nat)
    (params : List Obj) (r : Ref) (n : Nat) (s : σ), (∀ sign p k, e.Writes sign p k → W sign p k) → e.TermsIn U →
    RefIn U r → I n s → Tri U T (e.run (ObjMap.create objects) fire op path params r s) (fun a => I (max n a.1) a.2)
  | .mk fs adds dels cs, path, params, r, n, s, hW, ht, hr, hI => by
    simp only [Eff.Writes] at hW
    simp only [Eff.TermsIn] at ht
    rw [Eff.run]
    refine (FList.run_tri G hobj op fs path 0 params r n s (fun sg p k h => hW sg p k (.inl h)) ht.1 hr hI).bind fun a ha => ?_
    refine (runSimples_tri G hr (fun p ts hm => hW true p _ (.inr (.inl ⟨rfl, ts, hm, rfl⟩))) ht.2.1 ha).bind fun b hb => ?_
    refine (runSimples_tri G hr (fun p ts hm => hW false p _ (.inr (.inr (.inl ⟨rfl, ts, hm, rfl⟩)))) ht.2.2.1 hb).bind
      fun c hc => ?_
    refine (CList.run_tri G hobj op cs path 0 params r _ c.2 (fun sg p k h => hW sg p k (.inr (.inr (.inr h)))) ht.2.2.2 hr
      hc).bind fun d hd => .pure ?_
    rwa [Nat.max_assoc, Nat.max_assoc, Nat.max_assoc, ← Nat.max_assoc a.1] at hd
theorem FList.run_tri (G : GuardB T U W I J fire) (hobj : ∀ o ∈ objects, U o) (op : Nat) : ∀ (e : FList) (path : List Nat)
    (j : Nat) (params : List Obj) (r : Ref) (n : Nat) (s : σ), (∀ sign p k, e.Writes sign p k → W sign p k) → e.TermsIn U →
    RefIn U r → I n s → Tri U T (e.run (ObjMap.create objects) fire op path j params r s) (fun a => I (max n a.1) a.2)
  | .nil, path, j, params, r, n, s, _, _, _, hI => by rw [FList.run]; exact .pure (by simpa using hI)
  | .cons vars e rest, path, j, params, r, n, s, hW, ht, hr, hI => by
    simp only [FList.Writes] at hW
    simp only [FList.TermsIn] at ht
    rw [FList.run]
    refine (Tri.lift (Q := fun l => genLoop (paramTypes (ObjMap.create objects) vars) = .ok l) (gen_ne_fuel _ _)
      fun _ h => h).bind fun l hl => ?_
    refine Tri.seq (I := I) (n := n) (runLoop_tri (fun os ho k s h => ?_) hI) fun k s h =>
      FList.run_tri G hobj op rest path (j + 1) params r k s (fun sg p k h => hW sg p k (.inr h)) ht.2 hr h
    refine (Tri.read hr).bind fun args ha => ?_
    exact Eff.run_tri G hobj op e _ _ _ k s (fun sg p k h => hW sg p k (.inl h)) ht.1 (fun o hm => by
      rcases List.mem_append.1 hm with hm | hm
      · exact ha o hm
      · exact hobj o ((gen_mem hl ho).mem hm).1) h
theorem CList.run_tri (G : GuardB T U W I J fire) (hobj : ∀ o ∈ objects, U o) (op : Nat) : ∀ (e : CList) (path : List Nat)
    (j : Nat) (params : List Obj) (r : Ref) (n : Nat) (s : σ), (∀ sign p k, e.Writes sign p k → W sign p k) → e.TermsIn U →
    RefIn U r → I n s → Tri U T (e.run (ObjMap.create objects) fire op path j params r s) (fun a => I (max n a.1) a.2)
  | .nil, path, j, params, r, n, s, _, _, _, hI => by rw [CList.run]; exact .pure (by simpa using hI)
  | .cons g e rest, path, j, params, r, n, s, hW, ht, hr, hI => by
    simp only [CList.Writes] at hW
    simp only [CList.TermsIn] at ht
    rw [CList.run]
    refine (Tri.read hr).bind fun args ha => ?_
    refine (Tri.lift (Q := fun _ => True) (TotalState.cond _ (eval_ne_fuel objects g _ _ _)) fun _ _ => trivial).bind
      fun b _ => ?_
    refine Tri.seq (I := I) (n := n) ?_ fun k s h =>
      CList.run_tri G hobj op rest path (j + 1) params r k s (fun sg p k h => hW sg p k (.inr h)) ht.2 hr h
    split
    · exact Eff.run_tri G hobj op e _ _ _ n s (fun sg p k h => hW sg p k (.inl h)) ht.1 hr hI
    · exact .pure (by simpa using hI)
end

omit [StateLike σ] [TotalState σ] in
theorem runFire_tri {K : σ → Prop} {run : Nat → Ax → Ref → σ → BufM (Nat × σ)} {l : Loc} {r : Ref} (hl : LocIn U l)
    (hr : RefIn U r) : ∀ (axs : List Ax) (k : Nat) (s : σ), (∀ ax ∈ axs, ∀ o ∈ ax.op.params, U o) →
    (∀ ax ∈ axs, ∀ k r s, RefIn U r → K s → Tri U T (run k ax r s) (fun a => K a.2)) → K s →
    Tri U T (runFire run l r k axs s) K
  | [], k, s, _, _, hK => by rw [runFire]; exact .pure hK
  | ax :: axs, k, s, hp, hrun, hK => by
    have ih := fun s => runFire_tri hl hr axs (k + 1) s (fun a hm => hp a (by simp [hm])) (fun a hm => hrun a (by simp [hm]))
    rw [runFire]
    split
    · refine (Tri.lift (Q := fun _ => True) (axMatchLoop_ne_fuel _ _ _ _ _) fun _ _ => trivial).bind fun mt _ => ?_
      cases mt with
      | none => exact ih s hK
      | some mt =>
        refine (Tri.read hr).bind fun args _ => ?_
        refine (Tri.lift (Q := fun _ => True) (futureOk_ne_fuel _ _) fun _ _ => trivial).bind fun b _ => ?_
        split
        · refine Tri.bind (Q := fun a => K a.2) ?_ fun q hq => ih q.2 hq
          refine (assignLoop_tri hr _ _).bind fun _ _ => hrun ax (by simp) k _ s ?_ hK
          exact ⟨hl.1, fun k' ps cs h => by cases h; exact hp ax (by simp)⟩
        · exact ih s hK
    · exact ih s hK

end

section
variable {σ : Type} [StateLike σ] [TotalState σ] [SignedState σ] {objects : List Obj} {axs : List Ax} {U : Obj → Prop}
  {L : List (Bool × Atom)}

theorem fireB_monotone (hM : Monotone objects axs U L) : ∀ (n : Nat) (l : Loc) (r : Ref) (s : σ), LocIn U l → RefIn U r →
    Tri U (gap L s < n) (fireB (ObjMap.create objects) axs n l r s) (KeepsAll L s)
  | 0, l, r, s, hl, hr => by
    refine runFire_tri hl hr axs 0 s hM.params (fun ax _ k r s _ _ => ?_) (.refl _ _)
    exact fun st hs => ⟨hs, fun h => by omega, fun a h => by simp [BufM.lift] at h⟩
  | n + 1, l, r, s, hl, hr => by
    have ih := fireB_monotone hM n
    refine runFire_tri (K := KeepsAll L s) hl hr axs 0 s hM.params (fun ax hm k r t hr hK => ?_) (.refl _ _)
    have G : GuardB (gap L s < n + 1) U (fun sg p k => ax.op.eff.Writes sg p k) (fun _ u => KeepsAll L s u)
        (fun _ u => KeepsAll L s u ∧ (gap L s < n + 1 → gap L u < n)) (fireB (ObjMap.create objects) axs n) := by
      refine ⟨fun sg p os k u hw ho hI h0 => ?_, fun sg p os k u hw ho hI h0 => ?_, fun l r k u hl hr hJ st hs => ?_⟩
      · rw [SignedState.step_zero _ _ _ h0]; exact hI
      · obtain ⟨h1, h2⟩ := step_keeps hM (hM.writes ax hm sg p os hw ho) u
        have := h2 h0
        have := hI.gap
        exact ⟨hI.trans h1, fun hT => by omega⟩
      · obtain ⟨h1, h2, h3⟩ := ih l r u hl hr st hs
        exact ⟨h1, fun hT => h2 (hJ.2 hT), fun a ha => hJ.1.trans (h3 a ha)⟩
    exact Eff.run_tri G hM.objects k ax.op.eff [] ax.op.params r 0 t (fun _ _ _ h => h) (hM.terms ax hm) hr hK

/-- With enough budget any action returns (or throws), and leaves admissible buffers; they are admissible with any
budget. -/
theorem Op.run_monotone (hM : Monotone objects axs U L) {op : Op} (ht : op.eff.TermsIn U) {as : List Obj}
    (has : ∀ o ∈ as, U o) (n id : Nat) (s : σ) :
    Tri U (L.length < n) (op.run (ObjMap.create objects) axs n id as s) (fun _ => True) := by
  have G : GuardB (L.length < n) U (fun _ _ _ => True) (fun _ (_ : σ) => True) (fun _ _ => True)
      (fireB (ObjMap.create objects) axs n) := by
    refine ⟨by simp, by simp, fun l r k u hl hr _ st hs => ?_⟩
    have := gap_le L u
    obtain ⟨h1, h2, -⟩ := fireB_monotone hM n l r u hl hr st hs
    exact ⟨h1, fun hT => h2 (by omega), fun _ _ => trivial⟩
  exact Eff.run_tri G hM.objects id op.eff [] op.params (.val as) 0 s (fun _ _ _ _ => trivial) ht has trivial

theorem runCalls_in (hM : Monotone objects axs U L) (n : Nat) : ∀ (cs : List (ActionCall σ)) (st : Store),
    (∀ c ∈ cs, c.op.eff.TermsIn U ∧ ∀ o ∈ c.args, U o) → BufIn U st → BufIn U (runCalls (ObjMap.create objects) axs n cs st)
  | [], st, _, hs => hs
  | c :: cs, st, hc, hs => by
    rw [runCalls]
    obtain ⟨h1, h2⟩ := hc c (by simp)
    exact runCalls_in hM n cs _ (fun c hm => hc c (by simp [hm])) (Op.run_monotone hM h1 h2 n c.id c.state st hs).1

end

end Symbolic
