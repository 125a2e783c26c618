import Verif.Lemmas.Construct
import Verif.Lemmas.Fire
import Verif.Lemmas.Terminate
import Verif.Lemmas.DerivedTerm

/-!
Applying well-formed effects neither throws nor has undefined behaviour, and more budget gives the same state.
-/

namespace Symbolic

/-- The call returned, or was still running. -/
def NoFail {α : Type} (r : Res α) : Prop := r = .fuel ∨ ∃ a, r = .ok a

theorem NoFail.ok {α : Type} (a : α) : NoFail (.ok a : Res α) := Or.inr ⟨a, rfl⟩

theorem NoFail.bind {α β : Type} {r : Res α} {f : α → Res β} (h : NoFail r) (hf : ∀ a, r = .ok a → NoFail (f a)) :
    NoFail (r >>= f) := by
  rcases h with rfl | ⟨a, rfl⟩
  · exact Or.inl rfl
  · simpa using hf a rfl

theorem NoFail.returns {α : Type} {r : Res α} (h : NoFail r) (hf : r ≠ .fuel) : ∃ a, r = .ok a := by
  rcases h with h | h
  · exact absurd h hf
  · exact h

/-! ## Matching an axiom -/

/-- The match was made when the effect was constructed. -/
def MatchMade (axs : List Ax) (sign : Bool) (pred : Name) (params effParams : List Obj) : Prop :=
  ∀ ax ∈ axs, ax.pos = sign → ax.pred = pred → ∃ mt, axMatch params effParams ax.op.params ax.ctxArgs = .ok mt

/-- Indices of a match are within bounds. -/
structure AxMatch.InBounds (n k : Nat) (mt : AxMatch) : Prop where
  args : mt.args.length = n
  idx : ∀ ij ∈ mt.idx, ij.1 < n ∧ ij.2 < k
  future : ∀ jo ∈ mt.future, jo.1 < k

theorem axMatchLoop_bounds {params axParams : List Obj} : ∀ (effs ctx : List Obj) (acc mt : AxMatch),
    acc.InBounds axParams.length params.length → axMatchLoop params axParams effs ctx acc = .ok (some mt) →
    mt.InBounds axParams.length params.length
  | [], ctx, acc, mt, hb, h => by
    cases ctx <;> simp only [axMatchLoop, Res.ok.injEq, Option.some.injEq] at h <;> rw [← h] <;> exact hb
  | _ :: _, [], _, _, _, h => by simp [axMatchLoop] at h
  | p :: effs, q :: ctx, acc, mt, hb, h => by
    simp only [axMatchLoop] at h
    cases hi : firstIdx q axParams <;> cases hj : firstIdx p params <;> rw [hi, hj] at h <;> simp only at h
    · split at h
      · exact axMatchLoop_bounds effs ctx _ mt hb h
      · simp at h
    · rename_i j
      refine axMatchLoop_bounds effs ctx _ mt ?_ h
      refine ⟨hb.args, hb.idx, ?_⟩
      intro jo hm
      rcases List.mem_append.1 hm with hm | hm
      · exact hb.future jo hm
      · simp only [List.mem_singleton] at hm; subst hm; exact firstIdx_lt hj
    · refine axMatchLoop_bounds effs ctx _ mt ?_ h
      exact ⟨by simpa using hb.args, hb.idx, hb.future⟩
    · refine axMatchLoop_bounds effs ctx _ mt ?_ h
      refine ⟨hb.args, ?_, hb.future⟩
      intro ij hm
      rcases List.mem_append.1 hm with hm | hm
      · exact hb.idx ij hm
      · simp only [List.mem_singleton] at hm; subst hm; exact ⟨firstIdx_lt hi, firstIdx_lt hj⟩

theorem index_lt {α : Type} {l : List α} {j : Nat} (h : j < l.length) : ∃ a, Res.index l j = .ok a := by
  exact ⟨l[j], Res.index_eq_ok.2 (List.getElem?_eq_getElem h)⟩

theorem applyLoop_bounds {args : List Obj} : ∀ (idx : List (Nat × Nat)) (buf : List Obj),
    (∀ ij ∈ idx, ij.1 < buf.length ∧ ij.2 < args.length) → ∃ r, applyLoop args idx buf = .ok r ∧ r.length = buf.length
  | [], buf, _ => ⟨buf, rfl, rfl⟩
  | (i, j) :: idx, buf, h => by
    obtain ⟨h1, h2⟩ := h (i, j) (by simp)
    obtain ⟨a, ha⟩ := index_lt h2
    obtain ⟨r, h3, h4⟩ := applyLoop_bounds (args := args) idx (buf.set i a) (fun ij hm => by simpa using h ij (by simp [hm]))
    exact ⟨r, by simp only [applyLoop, ha, Res.bind_ok]; rw [if_pos h1]; exact h3, by simpa using h4⟩

theorem futureOk_bounds {args : List Obj} : ∀ (l : List (Nat × Obj)), (∀ jo ∈ l, jo.1 < args.length) →
    ∃ b, futureOk args l = .ok b
  | [], _ => ⟨true, rfl⟩
  | (j, o) :: l, h => by
    obtain ⟨a, ha⟩ := index_lt (h (j, o) (by simp))
    obtain ⟨b, hb⟩ := futureOk_bounds l (fun x hx => h x (by simp [hx]))
    simp only [futureOk, ha, Res.bind_ok]
    split
    · exact ⟨b, hb⟩
    · exact ⟨false, rfl⟩

theorem AxMatch.apply_bounds {mt : AxMatch} {n : Nat} {args : List Obj} (h : mt.InBounds n args.length) :
    ∃ r, mt.apply args = .ok r ∧ ∀ as, r = some as → as.length = n := by
  obtain ⟨b, hb⟩ := futureOk_bounds mt.future h.future
  cases b with
  | false => exact ⟨none, by simp [AxMatch.apply, hb], by simp⟩
  | true =>
    obtain ⟨r, h1, h2⟩ := applyLoop_bounds (args := args) mt.idx mt.args (fun ij hm => by rw [h.args]; exact h.idx ij hm)
    exact ⟨some r, by simp [AxMatch.apply, hb, h1], by rintro as ⟨⟩; rw [h2, h.args]⟩

/-! ## Effects -/

section
variable {σ : Type} [StateLike σ] {objects : List Obj} {axs : List Ax} {fire : Fire σ}

/-- Tests of conditions of effects return. -/
def CondReturns (σ : Type) [StateLike σ] (objects : List Obj) : Prop :=
  ∀ (s : σ) (g : Goal) (params args : List Obj), params.length = args.length → g.WF objects (params.map Obj.name) →
    ∃ b, StateLike.cond (σ := σ) (g.eval (ObjMap.create objects) params s args) = .ok b

theorem condReturns_state [StrHash] (objects : List Obj) : CondReturns State objects := fun s g params args hlen hw => by
  obtain ⟨b, hb, -⟩ := eval_sat objects s g params args hlen hw
  exact ⟨b, hb⟩

def FireSafe (axs : List Ax) (fire : Fire σ) : Prop :=
  ∀ sign pred params es args s, params.length = args.length → MatchMade axs sign pred params es →
    NoFail (fire sign pred params es args s)

theorem createLoop_made {sign : Bool} {params : List Obj} {pred : Name} {es : List Obj} : ∀ {axs : List Ax},
    createSimple.loop sign params pred es axs = .ok () → MatchMade axs sign pred params es
  | [], _ => fun ax hm => by simp at hm
  | a :: axs, h => by
    simp only [createSimple.loop] at h
    intro ax hm hp hq
    rcases List.mem_cons.1 hm with rfl | hm
    · rw [if_pos ⟨hp, hq⟩] at h
      simp only [Res.bind_eq_ok] at h
      obtain ⟨mt, h1, -⟩ := h
      exact ⟨mt, h1⟩
    · replace h : createSimple.loop sign params pred es axs = .ok () := by
        split at h
        · simp only [Res.bind_eq_ok] at h
          obtain ⟨_, -, h⟩ := h
          exact h
        · exact h
      exact createLoop_made h ax hm hp hq

theorem applySimples_noFail (hf : FireSafe axs fire) {sign : Bool} {params args : List Obj}
    (hlen : params.length = args.length) : ∀ {l : List (Name × List Term)} (s : σ),
    WFLits objects (params.map Obj.name) l → createSimple (ObjMap.create objects) axs sign params l = .ok () →
    NoFail (applySimples (ObjMap.create objects) fire sign params args l s)
  | [], s, _, _ => .ok _
  | (pred, ts) :: l, s, hw, hc => by
    have h0 := hw pred ts (by simp)
    have hk := (atomKind_create objects pred).2.2.2 h0.2
    simp only [createSimple, hk, Res.bind_eq_ok] at hc
    obtain ⟨⟨⟩, h1, h2⟩ := hc
    simp only [applySimples]
    refine NoFail.bind ?_ fun r _ => NoFail.bind
      (applySimples_noFail (l := l) hf hlen _ (fun p t hm => hw p t (by simp [hm])) h2) fun _ _ => .ok _
    simp only [applySimple, applyFn_terms params args ts (Nat.le_of_eq hlen), Res.bind_ok, hk]
    generalize (if sign = true then _ else _ : Nat × σ) = r
    split
    · exact .ok _
    · exact NoFail.bind (hf _ _ _ _ _ _ hlen (createLoop_made h1)) fun _ _ => .ok _

omit [StateLike σ] in
theorem loopEff_noFail {f : List Obj → σ → Res (Nat × σ)} : ∀ {l : List (List Obj)} (s : σ),
    (∀ os ∈ l, ∀ s, NoFail (f os s)) → NoFail (loopEff f l s)
  | [], s, _ => .ok _
  | os :: l, s, h => by
    simp only [loopEff]
    exact NoFail.bind (h os (by simp) s) fun r _ =>
      NoFail.bind (loopEff_noFail (l := l) _ (fun o ho => h o (by simp [ho]))) fun _ _ => .ok _

mutual
theorem Eff.apply_noFail (hcr : CondReturns σ objects) (hf : FireSafe axs fire) : ∀ (e : Eff) (params args : List Obj) (s : σ),
    params.length = args.length → e.WF objects (params.map Obj.name) →
    e.create (ObjMap.create objects) axs params = .ok () → NoFail (e.apply (ObjMap.create objects) fire params args s)
  | .mk fs adds dels cs, params, args, s, hlen, hw, hc => by
    simp only [Eff.WF] at hw
    simp only [Eff.create, Res.bind_eq_ok] at hc
    obtain ⟨⟨⟩, h1, ⟨⟩, h2, ⟨⟩, h3, h4⟩ := hc
    simp only [Eff.apply]
    exact NoFail.bind (FList.apply_noFail hcr hf fs _ _ _ hlen hw.1 h1) fun _ _ =>
      NoFail.bind (applySimples_noFail hf hlen _ hw.2.1 h2) fun _ _ =>
      NoFail.bind (applySimples_noFail hf hlen _ hw.2.2.1 h3) fun _ _ =>
      NoFail.bind (CList.apply_noFail hcr hf cs _ _ _ hlen hw.2.2.2 h4) fun _ _ => .ok _
theorem FList.apply_noFail (hcr : CondReturns σ objects) (hf : FireSafe axs fire) : ∀ (e : FList) (params args : List Obj) (s : σ),
    params.length = args.length → e.WF objects (params.map Obj.name) →
    e.create (ObjMap.create objects) axs params = .ok () → NoFail (e.apply (ObjMap.create objects) fire params args s)
  | .nil, _, _, _, _, _, _ => by simp only [FList.apply]; exact .ok _
  | .cons vars e rest, params, args, s, hlen, hw, hc => by
    simp only [FList.WF] at hw
    simp only [FList.create, Res.bind_eq_ok] at hc
    obtain ⟨⟨⟩, h1, _, -, h3⟩ := hc
    obtain ⟨l, hl, hlm⟩ := gen_create objects vars hw.1
    simp only [FList.apply, hl, Res.bind_ok]
    refine NoFail.bind (loopEff_noFail _ fun os ho s => ?_) fun _ _ =>
      NoFail.bind (FList.apply_noFail hcr hf rest _ _ _ hlen hw.2.2 h3) fun _ _ => .ok _
    exact Eff.apply_noFail hcr hf e _ _ s (by simp [hlen, ((hlm os).1 ho).length]) (by simpa using hw.2.1) h1
theorem CList.apply_noFail (hcr : CondReturns σ objects) (hf : FireSafe axs fire) : ∀ (e : CList) (params args : List Obj) (s : σ),
    params.length = args.length → e.WF objects (params.map Obj.name) →
    e.create (ObjMap.create objects) axs params = .ok () → NoFail (e.apply (ObjMap.create objects) fire params args s)
  | .nil, _, _, _, _, _, _ => by simp only [CList.apply]; exact .ok _
  | .cons g e rest, params, args, s, hlen, hw, hc => by
    simp only [CList.WF] at hw
    simp only [CList.create, Res.bind_eq_ok] at hc
    obtain ⟨⟨⟩, -, ⟨⟩, h2, h3⟩ := hc
    obtain ⟨b, hb'⟩ := hcr s g params args hlen hw.1
    simp only [CList.apply, hb', Res.bind_ok]
    refine NoFail.bind ?_ fun _ _ =>
      NoFail.bind (CList.apply_noFail hcr hf rest _ _ _ hlen hw.2.2 h3) fun _ _ => .ok _
    cases b
    · exact .ok _
    · exact Eff.apply_noFail hcr hf e _ _ s hlen hw.2.1 h2
end

omit [StateLike σ] in
theorem fireLoop_noFail {run : Ax → List Obj → σ → Res (Nat × σ)} {sign : Bool} {pred : Name}
    {params es args : List Obj} (hlen : params.length = args.length) : ∀ (axs : List Ax) (s : σ),
    MatchMade axs sign pred params es →
    (∀ ax ∈ axs, ∀ as s, ax.op.params.length = as.length → NoFail (run ax as s)) →
    NoFail (fireLoop run sign pred params es args axs s)
  | [], s, _, _ => .ok _
  | ax :: axs, s, hm, hr => by
    have ih := fun s => fireLoop_noFail (run := run) (es := es) hlen axs s (fun a ha => hm a (by simp [ha]))
      (fun a ha => hr a (by simp [ha]))
    simp only [fireLoop]
    split
    · rename_i hc
      obtain ⟨mt, hmt⟩ := hm ax (by simp) hc.1 hc.2
      simp only [hmt, Res.bind_ok]
      cases mt with
      | none => exact ih s
      | some mt =>
        have hb := axMatchLoop_bounds es ax.ctxArgs ⟨ax.op.params, [], []⟩ mt ⟨rfl, by simp, by simp⟩ hmt
        rw [hlen] at hb
        obtain ⟨r, h1, h2⟩ := AxMatch.apply_bounds hb
        simp only [h1, Res.bind_ok]
        cases r with
        | none => exact ih s
        | some as => exact NoFail.bind (hr ax (by simp) as s (h2 as rfl).symm) fun r _ => ih r.2
    · exact ih s

theorem fireN_safe (hcr : CondReturns σ objects) (hax : ∀ ax ∈ axs, ax.op.eff.WF objects (ax.op.params.map Obj.name) ∧
      ax.op.eff.create (ObjMap.create objects) axs ax.op.params = .ok ()) :
    ∀ n, FireSafe axs (fireN (σ := σ) (ObjMap.create objects) axs n)
  | 0 => fun _ _ _ _ _ s hlen hm => fireLoop_noFail hlen axs s hm (fun _ _ _ _ _ => Or.inl rfl)
  | n + 1 => fun _ _ _ _ _ s hlen hm => fireLoop_noFail hlen axs s hm (fun ax ha _ s hl =>
      Eff.apply_noFail hcr (fireN_safe hcr hax n) ax.op.eff _ _ s hl (hax ax ha).1 (hax ax ha).2)

end

/-! ## More budget for derived predicates -/

section
variable [StrHash]

theorem drvFix_mono (m : ObjMap) (d : Drv) (l : List (List Obj)) : ∀ (k : Nat) (s : State),
    (drvFix m d l k s).Le (drvFix m d l (k + 1) s)
  | 0, s => Or.inl rfl
  | k + 1, s => by
    rw [drvFix, drvFix.eq_2 m d l s (k + 1)]
    refine (Res.Le.refl _).bind fun r => ?_
    split
    · exact (drvFix_mono m d l k r.2).bind fun _ => .refl _
    · exact .refl _

omit [StrHash] in
theorem Res.Le.trans {α : Type} {a b c : Res α} (h : a.Le b) (h' : b.Le c) : a.Le c := by
  rcases h with h | h
  · exact Or.inl h
  · subst h; exact h'

theorem drvsPass_mono (m : ObjMap) (n : Nat) : ∀ (ds : List Drv) (s : State),
    (drvsPass m n ds s).Le (drvsPass m (n + 1) ds s)
  | [], s => .refl _
  | d :: ds, s => by
    simp only [drvsPass]
    refine Res.Le.bind ?_ fun r => (drvsPass_mono m n ds r.2).bind fun _ => .refl _
    simp only [Drv.apply]
    exact (Res.Le.refl _).bind fun l => drvFix_mono m d l n s

theorem drvsFix_mono (m : ObjMap) (ds : List Drv) (n : Nat) : ∀ (k : Nat) (s : State),
    (drvsFix m n ds k s).Le (drvsFix m (n + 1) ds (k + 1) s)
  | 0, s => Or.inl rfl
  | k + 1, s => by
    rw [drvsFix, drvsFix.eq_2 m (n + 1) ds s (k + 1)]
    refine (drvsPass_mono m n ds s).bind fun r => ?_
    split
    · exact (drvsFix_mono m ds n k r.2).bind fun _ => .refl _
    · exact .refl _

theorem Op.apply_le (m : ObjMap) (axs : List Ax) (op : Op) (args : List Obj) (s : State) (n : Nat) :
    (op.apply m axs n args s).Le (op.apply m axs (n + 1) args s) :=
  Eff.apply_mono (fireN_mono m axs n) op.eff _ _ _

theorem Pddl.applyOp_le (P : Pddl) (op : Op) (args : List Obj) (s : State) {n k : Nat} (h : n ≤ k) :
    (P.applyOp n op args s).Le (P.applyOp k op args s) := by
  induction k, h using Nat.le_induction with
  | base => exact .refl _
  | succ k _ ih =>
    refine ih.trans ?_
    simp only [Pddl.applyOp]
    exact (Op.apply_le _ _ _ _ _ _).bind fun r => (drvsFix_mono _ _ k k r.2).bind fun _ => .refl _

end

end Symbolic
