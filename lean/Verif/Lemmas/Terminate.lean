import Verif.Lemmas.Fire

/-!
# Termination of evaluation, and of triggered axioms along a rank
-/

namespace Symbolic

theorem Res.bind_ne_fuel {r : Res α} {f : α → Res β} (h : r ≠ .fuel) (hf : ∀ a, f a ≠ .fuel) : (r >>= f) ≠ .fuel := by
  cases r with
  | ok a => exact hf a
  | exc e => simp
  | ub => simp
  | fuel => exact absurd rfl h

theorem Res.index_ne_fuel (v : List α) (i : Nat) : Res.index v i ≠ .fuel := by
  unfold Res.index; split <;> simp

theorem applyLoop_ne_fuel (args : List Obj) : ∀ (idx : List (Nat × Nat)) (buf : List Obj), applyLoop args idx buf ≠ .fuel
  | [], _ => by simp [applyLoop]
  | (i, j) :: idx, buf => by
    simp only [applyLoop]
    refine Res.bind_ne_fuel (Res.index_ne_fuel _ _) fun a => ?_
    split
    · exact applyLoop_ne_fuel args idx _
    · simp

theorem applyFn_ne_fuel (params props args : List Obj) : applyFn params props args ≠ .fuel := applyLoop_ne_fuel _ _ _

theorem gen_ne_fuel (objects vars : List Obj) : genLoop (paramTypes (ObjMap.create objects) vars) ≠ .fuel := by
  rw [genLoop_ok (paramTypes_ne (ObjMap.nonEmpty_create objects) vars)]; simp

/-- Membership tests return or throw. -/
class TotalState (σ : Type) [StateLike σ] : Prop where
  contains : ∀ (s : σ) x, StateLike.contains s x ≠ .fuel
  lacks : ∀ (s : σ) x, StateLike.lacks s x ≠ .fuel
  cond : ∀ r, r ≠ .fuel → StateLike.cond (σ := σ) r ≠ .fuel

instance [StrHash] : TotalState State where
  contains _ _ := fun h => by simp [StateLike.contains] at h
  lacks _ _ := fun h => by simp [StateLike.lacks] at h
  cond _ h := h

instance [StrHash] : TotalState PartialState where
  contains s x := by simp only [StateLike.contains, PartialState.contains]; split <;> [simp; (split <;> simp)]
  lacks s x := by simp only [StateLike.lacks, PartialState.doesNotContain]; split <;> [simp; (split <;> simp)]
  cond r h := by
    simp only [StateLike.cond]
    cases r with
    | ok b => simp [optionalOf, condOf]
    | exc e => cases e <;> simp [optionalOf, condOf]
    | ub => simp [optionalOf, condOf]
    | fuel => exact absurd rfl h

section
variable {σ : Type} [StateLike σ] [TotalState σ]

theorem evalAtom_ne_fuel (m : ObjMap) (params : List Obj) (pred : Name) (ts : List Term) (s : σ) (args : List Obj) :
    evalAtom m params pred ts s args ≠ .fuel := by
  unfold evalAtom
  refine Res.bind_ne_fuel (applyFn_ne_fuel _ _ _) fun os => ?_
  cases atomKind m pred
  · exact Res.bind_ne_fuel (Res.index_ne_fuel _ _) fun a => Res.bind_ne_fuel (Res.index_ne_fuel _ _) fun b => by simp
  · exact Res.bind_ne_fuel (Res.index_ne_fuel _ _) fun a => by simp
  · exact TotalState.contains _ _

theorem evalNeg_ne_fuel (m : ObjMap) (params : List Obj) (g : Goal) (s : σ) (args : List Obj) {inner : Res Bool}
    (h : inner ≠ .fuel) : evalNeg m params g s args inner ≠ .fuel := by
  unfold evalNeg
  split
  · split
    · exact Res.bind_ne_fuel (applyFn_ne_fuel _ _ _) fun os => TotalState.lacks _ _
    · exact Res.bind_ne_fuel h fun b => by simp
  · exact Res.bind_ne_fuel h fun b => by simp

theorem loopAll_ne_fuel {f : List Obj → Res Bool} (hf : ∀ os, f os ≠ .fuel) : ∀ l, loopAll f l ≠ .fuel
  | [] => by simp [loopAll]
  | os :: l => by
    simp only [loopAll]
    refine Res.bind_ne_fuel (hf os) fun b => ?_
    cases b
    · simp
    · exact loopAll_ne_fuel hf l

theorem loopAny_ne_fuel {f : List Obj → Res Bool} (hf : ∀ os, f os ≠ .fuel) : ∀ l, loopAny f l ≠ .fuel
  | [] => by simp [loopAny]
  | os :: l => by
    simp only [loopAny]
    refine Res.bind_ne_fuel (hf os) fun b => ?_
    cases b
    · exact loopAny_ne_fuel hf l
    · simp

mutual
theorem eval_ne_fuel (objects : List Obj) : ∀ (g : Goal) (params : List Obj) (s : σ) (args : List Obj),
    g.eval (ObjMap.create objects) params s args ≠ .fuel
  | .atom pred ts, params, s, args => evalAtom_ne_fuel _ _ _ _ _ _
  | .conj gs, params, s, args => by simp only [Goal.eval]; exact evalAll_ne_fuel objects gs params s args
  | .disj gs, params, s, args => by simp only [Goal.eval]; exact evalAny_ne_fuel objects gs params s args
  | .neg g, params, s, args => by
    simp only [Goal.eval]; exact evalNeg_ne_fuel _ _ _ _ _ (eval_ne_fuel objects g params s args)
  | .all vars g, params, s, args => by
    simp only [Goal.eval]
    exact Res.bind_ne_fuel (gen_ne_fuel _ _) fun l => loopAll_ne_fuel (fun os => eval_ne_fuel objects g _ _ _) l
  | .ex vars g, params, s, args => by
    simp only [Goal.eval]
    exact Res.bind_ne_fuel (gen_ne_fuel _ _) fun l => loopAny_ne_fuel (fun os => eval_ne_fuel objects g _ _ _) l
  | .other, _, _, _ => by simp [Goal.eval]
theorem evalAll_ne_fuel (objects : List Obj) : ∀ (gs : List Goal) (params : List Obj) (s : σ) (args : List Obj),
    Goal.evalAll gs (ObjMap.create objects) params s args ≠ .fuel
  | [], _, _, _ => by simp [Goal.evalAll]
  | g :: gs, params, s, args => by
    simp only [Goal.evalAll]
    refine Res.bind_ne_fuel (eval_ne_fuel objects g _ _ _) fun b => ?_
    cases b
    · simp
    · exact evalAll_ne_fuel objects gs params s args
theorem evalAny_ne_fuel (objects : List Obj) : ∀ (gs : List Goal) (params : List Obj) (s : σ) (args : List Obj),
    Goal.evalAny gs (ObjMap.create objects) params s args ≠ .fuel
  | [], _, _, _ => by simp [Goal.evalAny]
  | g :: gs, params, s, args => by
    simp only [Goal.evalAny]
    refine Res.bind_ne_fuel (eval_ne_fuel objects g _ _ _) fun b => ?_
    cases b
    · exact evalAny_ne_fuel objects gs params s args
    · simp
end

/-- Firing on literals of `A` never runs out of budget. -/
def FireTotal (A : Bool → Name → Prop) (fire : Fire σ) : Prop :=
  ∀ sign pred ps es as s, A sign pred → fire sign pred ps es as s ≠ .fuel

variable {A : Bool → Name → Prop} {fire : Fire σ}

omit [TotalState σ] in
theorem applySimple_ne_fuel {m : ObjMap} (hf : FireTotal A fire) {sign : Bool} {pred : Name} (hA : A sign pred)
    (ts : List Term) (params args : List Obj) (s : σ) : applySimple m fire sign pred ts params args s ≠ .fuel := by
  unfold applySimple
  refine Res.bind_ne_fuel (applyFn_ne_fuel _ _ _) fun os => ?_
  cases atomKind m pred
  · refine Res.bind_ne_fuel (Res.index_ne_fuel _ _) fun a => Res.bind_ne_fuel (Res.index_ne_fuel _ _) fun b => ?_
    split <;> simp
  · refine Res.bind_ne_fuel (Res.index_ne_fuel _ _) fun a => ?_
    split <;> simp
  · dsimp only
    generalize (if sign = true then StateLike.insert s (Atom.ofObjs pred os) else
      StateLike.erase s (Atom.ofObjs pred os)) = r
    split
    · simp
    · exact Res.bind_ne_fuel (hf _ _ _ _ _ _ hA) fun _ => by simp

omit [TotalState σ] in
theorem applySimples_ne_fuel {m : ObjMap} (hf : FireTotal A fire) {sign : Bool} (params args : List Obj) :
    ∀ (l : List (Name × List Term)) (s : σ), (∀ p, ListsPred l p → A sign p) →
    applySimples m fire sign params args l s ≠ .fuel
  | [], _, _ => by simp [applySimples]
  | (pred, ts) :: l, s, h => by
    simp only [applySimples]
    exact Res.bind_ne_fuel (applySimple_ne_fuel hf (h pred ⟨ts, by simp⟩) _ _ _ _) fun r =>
      Res.bind_ne_fuel (applySimples_ne_fuel hf params args l _ (fun p ⟨t, ht⟩ => h p ⟨t, by simp [ht]⟩)) fun _ => by simp

omit [StateLike σ] [TotalState σ] in
theorem loopEff_ne_fuel {f : List Obj → σ → Res (Nat × σ)} (hf : ∀ os s, f os s ≠ .fuel) :
    ∀ (l : List (List Obj)) (s : σ), loopEff f l s ≠ .fuel
  | [], _ => by simp [loopEff]
  | os :: l, s => by
    simp only [loopEff]
    exact Res.bind_ne_fuel (hf os s) fun r => Res.bind_ne_fuel (loopEff_ne_fuel hf l _) fun _ => by simp

mutual
theorem Eff.apply_ne_fuel (objects : List Obj) (hf : FireTotal A fire) : ∀ (e : Eff) (params args : List Obj) (s : σ),
    (∀ sign p, e.Touches sign p → A sign p) → e.apply (ObjMap.create objects) fire params args s ≠ .fuel
  | .mk fs adds dels cs, params, args, s, h => by
    simp only [Eff.apply]
    exact Res.bind_ne_fuel
      (FList.apply_ne_fuel objects hf fs _ _ _ (fun sg p ht => h sg p (by simp [Eff.Touches, ht]))) fun _ =>
      Res.bind_ne_fuel (applySimples_ne_fuel hf _ _ _ _ (fun p hl => h true p (by simp [Eff.Touches, hl]))) fun _ =>
      Res.bind_ne_fuel (applySimples_ne_fuel hf _ _ _ _ (fun p hl => h false p (by simp [Eff.Touches, hl]))) fun _ =>
      Res.bind_ne_fuel
        (CList.apply_ne_fuel objects hf cs _ _ _ (fun sg p ht => h sg p (by simp [Eff.Touches, ht]))) fun _ => by simp
theorem FList.apply_ne_fuel (objects : List Obj) (hf : FireTotal A fire) : ∀ (e : FList) (params args : List Obj)
    (s : σ), (∀ sign p, e.Touches sign p → A sign p) → e.apply (ObjMap.create objects) fire params args s ≠ .fuel
  | .nil, _, _, _, _ => by simp [FList.apply]
  | .cons vars e rest, params, args, s, h => by
    simp only [FList.apply]
    exact Res.bind_ne_fuel (gen_ne_fuel _ _) fun l =>
      Res.bind_ne_fuel (loopEff_ne_fuel (fun os s => Eff.apply_ne_fuel objects hf e _ _ s
        (fun sg p ht => h sg p (by simp [FList.Touches, ht]))) _ _) fun _ =>
      Res.bind_ne_fuel (FList.apply_ne_fuel objects hf rest _ _ _
        (fun sg p ht => h sg p (by simp [FList.Touches, ht]))) fun _ => by simp
theorem CList.apply_ne_fuel (objects : List Obj) (hf : FireTotal A fire) : ∀ (e : CList) (params args : List Obj)
    (s : σ), (∀ sign p, e.Touches sign p → A sign p) → e.apply (ObjMap.create objects) fire params args s ≠ .fuel
  | .nil, _, _, _, _ => by simp [CList.apply]
  | .cons g e rest, params, args, s, h => by
    simp only [CList.apply]
    refine Res.bind_ne_fuel (TotalState.cond _ (eval_ne_fuel objects g _ _ _)) fun b =>
      Res.bind_ne_fuel ?_ fun _ =>
      Res.bind_ne_fuel (CList.apply_ne_fuel objects hf rest _ _ _
        (fun sg p ht => h sg p (by simp [CList.Touches, ht]))) fun _ => by simp
    cases b
    · simp
    · exact Eff.apply_ne_fuel objects hf e _ _ _ (fun sg p ht => h sg p (by simp [CList.Touches, ht]))
end

omit [StateLike σ] [TotalState σ] in
theorem fireLoop_ne_fuel {run : Ax → List Obj → σ → Res (Nat × σ)} {sign : Bool} {pred : Name}
    {params effParams args : List Obj} : ∀ (axs : List Ax) (s : σ),
    (∀ ax ∈ axs, ax.pos = sign → ax.pred = pred → ∀ as s, run ax as s ≠ .fuel) →
    fireLoop run sign pred params effParams args axs s ≠ .fuel
  | [], _, _ => by simp [fireLoop]
  | ax :: axs, s, h => by
    have ih := fun s => fireLoop_ne_fuel (run := run) (sign := sign) (pred := pred) (params := params)
      (effParams := effParams) (args := args) axs s (fun a ha => h a (by simp [ha]))
    simp only [fireLoop]
    split
    · rename_i hm
      refine Res.bind_ne_fuel ?_ fun mt => ?_
      · have : ∀ (es cs : List Obj) acc, axMatchLoop params ax.op.params es cs acc ≠ .fuel := by
          intro es
          induction es with
          | nil => intro cs acc; simp [axMatchLoop]
          | cons e es ihe =>
            intro cs acc
            cases cs with
            | nil => simp [axMatchLoop]
            | cons c cs =>
              simp only [axMatchLoop]
              cases firstIdx c ax.op.params <;> cases firstIdx e params <;> simp only
              · split
                · exact ihe _ _
                · simp
              · exact ihe _ _
              · exact ihe _ _
              · exact ihe _ _
        exact this _ _ _
      · cases mt with
        | none => exact ih s
        | some mt =>
          refine Res.bind_ne_fuel ?_ fun as => ?_
          · unfold AxMatch.apply
            refine Res.bind_ne_fuel ?_ fun b => ?_
            · have : ∀ l, futureOk args l ≠ .fuel := by
                intro l
                induction l with
                | nil => simp [futureOk]
                | cons x l ihl =>
                  obtain ⟨j, o⟩ := x
                  simp only [futureOk]
                  refine Res.bind_ne_fuel (Res.index_ne_fuel _ _) fun a => ?_
                  split
                  · exact ihl
                  · simp
              exact this _
            · split
              · exact Res.bind_ne_fuel (applyLoop_ne_fuel _ _ _) fun _ => by simp
              · simp
          · cases as with
            | none => exact ih s
            | some as => exact Res.bind_ne_fuel (h ax (by simp) hm.1 hm.2 _ _) fun r => ih _
    · exact ih s

theorem fireN_total (objects : List Obj) {rank : Bool → Name → Nat} {axs : List Ax} (hr : Ranked rank axs) :
    ∀ n, FireTotal (fun sign p => rank sign p < n) (fireN (σ := σ) (ObjMap.create objects) axs n)
  | 0 => fun _ _ _ _ _ _ h => by simp at h
  | n + 1 => fun sign pred ps es as s h =>
    fireLoop_ne_fuel axs s (fun ax hm hp hq as s => Eff.apply_ne_fuel objects (fireN_total objects hr n) ax.op.eff _ _ _
      (fun sg p ht => by
        have := hr ax hm sg p ht
        rw [hp, hq] at this
        simp only at h
        omega))

end

end Symbolic
