import Verif.Spec.Reorder
import Verif.Lemmas.SameObjects
import Verif.Lemmas.Effects
import Verif.Lemmas.PartialAxiom
import Verif.Lemmas.DerivedTerm

/-!
The same objects, operators and rules in another order.
-/

namespace Symbolic

/-- What a search finds in two lists with the same elements, of which at most one is looked for. -/
theorem find?_same {α : Type} {l₁ l₂ : List α} {p : α → Bool} (h : ∀ a, a ∈ l₁ ↔ a ∈ l₂)
    (h1 : ∀ a ∈ l₁, ∀ b ∈ l₁, p a = true → p b = true → a = b) : l₁.find? p = l₂.find? p := by
  cases e₁ : l₁.find? p with
  | none =>
    symm
    rw [List.find?_eq_none] at e₁ ⊢
    exact fun a ha => e₁ a ((h a).2 ha)
  | some a =>
    cases e₂ : l₂.find? p with
    | none =>
      exfalso
      rw [List.find?_eq_none] at e₂
      exact e₂ a ((h a).1 (List.mem_of_find?_eq_some e₁)) (List.find?_some e₁)
    | some b =>
      rw [h1 a (List.mem_of_find?_eq_some e₁) b ((h b).2 (List.mem_of_find?_eq_some e₂)) (List.find?_some e₁)
        (List.find?_some e₂)]

variable [StrHash]

section
variable {os₁ os₂ : List Obj} (ho : ∀ o, o ∈ os₁ ↔ o ∈ os₂)
include ho

omit [StrHash] in
theorem atomKind_objects (p : Name) : atomKind (ObjMap.create os₁) p = atomKind (ObjMap.create os₂) p := by
  have h1 := atomKind_create os₁ p
  have h2 := atomKind_create os₂ p
  rw [isType_congr ho] at h1
  cases e : atomKind (ObjMap.create os₁) p with
  | eq => exact (h2.1.2 (h1.1.1 e)).symm
  | type => exact (h2.2.1.2 (h1.2.1.1 e)).symm
  | plain => exact (h2.2.2.2 (h1.2.2.1 e)).symm

theorem eval_objects (s : State) (g : Goal) (params args : List Obj) (hlen : params.length = args.length)
    (hw : g.WF os₁ (params.map Obj.name)) :
    g.eval (ObjMap.create os₁) params s args = g.eval (ObjMap.create os₂) params s args := by
  obtain ⟨b₁, h1, h1'⟩ := eval_sat os₁ s g params args hlen hw
  obtain ⟨b₂, h2, h2'⟩ := eval_sat os₂ s g params args hlen ((goalWF_objects ho g _).1 hw)
  rw [h1, h2, Res.ok.injEq, Bool.eq_iff_iff, h1', h2', sat_objects ho]

theorem applySimples_objects {fire₁ fire₂ : Fire State} (hq₁ : Quiet fire₁) (hq₂ : Quiet fire₂) (sign : Bool)
    (params args : List Obj) : ∀ (l : List (Name × List Term)) (s : State),
    applySimples (ObjMap.create os₁) fire₁ sign params args l s =
      applySimples (ObjMap.create os₂) fire₂ sign params args l s
  | [], s => rfl
  | (pred, ts) :: rest, s => by
    have h1 : ∀ s : State, applySimple (ObjMap.create os₁) fire₁ sign pred ts params args s =
        applySimple (ObjMap.create os₂) fire₂ sign pred ts params args s := by
      intro s
      simp only [applySimple, atomKind_objects ho, hq₁ _ _ _ _ _ _, hq₂ _ _ _ _ _ _]
    simp only [applySimples, h1, applySimples_objects hq₁ hq₂ sign params args rest]

end

theorem runOps_le (ops : List (Bool × Atom)) (s : State) : (runOps ops s).1 ≤ 1 := by
  induction ops generalizing s with
  | nil => simp [runOps]
  | cons o ops ih =>
    obtain ⟨sign, x⟩ := o
    have h1 : (stepOp sign x s).1 ≤ 1 := by
      cases sign
      · show (if (s.erase x).1 = true then 1 else 0) ≤ 1
        split <;> omega
      · show (if (s.insert x).1 = true then 1 else 0) ≤ 1
        split <;> omega
    have := ih (stepOp sign x s).2
    simp only [runOps]
    omega

/-- Operations without conflicts can be done in any order. -/
theorem runOps_same {l₁ l₂ : List (Bool × Atom)} (h : ∀ o, o ∈ l₁ ↔ o ∈ l₂)
    (hc : ∀ x, (true, x) ∈ l₁ → (false, x) ∉ l₁) (s : State) : runOps l₁ s = runOps l₂ s := by
  have hc₂ : ∀ x, (true, x) ∈ l₂ → (false, x) ∉ l₂ := fun x h1 h2 => hc x ((h _).2 h1) ((h _).2 h2)
  have h2 : (runOps l₁ s).2 = (runOps l₂ s).2 := by
    apply State.ext
    intro x
    rw [mem_runOps hc, mem_runOps hc₂, h, h]
  refine Prod.ext ?_ h2
  have z1 := runOps_le l₁ s
  have z2 := runOps_le l₂ s
  have c1 : (runOps l₁ s).1 = 0 ↔ (runOps l₁ s).2 = s :=
    ⟨runOps_zero, fun e => Classical.byContradiction fun h => runOps_changed hc h e⟩
  have c2 : (runOps l₂ s).1 = 0 ↔ (runOps l₂ s).2 = s :=
    ⟨runOps_zero, fun e => Classical.byContradiction fun h => runOps_changed hc₂ h e⟩
  rw [h2, ← c2] at c1
  omega

section
variable {os₁ os₂ : List Obj} (ho : ∀ o, o ∈ os₁ ↔ o ∈ os₂)
include ho

theorem forall_objects {fire₁ fire₂ : Fire State} (hq₁ : Quiet fire₁) (hq₂ : Quiet fire₂) (vars : List Obj) (e : Eff)
    (params args : List Obj) (s : State) (hlen : params.length = args.length)
    (hw : (FList.cons vars e .nil).WF os₁ (params.map Obj.name)) (hu : e.NoClash) :
    (FList.cons vars e .nil).apply (ObjMap.create os₁) fire₁ params args s =
      (FList.cons vars e .nil).apply (ObjMap.create os₂) fire₂ params args s := by
  have ht : ∀ sign p, (FList.cons vars e .nil).Touches sign p ↔ e.Touches sign p := by simp [FList.Touches]
  have hr : ∀ p, (FList.cons vars e .nil).Reads p ↔ e.Reads p := by simp [FList.Reads]
  have key : ∀ sign p, (FList.cons vars e .nil).Touches sign p → ¬ (FList.cons vars e .nil).Reads p := by
    intro sign p h
    rw [hr]
    exact (hu p).2 sign ((ht _ _).1 h)
  obtain ⟨l₁, h1, h1'⟩ := FList.apply_runs (objects := os₁) (R := (FList.cons vars e .nil).Reads) (s₀ := s) hq₁ _ params args s
    hlen hw (fun _ _ => Iff.rfl) (fun _ h => h) key
  obtain ⟨l₂, h2, h2'⟩ := FList.apply_runs (objects := os₂) (R := (FList.cons vars e .nil).Reads) (s₀ := s) hq₂ _ params args s
    hlen ((fListWF_objects ho _ _).1 hw) (fun _ _ => Iff.rfl) (fun _ h => h) key
  rw [h1, h2, Res.ok.injEq]
  apply runOps_same
  · rintro ⟨sign, x⟩
    rw [h1', h2']
    exact makesF_objects ho _ _ _ _ _
  · intro x hx hx'
    exact (hu x.pred).1 ⟨(ht _ _).1 (touchesF_of_makes _ _ _ _ _ _ ((h1' _ _).1 hx)),
      (ht _ _).1 (touchesF_of_makes _ _ _ _ _ _ ((h1' _ _).1 hx'))⟩

omit ho in
theorem FList.apply_cons {m : ObjMap} {fire : Fire State} {vars : List Obj} {e : Eff} {rest : FList} {params args : List Obj}
    {s : State} : (FList.cons vars e rest).apply m fire params args s = (do
      let r ← (FList.cons vars e .nil).apply m fire params args s
      let r' ← rest.apply m fire params args r.2
      pure (max r.1 r'.1, r'.2)) := by
  simp only [FList.apply]
  cases genLoop (paramTypes m vars) <;> simp only [bind, Res.bind]
  rename_i l
  cases loopEff (fun os s => e.apply m fire (params ++ vars) (args ++ os) s) l s <;> simp [pure]

mutual
theorem Eff.apply_objects {fire₁ fire₂ : Fire State} (hq₁ : Quiet fire₁) (hq₂ : Quiet fire₂) :
    ∀ (e : Eff) (params args : List Obj) (s : State), params.length = args.length →
    e.WF os₁ (params.map Obj.name) → e.Uniform →
    e.apply (ObjMap.create os₁) fire₁ params args s = e.apply (ObjMap.create os₂) fire₂ params args s
  | .mk fs adds dels cs, params, args, s, hlen, hw, hu => by
    simp only [Eff.WF] at hw
    simp only [Eff.Uniform] at hu
    have h1 := fun s => FList.apply_objects hq₁ hq₂ fs params args s hlen hw.1 hu.1
    have h2 := fun s => CList.apply_objects hq₁ hq₂ cs params args s hlen hw.2.2.2 hu.2
    simp only [Eff.apply, h1, h2, applySimples_objects ho hq₁ hq₂]
theorem FList.apply_objects {fire₁ fire₂ : Fire State} (hq₁ : Quiet fire₁) (hq₂ : Quiet fire₂) :
    ∀ (e : FList) (params args : List Obj) (s : State), params.length = args.length →
    e.WF os₁ (params.map Obj.name) → e.Uniform →
    e.apply (ObjMap.create os₁) fire₁ params args s = e.apply (ObjMap.create os₂) fire₂ params args s
  | .nil, params, args, s, _, _, _ => rfl
  | .cons vars e rest, params, args, s, hlen, hw, hu => by
    simp only [FList.WF] at hw
    simp only [FList.Uniform] at hu
    have h2 := fun s => FList.apply_objects hq₁ hq₂ rest params args s hlen hw.2.2 hu.2
    rw [FList.apply_cons, FList.apply_cons (m := ObjMap.create os₂),
      forall_objects ho hq₁ hq₂ vars e params args s hlen (by simp only [FList.WF]; exact ⟨hw.1, hw.2.1, trivial⟩) hu.1]
    simp only [h2]
theorem CList.apply_objects {fire₁ fire₂ : Fire State} (hq₁ : Quiet fire₁) (hq₂ : Quiet fire₂) :
    ∀ (e : CList) (params args : List Obj) (s : State), params.length = args.length →
    e.WF os₁ (params.map Obj.name) → e.Uniform →
    e.apply (ObjMap.create os₁) fire₁ params args s = e.apply (ObjMap.create os₂) fire₂ params args s
  | .nil, params, args, s, _, _, _ => rfl
  | .cons g e rest, params, args, s, hlen, hw, hu => by
    simp only [CList.WF] at hw
    simp only [CList.Uniform] at hu
    have h1 := fun s => Eff.apply_objects hq₁ hq₂ e params args s hlen hw.2.1 hu.1
    have h2 := fun s => CList.apply_objects hq₁ hq₂ rest params args s hlen hw.2.2 hu.2
    simp only [CList.apply, h1, h2, eval_objects ho s g params args hlen hw.1]
end

end

/-! ## Axioms that are not triggered -/

/-- The same happens after effects of this kind. -/
def FireSame (A : Bool → Name → Prop) (fire₁ fire₂ : Fire State) : Prop :=
  ∀ sign p, A sign p → ∀ ps es as s, fire₁ sign p ps es as s = fire₂ sign p ps es as s

theorem applySimples_fire {m : ObjMap} {A : Bool → Name → Prop} {fire₁ fire₂ : Fire State} (hf : FireSame A fire₁ fire₂)
    (sign : Bool) (params args : List Obj) : ∀ (l : List (Name × List Term)) (s : State), (∀ p, ListsPred l p → A sign p) →
    applySimples m fire₁ sign params args l s = applySimples m fire₂ sign params args l s
  | [], s, _ => rfl
  | (pred, ts) :: rest, s, h => by
    have h1 : ∀ s : State, applySimple m fire₁ sign pred ts params args s = applySimple m fire₂ sign pred ts params args s := by
      intro s
      have := hf sign pred (h pred ⟨ts, by simp⟩)
      simp only [applySimple, this]
    simp only [applySimples, h1,
      applySimples_fire hf sign params args rest _ (fun p ⟨ts, hm⟩ => h p ⟨ts, by simp [hm]⟩)]

theorem loopEff_congr {f g : List Obj → State → Res (Nat × State)} (h : ∀ os s, f os s = g os s) :
    ∀ (l : List (List Obj)) (s : State), loopEff f l s = loopEff g l s := by
  have : f = g := by funext os s; exact h os s
  rw [this]
  exact fun _ _ => rfl

mutual
theorem Eff.apply_fire {m : ObjMap} {A : Bool → Name → Prop} {fire₁ fire₂ : Fire State} (hf : FireSame A fire₁ fire₂) :
    ∀ (e : Eff) (params args : List Obj) (s : State), (∀ sign p, e.Touches sign p → A sign p) →
    e.apply m fire₁ params args s = e.apply m fire₂ params args s
  | .mk fs adds dels cs, params, args, s, h => by
    have h1 := fun s => FList.apply_fire (m := m) hf fs params args s (fun sg p ht => h sg p (by simp [Eff.Touches, ht]))
    have h2 := fun s => CList.apply_fire (m := m) hf cs params args s (fun sg p ht => h sg p (by simp [Eff.Touches, ht]))
    have h3 := fun s => applySimples_fire (m := m) hf true params args adds s (fun p hl => h true p (by simp [Eff.Touches, hl]))
    have h4 := fun s => applySimples_fire (m := m) hf false params args dels s (fun p hl => h false p (by simp [Eff.Touches, hl]))
    simp only [Eff.apply, h1, h2, h3, h4]
theorem FList.apply_fire {m : ObjMap} {A : Bool → Name → Prop} {fire₁ fire₂ : Fire State} (hf : FireSame A fire₁ fire₂) :
    ∀ (e : FList) (params args : List Obj) (s : State), (∀ sign p, e.Touches sign p → A sign p) →
    e.apply m fire₁ params args s = e.apply m fire₂ params args s
  | .nil, params, args, s, _ => rfl
  | .cons vars e rest, params, args, s, h => by
    have h1 := fun os s => Eff.apply_fire (m := m) hf e (params ++ vars) (args ++ os) s
      (fun sg p ht => h sg p (by simp [FList.Touches, ht]))
    have h2 := fun s => FList.apply_fire (m := m) hf rest params args s (fun sg p ht => h sg p (by simp [FList.Touches, ht]))
    simp only [FList.apply, h1, h2]
theorem CList.apply_fire {m : ObjMap} {A : Bool → Name → Prop} {fire₁ fire₂ : Fire State} (hf : FireSame A fire₁ fire₂) :
    ∀ (e : CList) (params args : List Obj) (s : State), (∀ sign p, e.Touches sign p → A sign p) →
    e.apply m fire₁ params args s = e.apply m fire₂ params args s
  | .nil, params, args, s, _ => rfl
  | .cons g e rest, params, args, s, h => by
    have h1 := fun s => Eff.apply_fire (m := m) hf e params args s (fun sg p ht => h sg p (by simp [CList.Touches, ht]))
    have h2 := fun s => CList.apply_fire (m := m) hf rest params args s (fun sg p ht => h sg p (by simp [CList.Touches, ht]))
    simp only [CList.apply, h1, h2]
end

theorem fireLoop_other {run : Ax → List Obj → State → Res (Nat × State)} {sign : Bool} {pred : Name} {ps es as : List Obj} :
    ∀ {axs : List Ax} {s : State}, (∀ ax ∈ axs, ¬ (ax.pos = sign ∧ ax.pred = pred)) →
    fireLoop run sign pred ps es as axs s = .ok s
  | [], s, _ => rfl
  | ax :: axs, s, h => by
    rw [fireLoop, if_neg (h ax (by simp))]
    exact fireLoop_other (fun ax' hm => h ax' (by simp [hm]))

theorem fireN_other {m : ObjMap} {axs : List Ax} {sign : Bool} {pred : Name} {ps es as : List Obj} {s : State}
    (h : ∀ ax ∈ axs, ¬ (ax.pos = sign ∧ ax.pred = pred)) : ∀ n, fireN (σ := State) m axs n sign pred ps es as s = .ok s
  | 0 => fireLoop_other h
  | _ + 1 => fireLoop_other h

/-- An effect that triggers no axiom is applied as if there were none. -/
theorem Op.apply_untriggered {m : ObjMap} {axs : List Ax} {op : Op} (h : ∀ ax ∈ axs, ¬ op.eff.Touches ax.pos ax.pred)
    (fuel : Nat) (args : List Obj) (s : State) :
    op.apply m axs fuel args s = op.eff.apply m (fun _ _ _ _ _ s => .ok s) op.params args s := by
  rw [Op.apply]
  refine Eff.apply_fire (A := op.eff.Touches) ?_ op.eff _ _ _ (fun _ _ h => h)
  intro sign p ht ps es as s
  refine fireN_other (fun ax ha => ?_) fuel
  rintro ⟨rfl, rfl⟩
  exact h ax ha ht

theorem Pddl.Built.untriggered {P : Pddl} {t : Ptree} (B : P.Built t) {e : Eff} (h : Untriggered t.ops e) :
    ∀ ax ∈ P.axioms, ¬ e.Touches ax.pos ax.pred := by
  intro ax hm
  obtain ⟨h1, h2, h3, -⟩ := B.ax hm
  have := h ax.op h1 h2
  have hs : ax.op.ctxSign = ax.pos ∧ ax.op.ctxPred = ax.pred := by
    obtain ⟨h4, -, h5⟩ := contextOf_ok h3
    refine ⟨?_, h4⟩
    rw [Op.ctxSign, h5]
    cases ax.pos <;> rfl
  rwa [hs.1, hs.2] at this

end Symbolic
