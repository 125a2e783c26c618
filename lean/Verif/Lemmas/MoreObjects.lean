import Verif.Lemmas.Derived
import Verif.Lemmas.TypeSound
import Verif.Spec.MoreObjects

/-!
# Lemmas: the same domain with more objects
-/

namespace Symbolic

/-! ## Formulas -/

/-- The assignment uses these objects only. -/
def Env.Over (objects : List Obj) (env : Env) : Prop := ∀ n o, env n = some o → o ∈ objects

theorem Env.over_none (objects : List Obj) : Env.none.Over objects := fun _ _ h => by simp [Env.none] at h

theorem Env.Over.bind {objects : List Obj} : ∀ (vs os : List Obj) {env : Env}, env.Over objects → (∀ o ∈ os, o ∈ objects) →
    (env.bind vs os).Over objects
  | v :: vs, o :: os, env, h, ho => by
    rw [Env.bind]
    refine Env.Over.bind vs os ?_ fun o' ho' => ho o' (by simp [ho'])
    intro n o' h'
    unfold Env.set at h'
    split at h'
    · obtain rfl := Option.some.inj h'
      exact ho _ (by simp)
    · exact h n o' h'
  | [], _, env, h, _ => by simpa [Env.bind] using h
  | _ :: _, [], env, h, _ => by simpa [Env.bind] using h

theorem WellTyped.over {objects params os : List Obj} (h : WellTyped objects params os) : ∀ o ∈ os, o ∈ objects := by
  induction h with
  | nil => simp
  | cons h _ ih =>
    intro o ho
    rcases List.mem_cons.1 ho with rfl | ho
    · exact h.1
    · exact ih o ho

theorem WellTyped.more {objects objects' params os : List Obj} (ho : ∀ o ∈ objects, o ∈ objects')
    (h : WellTyped objects params os) : WellTyped objects' params os :=
  List.Forall₂.imp (fun _ _ h => ⟨ho _ h.1, h.2⟩) h

theorem denotes_over {objects : List Obj} {env : Env} (he : env.Over objects) : ∀ {ts : List Term} {os : List Obj},
    List.Forall₂ (Denotes env) ts os → (∀ c, Term.const c ∈ ts → c ∈ objects) → ∀ o ∈ os, o ∈ objects
  | _, _, .nil, _ => by simp
  | .var v :: ts, o :: os, .cons h hs, hc => by
    intro o' ho'
    rcases List.mem_cons.1 ho' with rfl | ho'
    · exact he _ _ h
    · exact denotes_over he hs (fun c hc' => hc c (by simp [hc'])) o' ho'
  | .const c :: ts, o :: os, .cons h hs, hc => by
    intro o' ho'
    rcases List.mem_cons.1 ho' with rfl | ho'
    · have : c = o' := h
      exact this ▸ hc c (by simp)
    · exact denotes_over he hs (fun c hc' => hc c (by simp [hc'])) o' ho'

theorem about_map {objects os : List Obj} (h : ∀ o ∈ os, o ∈ objects) (pred : Name) :
    Atom.About objects ⟨pred, os.map Obj.name⟩ := by
  intro n hn
  obtain ⟨o, ho, rfl⟩ := List.mem_map.1 hn
  exact ⟨o, h o ho, rfl⟩

section
variable {objects objects' : List Obj} {S S' : Atom → Prop}

theorem isType_more (ho : ∀ o ∈ objects, o ∈ objects') (hT : ∀ p, IsType objects' p → IsType objects p) (p : Name) :
    IsType objects' p ↔ IsType objects p :=
  ⟨hT p, fun ⟨o, h, h'⟩ => ⟨o, ho o h, h'⟩⟩

theorem satAtom_more (ho : ∀ o ∈ objects, o ∈ objects') (hT : ∀ p, IsType objects' p → IsType objects p)
    (hS : AgreeAbout objects S S') {env : Env} (he : env.Over objects) (pred : Name) (ts : List Term)
    (hc : ∀ c, Term.const c ∈ ts → c ∈ objects) : SatAtom objects' S' env pred ts ↔ SatAtom objects S env pred ts := by
  unfold SatAtom
  rw [isType_more ho hT]
  have : (∃ os, List.Forall₂ (Denotes env) ts os ∧ S' ⟨pred, os.map Obj.name⟩) ↔
      ∃ os, List.Forall₂ (Denotes env) ts os ∧ S ⟨pred, os.map Obj.name⟩ :=
    exists_congr fun os => and_congr_right fun h => (hS _ (about_map (denotes_over he h hc) pred)).symm
  rw [this]

mutual
theorem sat_more (ho : ∀ o ∈ objects, o ∈ objects') (hT : ∀ p, IsType objects' p → IsType objects p)
    (hS : AgreeAbout objects S S') : ∀ (g : Goal) (b : Bool) (env : Env), env.Over objects → g.Quants b → g.Closed objects →
      (b = true → Sat objects S env g → Sat objects' S' env g) ∧ (b = false → Sat objects' S' env g → Sat objects S env g)
  | .atom pred ts, b, env, he, _, hc => by
    have := satAtom_more ho hT hS he pred ts (fun c h => hc c h)
    simp only [Sat]
    exact ⟨fun _ => this.2, fun _ => this.1⟩
  | .conj gs, b, env, he, hq, hc => by
    simp only [Goal.Quants] at hq
    simp only [Sat]
    exact (satL_more ho hT hS gs b env he hq hc).1
  | .disj gs, b, env, he, hq, hc => by
    simp only [Goal.Quants] at hq
    simp only [Sat]
    exact (satL_more ho hT hS gs b env he hq hc).2
  | .neg g, b, env, he, hq, hc => by
    simp only [Goal.Quants] at hq
    simp only [Sat]
    have ih := sat_more ho hT hS g (!b) env he hq hc
    exact ⟨fun h hn hs => hn (ih.2 (by simp [h]) hs), fun h hn hs => hn (ih.1 (by simp [h]) hs)⟩
  | .all vars g, b, env, he, hq, hc => by
    simp only [Goal.Quants] at hq
    simp only [Sat]
    refine ⟨fun h => by simp [hq.1] at h, fun h hs os hw => ?_⟩
    exact (sat_more ho hT hS g b _ (he.bind vars os hw.over) hq.2 hc).2 h (hs os (hw.more ho))
  | .ex vars g, b, env, he, hq, hc => by
    simp only [Goal.Quants] at hq
    simp only [Sat]
    refine ⟨fun h hs => ?_, fun h => by simp [hq.1] at h⟩
    obtain ⟨os, hw, hs⟩ := hs
    exact ⟨os, hw.more ho, (sat_more ho hT hS g b _ (he.bind vars os hw.over) hq.2 hc).1 h hs⟩
  | .other, b, env, he, hq, hc => by simp [Sat]
theorem satL_more (ho : ∀ o ∈ objects, o ∈ objects') (hT : ∀ p, IsType objects' p → IsType objects p)
    (hS : AgreeAbout objects S S') : ∀ (gs : List Goal) (b : Bool) (env : Env), env.Over objects → Goal.QuantsL b gs →
      (∀ c, Goal.HasConstL gs c → c ∈ objects) →
      ((b = true → SatAll objects S env gs → SatAll objects' S' env gs) ∧
        (b = false → SatAll objects' S' env gs → SatAll objects S env gs)) ∧
      ((b = true → SatAny objects S env gs → SatAny objects' S' env gs) ∧
        (b = false → SatAny objects' S' env gs → SatAny objects S env gs))
  | [], b, env, he, hq, hc => by simp [SatAll, SatAny]
  | g :: gs, b, env, he, hq, hc => by
    simp only [Goal.QuantsL] at hq
    simp only [SatAll, SatAny]
    have h1 := sat_more ho hT hS g b env he hq.1 (fun c h => hc c (.inl h))
    have h2 := satL_more ho hT hS gs b env he hq.2 (fun c h => hc c (.inr h))
    exact ⟨⟨fun h => And.imp (h1.1 h) (h2.1.1 h), fun h => And.imp (h1.2 h) (h2.1.2 h)⟩,
      ⟨fun h => Or.imp (h1.1 h) (h2.2.1 h), fun h => Or.imp (h1.2 h) (h2.2.2 h)⟩⟩
end

theorem Goal.Ground.sat (ho : ∀ o ∈ objects, o ∈ objects') (hT : ∀ p, IsType objects' p → IsType objects p)
    (hS : AgreeAbout objects S S') {g : Goal} (hg : g.Ground objects) {env : Env} (he : env.Over objects) :
    Sat objects' S' env g ↔ Sat objects S env g :=
  ⟨(sat_more ho hT hS g false env he hg.all hg.closed).2 rfl, (sat_more ho hT hS g true env he hg.ex hg.closed).1 rfl⟩

end

/-! ## Effects -/

theorem bind_mem : ∀ (ps as : List Obj) (env : Env), (ps.map Obj.name).Nodup → ps.length = as.length →
    ∀ o ∈ as, ∃ p ∈ ps, (env.bind ps as) p.name = some o
  | [], [], _, _, _, o, ho => by simp at ho
  | [], _ :: _, _, _, hl, _, _ => by simp at hl
  | _ :: _, [], _, _, hl, _, _ => by simp at hl
  | p :: ps, a :: as, env, hn, hl, o, ho => by
    simp only [List.map_cons, List.nodup_cons] at hn
    rw [Env.bind]
    rcases List.mem_cons.1 ho with rfl | ho
    · exact ⟨p, by simp, by rw [Env.bind_other _ _ _ _ hn.1]; simp [Env.set]⟩
    · obtain ⟨q, hq, h⟩ := bind_mem ps as (env.set p.name a) hn.2 (by simpa using hl) o ho
      exact ⟨q, by simp [hq], h⟩

theorem forall₂_partner {α β : Type} {R : α → β → Prop} {l : List α} {l' : List β} (h : List.Forall₂ R l l') :
    ∀ a ∈ l, ∃ b ∈ l', R a b := by
  induction h with
  | nil => simp
  | cons h _ ih =>
    intro a ha
    rcases List.mem_cons.1 ha with rfl | ha
    · exact ⟨_, by simp, h⟩
    · obtain ⟨b, hb, hr⟩ := ih a ha
      exact ⟨b, by simp [hb], hr⟩

section
variable {objects objects' : List Obj} {S S' : Atom → Prop}

theorem lists_must {env : Env} {must : List Name} {l : List (Name × List Term)} (hl : LitsLocal objects must l) {x : Atom}
    (h : Lists env l x) (hx : x.About objects) : ∀ n ∈ must, ∃ o, env n = some o ∧ ∃ o' ∈ objects, o'.name = o.name := by
  obtain ⟨pred, ts, os, hm, hd, rfl⟩ := h
  intro n hn
  obtain ⟨v, hv, rfl⟩ := (hl pred ts hm).2 n hn
  obtain ⟨o, ho, h1⟩ := forall₂_partner hd _ hv
  exact ⟨o, h1, hx o.name (List.mem_map.2 ⟨o, ho, rfl⟩)⟩

mutual
/-- An effect about the old objects comes from an instance over the old objects. -/
theorem Eff.Local.must (sign : Bool) : ∀ (e : Eff) (must : List Name) (env : Env) (x : Atom), e.Local objects must →
    Makes objects' S' sign env e x → x.About objects → ∀ n ∈ must, ∃ o, env n = some o ∧ ∃ o' ∈ objects, o'.name = o.name
  | .mk fs adds dels cs, must, env, x, hg, hm, hx => by
    simp only [Eff.Local] at hg
    simp only [Makes] at hm
    rcases hm with h | ⟨-, h⟩ | ⟨-, h⟩ | h
    · exact FList.Local.must sign fs must env x hg.1 h hx
    · exact lists_must hg.2.1 h hx
    · exact lists_must hg.2.2.1 h hx
    · exact CList.Local.must sign cs must env x hg.2.2.2 h hx
theorem FList.Local.must (sign : Bool) : ∀ (fs : FList) (must : List Name) (env : Env) (x : Atom), fs.Local objects must →
    MakesF objects' S' sign env fs x → x.About objects → ∀ n ∈ must, ∃ o, env n = some o ∧ ∃ o' ∈ objects, o'.name = o.name
  | .nil, must, env, x, hg, hm, hx => by simp [MakesF] at hm
  | .cons vars e rest, must, env, x, hg, hm, hx => by
    simp only [FList.Local] at hg
    simp only [MakesF] at hm
    rcases hm with ⟨os, -, h⟩ | h
    · intro n hn
      have := Eff.Local.must sign e _ _ x hg.2.1 h hx n (by simp [hn])
      rwa [Env.bind_other _ _ _ _ (fun hv => (List.nodup_append.1 hg.1).2.2 n hn n hv rfl)] at this
    · exact FList.Local.must sign rest must env x hg.2.2 h hx
theorem CList.Local.must (sign : Bool) : ∀ (cs : CList) (must : List Name) (env : Env) (x : Atom), cs.Local objects must →
    MakesC objects' S' sign env cs x → x.About objects → ∀ n ∈ must, ∃ o, env n = some o ∧ ∃ o' ∈ objects, o'.name = o.name
  | .nil, must, env, x, hg, hm, hx => by simp [MakesC] at hm
  | .cons g e rest, must, env, x, hg, hm, hx => by
    simp only [CList.Local] at hg
    simp only [MakesC] at hm
    rcases hm with ⟨-, h⟩ | h
    · exact Eff.Local.must sign e must env x hg.2.1 h hx
    · exact CList.Local.must sign rest must env x hg.2.2 h hx
end

/-- Objects of the larger problem that have the name of an old object are old. -/
theorem old_of_name (ho : ∀ o ∈ objects, o ∈ objects') (hn : (objects'.map Obj.name).Nodup) {o : Obj} (h : o ∈ objects')
    (h' : ∃ o' ∈ objects, o'.name = o.name) : o ∈ objects := by
  obtain ⟨o', h1, h2⟩ := h'
  have : o' = o := List.inj_on_of_nodup_map hn (ho o' h1) h h2
  exact this ▸ h1

theorem WellTyped.old {ps as : List Obj} (h : WellTyped objects' ps as) (hin : ∀ a ∈ as, a ∈ objects) : WellTyped objects ps as := by
  induction h with
  | nil => exact .nil
  | cons h _ ih => exact .cons ⟨hin _ (by simp), h.2⟩ (ih fun a ha => hin a (by simp [ha]))

mutual
theorem Eff.Local.makes (ho : ∀ o ∈ objects, o ∈ objects') (hT : ∀ p, IsType objects' p → IsType objects p)
    (hn : (objects'.map Obj.name).Nodup) (hS : AgreeAbout objects S S') (sign : Bool) : ∀ (e : Eff) (must : List Name) (env : Env)
      (x : Atom), env.Over objects' → (∀ n o, env n = some o → n ∉ must → o ∈ objects) → e.Local objects must → x.About objects →
      (Makes objects' S' sign env e x ↔ Makes objects S sign env e x)
  | .mk fs adds dels cs, must, env, x, he, hv, hg, hx => by
    simp only [Eff.Local] at hg
    simp only [Makes, FList.Local.makes ho hT hn hS sign fs must env x he hv hg.1 hx,
      CList.Local.makes ho hT hn hS sign cs must env x he hv hg.2.2.2 hx]
theorem FList.Local.makes (ho : ∀ o ∈ objects, o ∈ objects') (hT : ∀ p, IsType objects' p → IsType objects p)
    (hn : (objects'.map Obj.name).Nodup) (hS : AgreeAbout objects S S') (sign : Bool) : ∀ (fs : FList) (must : List Name) (env : Env)
      (x : Atom), env.Over objects' → (∀ n o, env n = some o → n ∉ must → o ∈ objects) → fs.Local objects must → x.About objects →
      (MakesF objects' S' sign env fs x ↔ MakesF objects S sign env fs x)
  | .nil, must, env, x, he, hv, hg, hx => by simp [MakesF]
  | .cons vars e rest, must, env, x, he, hv, hg, hx => by
    simp only [FList.Local] at hg
    simp only [MakesF, FList.Local.makes ho hT hn hS sign rest must env x he hv hg.2.2 hx]
    refine or_congr ?_ Iff.rfl
    have ih := fun os (hos : ∀ o ∈ os, o ∈ objects') =>
      Eff.Local.makes ho hT hn hS sign e _ _ x (he.bind vars os hos) (fun n o h hnot => by
        simp only [List.mem_append, not_or] at hnot
        rw [Env.bind_other _ _ _ _ hnot.2] at h
        exact hv n o h hnot.1) hg.2.1 hx
    constructor
    · rintro ⟨os, hw, h⟩
      refine ⟨os, hw.old fun o ho' => ?_, (ih os hw.over).1 h⟩
      obtain ⟨p, hp, h1⟩ := bind_mem vars os env (List.nodup_append.1 hg.1).2.1 hw.length_eq o ho'
      obtain ⟨o', h2, h3⟩ := Eff.Local.must sign e _ _ x hg.2.1 h hx p.name (by simp [List.mem_map]; exact .inr ⟨p, hp, rfl⟩)
      rw [h1, Option.some.injEq] at h2
      subst h2
      exact old_of_name ho hn (hw.over o ho') h3
    · rintro ⟨os, hw, h⟩
      exact ⟨os, hw.more ho, (ih os (fun o h => ho o (hw.over o h))).2 h⟩
theorem CList.Local.makes (ho : ∀ o ∈ objects, o ∈ objects') (hT : ∀ p, IsType objects' p → IsType objects p)
    (hn : (objects'.map Obj.name).Nodup) (hS : AgreeAbout objects S S') (sign : Bool) : ∀ (cs : CList) (must : List Name) (env : Env)
      (x : Atom), env.Over objects' → (∀ n o, env n = some o → n ∉ must → o ∈ objects) → cs.Local objects must → x.About objects →
      (MakesC objects' S' sign env cs x ↔ MakesC objects S sign env cs x)
  | .nil, must, env, x, he, hv, hg, hx => by simp [MakesC]
  | .cons g e rest, must, env, x, he, hv, hg, hx => by
    simp only [CList.Local] at hg
    have h1 := Eff.Local.makes ho hT hn hS sign e must env x he hv hg.2.1 hx
    simp only [MakesC, CList.Local.makes ho hT hn hS sign rest must env x he hv hg.2.2 hx, h1]
    refine or_congr (and_congr_left fun h => hg.1.sat ho hT hS ?_) Iff.rfl
    intro n o hno
    by_cases hm : n ∈ must
    · obtain ⟨o', h2, h3⟩ := Eff.Local.must sign e must env x hg.2.1 h hx n hm
      rw [hno, Option.some.injEq] at h2
      subst h2
      exact old_of_name ho hn (he n _ hno) h3
    · exact hv n o hno hm
end

mutual
/-- Other effects come from universal effects. -/
theorem Eff.Local.about (sign : Bool) : ∀ (e : Eff) (must : List Name) (env : Env) (x : Atom), env.Over objects →
    e.Local objects must → Makes objects' S' sign env e x → x.About objects ∨ e.Universal sign x.pred
  | .mk fs adds dels cs, must, env, x, he, hg, hm => by
    simp only [Eff.Local] at hg
    simp only [Makes] at hm
    rcases hm with h | ⟨-, pred, ts, os, hl, hd, rfl⟩ | ⟨-, pred, ts, os, hl, hd, rfl⟩ | h
    · exact .inr (by simp only [Eff.Universal]; exact .inl (touchesF_of_makes _ _ _ _ _ _ h))
    · exact .inl (about_map (denotes_over he hd (hg.2.1 pred ts hl).1) pred)
    · exact .inl (about_map (denotes_over he hd (hg.2.2.1 pred ts hl).1) pred)
    · exact (CList.Local.about sign cs must env x he hg.2.2.2 h).imp_right fun h => by simp only [Eff.Universal]; exact .inr h
theorem CList.Local.about (sign : Bool) : ∀ (cs : CList) (must : List Name) (env : Env) (x : Atom), env.Over objects →
    cs.Local objects must → MakesC objects' S' sign env cs x → x.About objects ∨ cs.Universal sign x.pred
  | .nil, must, env, x, he, hg, hm => by simp [MakesC] at hm
  | .cons g e rest, must, env, x, he, hg, hm => by
    simp only [CList.Local] at hg
    simp only [MakesC] at hm
    simp only [CList.Universal]
    rcases hm with ⟨-, h⟩ | h
    · exact (Eff.Local.about sign e must env x he hg.2.1 h).imp_right .inl
    · exact (CList.Local.about sign rest must env x he hg.2.2 h).imp_right .inr
end

mutual
theorem Eff.Local.about_old (sign : Bool) : ∀ (e : Eff) (must : List Name) (env : Env) (x : Atom), env.Over objects →
    e.Local objects must → Makes objects S sign env e x → x.About objects
  | .mk fs adds dels cs, must, env, x, he, hg, hm => by
    simp only [Eff.Local] at hg
    simp only [Makes] at hm
    rcases hm with h | ⟨-, pred, ts, os, hl, hd, rfl⟩ | ⟨-, pred, ts, os, hl, hd, rfl⟩ | h
    · exact FList.Local.about_old sign fs must env x he hg.1 h
    · exact about_map (denotes_over he hd (hg.2.1 pred ts hl).1) pred
    · exact about_map (denotes_over he hd (hg.2.2.1 pred ts hl).1) pred
    · exact CList.Local.about_old sign cs must env x he hg.2.2.2 h
theorem FList.Local.about_old (sign : Bool) : ∀ (fs : FList) (must : List Name) (env : Env) (x : Atom), env.Over objects →
    fs.Local objects must → MakesF objects S sign env fs x → x.About objects
  | .nil, must, env, x, he, hg, hm => by simp [MakesF] at hm
  | .cons vars e rest, must, env, x, he, hg, hm => by
    simp only [FList.Local] at hg
    simp only [MakesF] at hm
    rcases hm with ⟨os, hw, h⟩ | h
    · exact Eff.Local.about_old sign e _ _ x (he.bind vars os hw.over) hg.2.1 h
    · exact FList.Local.about_old sign rest must env x he hg.2.2 h
theorem CList.Local.about_old (sign : Bool) : ∀ (cs : CList) (must : List Name) (env : Env) (x : Atom), env.Over objects →
    cs.Local objects must → MakesC objects S sign env cs x → x.About objects
  | .nil, must, env, x, he, hg, hm => by simp [MakesC] at hm
  | .cons g e rest, must, env, x, he, hg, hm => by
    simp only [CList.Local] at hg
    simp only [MakesC] at hm
    rcases hm with ⟨-, h⟩ | h
    · exact Eff.Local.about_old sign e must env x he hg.2.1 h
    · exact CList.Local.about_old sign rest must env x he hg.2.2 h
end

end

/-! ## Axioms -/

/-- The instance of an axiom whose context is about these objects is an instance over these objects. -/
theorem contextIs_more {objects objects' : List Obj} (ho : ∀ o ∈ objects, o ∈ objects') (hn : (objects'.map Obj.name).Nodup)
    {ax : Op} (hl : ax.Linear) {as : List Obj} {x : Atom} (hx : x.About objects) :
    ax.ContextIs objects' as x ↔ ax.ContextIs objects as x := by
  constructor
  · rintro ⟨hw, os, hd, rfl⟩
    refine ⟨?_, os, hd, rfl⟩
    have hin : ∀ a ∈ as, a ∈ objects := by
      intro a ha
      obtain ⟨p, hp, he⟩ := bind_mem ax.params as Env.none hl.nodup hw.length_eq a ha
      obtain ⟨v, hv, e⟩ := mem_varNames.1 (hl.covers p hp)
      obtain ⟨o, ho', h1⟩ := forall₂_partner hd _ hv
      have h1 : (Env.none.bind ax.params as) v.name = some o := h1
      rw [e, he] at h1
      obtain rfl := Option.some.inj h1
      obtain ⟨o', h2, h3⟩ := hx a.name (List.mem_map.2 ⟨a, ho', rfl⟩)
      have : o' = a := List.inj_on_of_nodup_map hn (ho o' h2) (WellTyped.over hw a ha) h3
      exact this ▸ h2
    exact WellTyped.old hw hin
  · rintro ⟨hw, h⟩
    exact ⟨hw.more ho, h⟩

section
variable {t t' : Ptree} {up up' : Name → List Name} {S S' : Atom → Prop}

theorem causes_more (h : MoreObjects t t') (ht : t.TypeChecked up) (ht' : t'.TypeChecked up') (hL : t.Local)
    (hS : AgreeAbout (t.constants ++ t.objects) S S') {op : Op} (hop : op ∈ t.ops) {args : List Obj}
    (hargs : ∀ o ∈ args, o ∈ t.constants ++ t.objects) (sign : Bool) (x : Atom) :
    (t.CausesIn S op args sign x → t'.CausesIn S' op args sign x) ∧
      (x.About (t.constants ++ t.objects) → t'.CausesIn S' op args sign x → t.CausesIn S op args sign x) := by
  have henv := fun (ax : Op) (as : List Obj) (hin : ∀ o ∈ as, o ∈ t.constants ++ t.objects) =>
    (Env.over_none (t.constants ++ t.objects)).bind ax.params as hin
  have hmk := fun (ax : Op) (ha : ax ∈ t.ops) (as : List Obj) (hin : ∀ o ∈ as, o ∈ t.constants ++ t.objects) (sg : Bool) (y : Atom)
      (hy : y.About (t.constants ++ t.objects)) =>
    Eff.Local.makes h.objects h.types ht'.names hS sg ax.eff [] (Env.none.bind ax.params as) y
      (fun n o hno => h.objects o (henv ax as hin n o hno)) (fun n o hno _ => henv ax as hin n o hno) (hL.eff ax ha) hy
  have his : ∀ sg (y : Atom), y.About (t.constants ++ t.objects) → (Is S' sg y ↔ Is S sg y) := fun sg y hy => by
    unfold Is; rw [hS y hy]
  have habout : ∀ sign x, t.CausesIn S op args sign x → x.About (t.constants ++ t.objects) := by
    intro sign x hx
    cases hx with
    | own hm => exact Eff.Local.about_old sign op.eff [] _ x (henv op args hargs) (hL.eff op hop) hm
    | triggered h1 _ _ _ h5 h6 => exact Eff.Local.about_old sign _ [] _ x (henv _ _ (WellTyped.over h5.1)) (hL.eff _ h1) h6
  constructor
  · intro hx
    induction hx with
    | @own sg y hm => exact .own ((hmk op hop args hargs _ _ (habout sg y (.own hm))).2 hm)
    | @triggered ax as y sg z h1 h2 h3 h4 h5 h6 ih =>
      have hy := habout _ _ h3
      exact .triggered (h.ops ▸ h1) h2 ih (fun hs => h4 ((his _ _ hy).1 hs))
        ((contextIs_more h.objects ht'.names ((ht.ops ax h1).axiom_ h2).2.2.1 hy).2 h5)
        ((hmk ax h1 as (WellTyped.over h5.1) sg z (habout sg z (.triggered h1 h2 h3 h4 h5 h6))).2 h6)
  · have key : ∀ sign x, t'.CausesIn S' op args sign x →
        (x.About (t.constants ++ t.objects) → t.CausesIn S op args sign x) ∧
          (x.About (t.constants ++ t.objects) ∨ ∃ op' ∈ t.ops, op'.eff.Universal sign x.pred) := by
      intro sign x hx
      induction hx with
      | @own sg y hm =>
        exact ⟨fun hy => .own ((hmk op hop args hargs _ _ hy).1 hm),
          (Eff.Local.about sg op.eff [] _ y (henv op args hargs) (hL.eff op hop) hm).imp_right fun hu => ⟨op, hop, hu⟩⟩
      | @triggered ax as y sg z h1 h2 _ h4 h5 h6 ih =>
        rw [h.ops] at h1
        have hy : y.About (t.constants ++ t.objects) := by
          rcases ih.2 with hy | ⟨op', ho', hu⟩
          · exact hy
          · obtain ⟨-, os, -, rfl⟩ := h5
            exact absurd hu (hL.universal op' ho' ax h1 h2)
        have h5 := (contextIs_more h.objects ht'.names ((ht.ops ax h1).axiom_ h2).2.2.1 hy).1 h5
        refine ⟨fun hz => .triggered h1 h2 (ih.1 hy) (fun hs => h4 ((his _ _ hy).2 hs)) h5
          ((hmk ax h1 as (WellTyped.over h5.1) sg z hz).1 h6), ?_⟩
        exact (Eff.Local.about sg ax.eff [] _ z (henv ax as (WellTyped.over h5.1)) (hL.eff ax h1) h6).imp_right
          fun hu => ⟨ax, h1, hu⟩
    exact fun hx hc => (key sign x hc).1 hx

/-! ## Rules -/

theorem drvAtom_more (h : MoreObjects t t') (hn : ((t'.constants ++ t'.objects).map Obj.name).Nodup) {d : Drv} {os : List Obj}
    (hw : WellTyped (t'.constants ++ t'.objects) d.params os) (hx : (d.atom os).About (t.constants ++ t.objects)) :
    WellTyped (t.constants ++ t.objects) d.params os := by
  refine hw.old fun a ha => ?_
  exact old_of_name h.objects hn (WellTyped.over hw a ha) (hx a.name (List.mem_map.2 ⟨a, ha, rfl⟩))

theorem isDerived_more (h : MoreObjects t t') (hn : ((t'.constants ++ t'.objects).map Obj.name).Nodup) {x : Atom}
    (hx : x.About (t.constants ++ t.objects)) :
    IsDerived (t'.constants ++ t'.objects) t'.drvs x ↔ IsDerived (t.constants ++ t.objects) t.drvs x := by
  rw [h.drvs]
  constructor
  · rintro ⟨d, hd, os, hw, rfl⟩
    exact ⟨d, hd, os, drvAtom_more h hn hw hx, rfl⟩
  · rintro ⟨d, hd, os, hw, rfl⟩
    exact ⟨d, hd, os, hw.more h.objects, rfl⟩

/-- Fixpoints with the same base atoms have the same atoms about the old objects. -/
theorem fixpoint_more (h : MoreObjects t t') (hL : t.Local)
    {rank : Name → Nat} (ha : Acyclic rank t.drvs) (hS : Fixpoint (t.constants ++ t.objects) t.drvs S)
    (hS' : Fixpoint (t'.constants ++ t'.objects) t'.drvs S')
    (hb : ∀ x : Atom, x.About (t.constants ++ t.objects) → ¬ IsDerived (t.constants ++ t.objects) t.drvs x → (S x ↔ S' x)) :
    AgreeAbout (t.constants ++ t.objects) S S' := by
  classical
  have key : ∀ (n : Nat) (x : Atom), rank x.pred < n → x.About (t.constants ++ t.objects) → (S x ↔ S' x) := by
    intro n
    induction n with
    | zero => intro x hx; omega
    | succ n ih =>
      intro x hx hab
      by_cases hd : IsDerived (t.constants ++ t.objects) t.drvs x
      · obtain ⟨d, hd, os, hw, rfl⟩ := hd
        have hr : rank d.head < n + 1 := hx
        rw [hS d hd os hw, hS' d (h.drvs ▸ hd) os (hw.more h.objects)]
        unfold Drv.Holds
        let M : Atom → Prop := fun y => if ∃ k, d.body.Mentions y.pred k then S' y else S y
        have h1 : Sat (t'.constants ++ t'.objects) S' (Env.none.bind d.params os) d.body ↔
            Sat (t'.constants ++ t'.objects) M (Env.none.bind d.params os) d.body :=
          sat_congr fun y hy => by simp only [M, if_pos hy]
        rw [h1]
        refine ((hL.rules d hd).sat h.objects h.types ?_ ((Env.over_none _).bind d.params os (WellTyped.over hw))).symm
        intro y hy
        simp only [M]
        split
        · rename_i hm
          obtain ⟨k, hm⟩ := hm
          by_cases hdy : IsDerived (t.constants ++ t.objects) t.drvs y
          · have hdy' := hdy
            obtain ⟨d', hd', os', -, rfl⟩ := hdy'
            have := ha d hd _ k hm ⟨d', hd', rfl⟩
            exact ih _ (by omega) hy
          · exact hb y hy hdy
        · rfl
      · exact hb x hab hd
  exact fun x hx => key _ x (Nat.lt_succ_self _) hx

end

end Symbolic
