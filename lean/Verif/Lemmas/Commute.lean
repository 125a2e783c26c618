import Verif.Lemmas.KeepAxioms
import Verif.Spec.Commute

/-!
# Lemmas: what two actions cause one after the other
-/

namespace Symbolic

section
variable {t : Ptree} {S S' : Atom → Prop} {so so' : Bool → Atom → Prop} {op₁ op₂ : Op} {args₁ args₂ : List Obj}

/-- The second action causes after the first what it causes before it, up to what the first one causes. -/
theorem causes_after (h2 : ∀ y : Atom, op₂.eff.Reads y.pred → (S y ↔ S' y))
    (hax : ∀ ax ∈ t.ops, ax.isAxiom = true → ∀ y : Atom, ax.eff.Reads y.pred → (S y ↔ S' y))
    (hso : ∀ sign y, t.Causes S so op₁ args₁ sign y → so' sign y)
    (hback : ∀ sign y, so' sign y → so sign y ∨ t.Causes S so op₁ args₁ sign y)
    (hkeep : ∀ sign y, so sign y → so' sign y ∨ t.Causes S so op₁ args₁ (!sign) y)
    (hno : ∀ sign y, t.Causes S so op₁ args₁ (!sign) y → ¬ t.Causes S so op₂ args₂ sign y) (sign : Bool) (x : Atom) :
    Either (t.Causes S so op₁ args₁) (t.Causes S' so' op₂ args₂) sign x ↔
      Either (t.Causes S so op₁ args₁) (t.Causes S so op₂ args₂) sign x := by
  constructor
  · rintro (h | h)
    · exact .inl h
    induction h with
    | own h => exact .inr (.own ((makes_agree op₂.eff _ _ h2).2 h))
    | triggered ho ha _ hn hc hm ih =>
      rcases ih with ih | ih
      · exact absurd (hso _ _ ih) hn
      · refine .inr (.triggered ho ha ih (fun hs => ?_) hc ((makes_agree _ _ _ (hax _ ho ha)).2 hm))
        rcases hkeep _ _ hs with h | h
        · exact hn h
        · exact hno _ _ h ih
  · rintro (h | h)
    · exact .inl h
    induction h with
    | own h => exact .inr (.own ((makes_agree op₂.eff _ _ h2).1 h))
    | @triggered ax as y sign z ho ha _ hn hc hm ih =>
      have first : t.Causes S so op₁ args₁ ax.ctxSign y → Either (t.Causes S so op₁ args₁) (t.Causes S' so' op₂ args₂) sign z :=
        fun h => .inl (.triggered ho ha h hn hc hm)
      rcases ih with ih | ih
      · exact first ih
      · by_cases hs : so' ax.ctxSign y
        · rcases hback _ _ hs with h | h
          · exact absurd h hn
          · exact first h
        · exact .inr (.triggered ho ha ih hs hc ((makes_agree _ _ _ (hax _ ho ha)).1 hm))

/-- What is caused depends only on atoms of predicates `U`, if all effects and conditions are about such. -/
theorem causes_congr {U : Name → Prop} (hU : ∀ op ∈ t.ops, ∀ p, (∃ sign, op.eff.Touches sign p) ∨ op.eff.Reads p → U p)
    (ho : op₁ ∈ t.ops) (hS : ∀ y : Atom, U y.pred → (S y ↔ S' y)) (hso : ∀ sign (y : Atom), U y.pred → (so sign y ↔ so' sign y))
    {sign : Bool} {x : Atom} (h : t.Causes S so op₁ args₁ sign x) : t.Causes S' so' op₁ args₁ sign x ∧ U x.pred := by
  have agree : ∀ op ∈ t.ops, ∀ y : Atom, op.eff.Reads y.pred → (S y ↔ S' y) := fun op ho y hy => hS y (hU op ho _ (.inr hy))
  induction h with
  | own h => exact ⟨.own ((makes_agree _ _ _ (agree _ ho)).1 h), hU _ ho _ (.inl ⟨_, touches_of_makes _ _ _ _ _ _ h⟩)⟩
  | triggered hax ha _ hn hc hm ih =>
    exact ⟨.triggered hax ha ih.1 (fun h => hn ((hso _ _ ih.2).2 h)) hc ((makes_agree _ _ _ (agree _ hax)).1 hm),
      hU _ hax _ (.inl ⟨_, touches_of_makes _ _ _ _ _ _ hm⟩)⟩

end

mutual
/-- The truth value of a formula depends only on the atoms it is about. -/
theorem sat_about {objects : List Obj} {S T : Atom → Prop} : ∀ (g : Goal) (env : Env),
    (∀ x, g.About objects env x → (S x ↔ T x)) → (Sat objects S env g ↔ Sat objects T env g)
  | .atom pred ts, env, h => by
    simp only [Goal.About] at h
    simp only [Sat, SatAtom]
    exact or_congr_right (or_congr_right (and_congr_right fun _ => and_congr_right fun _ => exists_congr fun os =>
      and_congr_right fun hos => h _ ⟨os, hos, rfl⟩))
  | .conj gs, env, h => by simp only [Sat]; exact satAll_about gs env (by simpa only [Goal.About] using h)
  | .disj gs, env, h => by simp only [Sat]; exact satAny_about gs env (by simpa only [Goal.About] using h)
  | .neg g, env, h => by simp only [Sat]; exact not_congr (sat_about g env (by simpa only [Goal.About] using h))
  | .all vars g, env, h => by
    simp only [Sat]
    exact forall_congr' fun os => forall_congr' fun hos => sat_about g _ fun x hx => h x (by
      simp only [Goal.About]; exact ⟨os, hos, hx⟩)
  | .ex vars g, env, h => by
    simp only [Sat]
    exact exists_congr fun os => and_congr_right fun hos => sat_about g _ fun x hx => h x (by
      simp only [Goal.About]; exact ⟨os, hos, hx⟩)
  | .other, _, _ => by simp only [Sat]
theorem satAll_about {objects : List Obj} {S T : Atom → Prop} : ∀ (gs : List Goal) (env : Env),
    (∀ x, Goal.AboutL objects env gs x → (S x ↔ T x)) → (SatAll objects S env gs ↔ SatAll objects T env gs)
  | [], _, _ => by simp only [SatAll]
  | g :: gs, env, h => by
    simp only [Goal.AboutL] at h
    simp only [SatAll]
    rw [sat_about g env fun x hx => h x (.inl hx), satAll_about gs env fun x hx => h x (.inr hx)]
theorem satAny_about {objects : List Obj} {S T : Atom → Prop} : ∀ (gs : List Goal) (env : Env),
    (∀ x, Goal.AboutL objects env gs x → (S x ↔ T x)) → (SatAny objects S env gs ↔ SatAny objects T env gs)
  | [], _, _ => by simp only [SatAny]
  | g :: gs, env, h => by
    simp only [Goal.AboutL] at h
    simp only [SatAny]
    rw [sat_about g env fun x hx => h x (.inl hx), satAny_about gs env fun x hx => h x (.inr hx)]
end

/-- Swapping the actions. -/
theorem Ptree.Independent.symm {t : Ptree} {op₁ op₂ : Op} {W V : Bool → Atom → Prop} (h : t.Independent op₁ op₂ W V) :
    t.Independent op₂ op₁ V W where
  free x h1 h2 := h.free x h1.symm h2.symm
  read₁ sign x hx := h.read₂ sign x hx.symm
  read₂ sign x hx := h.read₁ sign x hx.symm

section
variable {t : Ptree} {S : Atom → Prop} {W V : Bool → Atom → Prop} {op₁ op₂ : Op}

/-- Atoms that are not caused stay as they are. -/
theorem after_same {x : Atom} (h : ∀ sign, ¬ W sign x) : S x ↔ After S W x :=
  ⟨fun hx => .inr ⟨hx, h _⟩, fun hx => (hx.resolve_left (h _)).1⟩

theorem after_is (hno : NoConflict W) {sign : Bool} {x : Atom} (h : W sign x) : Is (After S W) sign x := by
  cases sign
  · simp only [Is, After, Bool.false_eq_true, iff_false, not_or, not_and, not_not]
    exact ⟨fun h' => hno x h' h, fun _ => h⟩
  · simp only [Is, After, iff_true]
    exact .inl h

theorem after_back {sign : Bool} {x : Atom} (h : Is (After S W) sign x) : Is S sign x ∨ W sign x := by
  cases sign
  · simp only [Is, After, Bool.false_eq_true, iff_false, not_or, not_and, not_not] at h ⊢
    by_cases hx : S x
    · exact .inr (h.2 hx)
    · exact .inl hx
  · simp only [Is, After, iff_true] at h ⊢
    exact h.elim .inr fun h => .inl h.1

theorem after_keep {sign : Bool} {x : Atom} (h : Is S sign x) : Is (After S W) sign x ∨ W (!sign) x := by
  by_cases hw : W (!sign) x
  · exact .inr hw
  · refine .inl ?_
    cases sign
    · simp only [Is, After, Bool.false_eq_true, iff_false, not_or, not_and, Bool.not_false] at h hw ⊢
      exact ⟨hw, fun hx => absurd hx h⟩
    · simp only [Is, After, iff_true, Bool.not_true] at h hw ⊢
      exact .inr ⟨h, hw⟩

theorem prop_after {a w w' v v' u u' : Prop} (h1 : w ∨ u ↔ w ∨ v) (h2 : w' ∨ u' ↔ w' ∨ v') (h3 : w ∨ v → ¬ (w' ∨ v')) :
    u ∨ ((w ∨ (a ∧ ¬ w')) ∧ ¬ u') ↔ (w ∨ v) ∨ (a ∧ ¬ (w' ∨ v')) := by
  tauto

/-- One action after the other: what both cause. -/
theorem after_after (hno : NoConflict (Either W V)) {V' : Bool → Atom → Prop}
    (h : ∀ sign x, Either W V' sign x ↔ Either W V sign x) (x : Atom) : After (After S W) V' x ↔ After S (Either W V) x :=
  prop_after (h true x) (h false x) (hno x)

end

section
variable {t : Ptree} {T F T' F' : Atom → Prop} {W : Bool → Atom → Prop}

/-- What is known after an action that causes `W`. -/
structure KnownAfter (T F T' F' : Atom → Prop) (W : Bool → Atom → Prop) : Prop where
  before : ∀ x, T x → ¬ F x
  after : ∀ x, T' x → ¬ F' x
  pos : ∀ x, T' x ↔ W true x ∨ (T x ∧ ¬ W false x)
  neg : ∀ x, F' x ↔ W false x ∨ (F x ∧ ¬ W true x)

namespace KnownAfter

theorem same (h : KnownAfter T F T' F' W) {x : Atom} (hx : ∀ sign, ¬ W sign x) : T x ↔ T' x :=
  ⟨fun hT => (h.pos x).2 (.inr ⟨hT, hx _⟩), fun hT => (((h.pos x).1 hT).resolve_left (hx _)).1⟩

theorem known (h : KnownAfter T F T' F' W) {sign : Bool} {x : Atom} (hx : W sign x) : Known T' F' sign x := by
  cases sign
  · have : F' x := (h.neg x).2 (.inl hx)
    exact ⟨this, fun hT => h.after x hT this⟩
  · have : T' x := (h.pos x).2 (.inl hx)
    exact ⟨this, h.after x this⟩

theorem back (h : KnownAfter T F T' F' W) {sign : Bool} {x : Atom} (hx : Known T' F' sign x) : Known T F sign x ∨ W sign x := by
  cases sign
  · rcases (h.neg x).1 hx.1 with hw | hw
    · exact .inr hw
    · exact .inl ⟨hw.1, fun hT => h.before x hT hw.1⟩
  · rcases (h.pos x).1 hx.1 with hw | hw
    · exact .inr hw
    · exact .inl ⟨hw.1, h.before x hw.1⟩

theorem keep (h : KnownAfter T F T' F' W) {sign : Bool} {x : Atom} (hx : Known T F sign x) :
    Known T' F' sign x ∨ W (!sign) x := by
  by_cases hw : W (!sign) x
  · exact .inr hw
  · refine .inl ?_
    cases sign
    · have : F' x := (h.neg x).2 (.inr ⟨hx.1, hw⟩)
      exact ⟨this, fun hT => h.after x hT this⟩
    · have : T' x := (h.pos x).2 (.inr ⟨hx.1, hw⟩)
      exact ⟨this, h.after x this⟩

/-- What conditions mention stays known if it is not caused. -/
theorem knows (h : KnownAfter T F T' F' W) {op : Op} (hr : t.NotRead op W)
    (hk : Knows (t.constants ++ t.objects) T F (t.MayAsk op)) : Knows (t.constants ++ t.objects) T' F' (t.MayAsk op) := by
  intro pred os hq hm
  have hq' := hq
  obtain ⟨ax, hax, ha, hr'⟩ := hq
  have n1 : ∀ sign, ¬ W sign ⟨pred, os.map Obj.name⟩ := by
    intro sign hc
    rcases ha with rfl | ha
    · exact (hr sign _ hc).1 (Eff.asks_reads hr')
    · exact (hr sign _ hc).2 ax hax ha (Eff.asks_reads hr')
  exact (hk pred os hq' hm).imp (fun h' => (h.pos _).2 (.inr ⟨h', n1 _⟩)) (fun h' => (h.neg _).2 (.inr ⟨h', n1 _⟩))

end KnownAfter

end

end Symbolic
