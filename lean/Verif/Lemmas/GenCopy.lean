import Verif.Spec.GenCopy
import Verif.Lemmas.Res

/-!
# Lemmas: generators point into their own buffers
-/

namespace Symbolic
namespace GenMem

/-- `x` has the value `v`: its pointers are those to the elements of its own buffer, which holds `v`. -/
structure Owned (bufs : List (Option (List (List Obj)))) (x : ParamGen) (v : List (List Obj)) : Prop where
  size : x.size = Comb.size v
  full : [] ∉ v
  place : (x.types = none ∧ v = [] ∧ x.options = []) ∨
    ∃ b, x.types = some b ∧ bufs[b]? = some (some v) ∧ x.options = (List.range v.length).map fun i => (b, i)

/-- A generator and its value. -/
def Holds (bufs : List (Option (List (List Obj)))) : GenVal → Option ParamGen → Prop
  | .val v, some x => Owned bufs x v
  | .moved, some x => x.types = none
  | .dead, none => True
  | _, _ => False

/-- No two generators share a buffer. -/
def Apart (gens : List (Option ParamGen)) : Prop :=
  ∀ (g g' b : Nat) (x x' : ParamGen), gens[g]? = some (some x) → gens[g']? = some (some x') → x.types = some b →
    x'.types = some b → g = g'

/-- The memory and the values. -/
structure Rel (m : GenMem) (s : GenVals) : Prop where
  len : s.length = m.gens.length
  holds : ∀ (g : Nat) (gv : GenVal) (og : Option ParamGen), s[g]? = some gv → m.gens[g]? = some og → Holds m.bufs gv og
  apart : Apart m.gens

variable {bufs bufs' : List (Option (List (List Obj)))}

theorem Holds.live {gv : GenVal} {x : ParamGen} {b : Nat} (h : Holds bufs gv (some x)) (hb : x.types = some b) :
    b < bufs.length := by
  cases gv with
  | val v =>
    rcases h.place with ⟨h1, _⟩ | ⟨b', h1, h2, _⟩
    · rw [h1] at hb; cases hb
    · rw [h1] at hb
      cases hb
      exact (List.getElem?_eq_some_iff.1 h2).1
  | moved =>
    simp only [Holds] at h
    rw [h] at hb; cases hb
  | dead => exact h.elim

/-- Only the own buffer matters. -/
theorem Holds.mono {gv : GenVal} {og : Option ParamGen} (h : Holds bufs gv og)
    (hb : ∀ x b, og = some x → x.types = some b → bufs'[b]? = bufs[b]?) : Holds bufs' gv og := by
  cases gv with
  | val v =>
    cases og with
    | none => exact h
    | some x =>
      refine ⟨h.size, h.full, ?_⟩
      rcases h.place with h1 | ⟨b, h1, h2, h3⟩
      · exact .inl h1
      · exact .inr ⟨b, h1, by rw [hb x b rfl h1, h2], h3⟩
  | moved => cases og <;> exact h
  | dead => cases og <;> exact h

theorem any_isEmpty_iff (v : List (List Obj)) : v.any List.isEmpty = true ↔ [] ∈ v := by
  rw [List.any_eq_true]
  constructor
  · rintro ⟨l, h1, h2⟩
    rwa [List.isEmpty_iff.1 h2] at h1
  · exact fun h => ⟨[], h, rfl⟩

theorem build_ok {v : List (List Obj)} (h : [] ∉ v) (t : Option Nat) : ∃ x, build t v = .ok x ∧ x.types = t ∧
    x.size = Comb.size v ∧ x.options = (match t with | none => [] | some b => (List.range v.length).map fun i => (b, i)) := by
  have hn : ¬ (v.any List.isEmpty = true) := by rw [any_isEmpty_iff]; exact h
  cases t with
  | none => exact ⟨_, by rw [build, if_neg hn], rfl, rfl, rfl⟩
  | some b => exact ⟨_, by rw [build, if_neg hn], rfl, rfl, rfl⟩

theorem gen_of_alive {m : GenMem} {s : GenVals} (h : Rel m s) {g : Nat} (ha : s.Alive g) :
    ∃ gv x, s[g]? = some gv ∧ m.gens[g]? = some (some x) ∧ m.gen g = .ok x ∧ Holds m.bufs gv (some x) ∧
      ∃ v, m.own x = .ok v ∧ [] ∉ v ∧ gv.copied = .val v ∧ (x.types = none → v = []) ∧
        ∀ b, x.types = some b → m.bufs[b]? = some (some v) := by
  obtain ⟨gv, h1, h2⟩ := ha
  have hl : g < m.gens.length := by
    rw [← h.len]
    exact (List.getElem?_eq_some_iff.1 h1).1
  have h3 : m.gens[g]? = some m.gens[g] := List.getElem?_eq_getElem hl
  have h4 := h.holds g gv _ h1 h3
  cases h5 : m.gens[g] with
  | none =>
    rw [h5] at h4
    cases gv <;> simp [Holds] at h4 h2
  | some x =>
    rw [h5] at h3 h4
    refine ⟨gv, x, h1, h3, by rw [gen, h3], h4, ?_⟩
    cases gv with
    | val v =>
      refine ⟨v, ?_, h4.full, rfl, ?_, ?_⟩
      · rcases h4.place with ⟨p1, p2, _⟩ | ⟨b, p1, p2, _⟩
        · rw [own, p1, p2]
        · rw [own, p1]
          simp only [buf, p2]
      · intro hn
        rcases h4.place with ⟨p1, p2, _⟩ | ⟨b, p1, p2, _⟩
        · exact p2
        · rw [hn] at p1; cases p1
      · intro b hb
        rcases h4.place with ⟨p1, p2, _⟩ | ⟨b', p1, p2, _⟩
        · rw [p1] at hb; cases hb
        · rw [p1] at hb; cases hb; exact p2
    | moved =>
      simp only [Holds] at h4
      exact ⟨[], by rw [own, h4], by simp, rfl, fun _ => rfl, fun b hb => by rw [h4] at hb; cases hb⟩
    | dead => exact h4.elim

theorem owned_of_build {v : List (List Obj)} {x : ParamGen} {t : Option Nat} (hf : [] ∉ v) (h1 : x.types = t)
    (h2 : x.size = Comb.size v)
    (h3 : x.options = (match (generalizing := false) t with | none => [] | some b => (List.range v.length).map fun i => (b, i)))
    (hn : t = none → v = []) (hb : ∀ b, t = some b → bufs[b]? = some (some v)) : Owned bufs x v := by
  refine ⟨h2, hf, ?_⟩
  cases t with
  | none => exact .inl ⟨h1, hn rfl, h3⟩
  | some b => exact .inr ⟨b, h1, hb b rfl, h3⟩

/-- Buffers of others survive a release. -/
theorem release_bufs {m : GenMem} {s : GenVals} (h : Rel m s) {g : Nat} {x : ParamGen} (hx : m.gens[g]? = some (some x))
    {g' b : Nat} {x' : ParamGen} (hg : g' ≠ g) (hx' : m.gens[g']? = some (some x')) (hb : x'.types = some b) :
    (m.release x).bufs[b]? = m.bufs[b]? := by
  unfold release
  split
  · rfl
  · rename_i c hc
    have : c ≠ b := by
      rintro rfl
      exact hg (h.apart g' g c x' x hx' hx hb hc)
    simp [this]

theorem release_gens (m : GenMem) (x : ParamGen) : (m.release x).gens = m.gens := by
  unfold release
  split <;> rfl

theorem release_length (m : GenMem) (x : ParamGen) : (m.release x).bufs.length = m.bufs.length := by
  unfold release
  split <;> simp

/-- One generator changed, the buffers of the others kept. -/
theorem set_rel {m : GenMem} {s : GenVals} (h : Rel m s) {g : Nat} {gv : GenVal} {og : Option ParamGen}
    (hk : ∀ (g' : Nat) (x' : ParamGen) (b : Nat), g' ≠ g → m.gens[g']? = some (some x') → x'.types = some b →
      bufs'[b]? = m.bufs[b]?)
    (hh : Holds bufs' gv og)
    (ha : ∀ (x : ParamGen) (b : Nat), og = some x → x.types = some b → ∀ (g' : Nat) (x' : ParamGen), g' ≠ g →
      m.gens[g']? = some (some x') → x'.types ≠ some b) : Rel ⟨bufs', m.gens.set g og⟩ (s.set g gv) := by
  refine ⟨by simp [h.len], ?_, ?_⟩
  · intro g' gv' og' hs hg
    dsimp only at hg ⊢
    by_cases he : g' = g
    · subst he
      have hl := (List.getElem?_eq_some_iff.1 hg).1
      rw [List.length_set] at hl
      rw [List.getElem?_set_self hl] at hg
      rw [List.getElem?_set_self (by rw [h.len]; exact hl)] at hs
      cases hs; cases hg
      exact hh
    · rw [List.getElem?_set_ne (Ne.symm he)] at hs hg
      refine (h.holds g' gv' og' hs hg).mono ?_
      rintro x b rfl hb
      exact hk g' x b he hg hb
  · intro g1 g2 b x1 x2 h1 h2 hb1 hb2
    dsimp only at h1 h2
    have new : ∀ (x : ParamGen), (m.gens.set g og)[g]? = some (some x) → og = some x := by
      intro x hx
      have hl := (List.getElem?_eq_some_iff.1 hx).1
      rw [List.length_set] at hl
      rw [List.getElem?_set_self hl] at hx
      cases hx
      rfl
    by_cases e1 : g1 = g
    · by_cases e2 : g2 = g
      · rw [e1, e2]
      · subst e1
        rw [List.getElem?_set_ne (Ne.symm e2)] at h2
        exact absurd hb2 (ha x1 b (new _ h1) hb1 g2 x2 e2 h2)
    · by_cases e2 : g2 = g
      · subst e2
        rw [List.getElem?_set_ne (Ne.symm e1)] at h1
        exact absurd hb1 (ha x2 b (new _ h2) hb2 g1 x1 e1 h1)
      · rw [List.getElem?_set_ne (Ne.symm e1)] at h1
        rw [List.getElem?_set_ne (Ne.symm e2)] at h2
        exact h.apart g1 g2 b x1 x2 h1 h2 hb1 hb2

/-- One generator added, the buffers of the others kept. -/
theorem push_rel {m : GenMem} {s : GenVals} (h : Rel m s) {gv : GenVal} {og : Option ParamGen}
    (hk : ∀ (g' : Nat) (x' : ParamGen) (b : Nat), m.gens[g']? = some (some x') → x'.types = some b →
      bufs'[b]? = m.bufs[b]?)
    (hh : Holds bufs' gv og)
    (ha : ∀ (x : ParamGen) (b : Nat), og = some x → x.types = some b → ∀ (g' : Nat) (x' : ParamGen),
      m.gens[g']? = some (some x') → x'.types ≠ some b) : Rel ⟨bufs', m.gens ++ [og]⟩ (s ++ [gv]) := by
  have split : ∀ (g : Nat) (o : Option ParamGen), (m.gens ++ [og])[g]? = some o →
      m.gens[g]? = some o ∨ (g = m.gens.length ∧ o = og) := by
    intro g o hg
    by_cases hl : g < m.gens.length
    · rw [List.getElem?_append_left hl] at hg
      exact .inl hg
    · have hg' := hg
      rw [List.getElem?_append_right (by omega)] at hg
      have hz : g - m.gens.length = 0 := by
        have := (List.getElem?_eq_some_iff.1 hg).1
        simpa using this
      rw [hz] at hg
      cases hg
      exact .inr ⟨by omega, rfl⟩
  refine ⟨by simp [h.len], ?_, ?_⟩
  · intro g gv' og' hs hg
    dsimp only at hg ⊢
    rcases split g og' hg with h1 | ⟨h1, h2⟩
    · have hl := (List.getElem?_eq_some_iff.1 h1).1
      rw [List.getElem?_append_left (by rw [h.len]; exact hl)] at hs
      refine (h.holds g gv' og' hs h1).mono ?_
      rintro x b rfl hb
      exact hk g x b h1 hb
    · rw [h1, ← h.len, List.getElem?_append_right (Nat.le_refl _), Nat.sub_self] at hs
      cases hs
      rw [h2]
      exact hh
  · intro g1 g2 b x1 x2 h1 h2 hb1 hb2
    rcases split g1 _ h1 with e1 | ⟨e1, o1⟩ <;> rcases split g2 _ h2 with e2 | ⟨e2, o2⟩
    · exact h.apart g1 g2 b x1 x2 e1 e2 hb1 hb2
    · exact absurd hb1 (ha x2 b o2.symm hb2 g1 x1 e1)
    · exact absurd hb2 (ha x1 b o1.symm hb1 g2 x2 e2)
    · rw [e1, e2]

theorem Rel.live {m : GenMem} {s : GenVals} (h : Rel m s) {g b : Nat} {x : ParamGen} (hg : m.gens[g]? = some (some x))
    (hb : x.types = some b) : b < m.bufs.length := by
  have hl : g < s.length := by
    rw [h.len]
    exact (List.getElem?_eq_some_iff.1 hg).1
  exact (h.holds g _ _ (List.getElem?_eq_getElem hl) hg).live hb

/-- A new generator with its own new buffer. -/
theorem create_rel {m : GenMem} {s : GenVals} (h : Rel m s) {v : List (List Obj)} (hf : [] ∉ v) :
    ∃ m', m.create v = .ok m' ∧ Rel m' (s ++ [.val v]) := by
  obtain ⟨x, hx, h1, h2, h3⟩ := build_ok hf (some m.bufs.length)
  refine ⟨_, by simp only [create, hx, Res.bind_ok]; rfl, push_rel h ?_ ?_ ?_⟩
  · intro g x b hg hb
    exact List.getElem?_append_left (h.live hg hb)
  · exact owned_of_build hf h1 h2 h3 (by simp) (by
      intro b hb
      cases hb
      simp)
  · rintro y b hy hb g x' hg hb'
    cases hy
    rw [h1] at hb
    cases hb
    exact Nat.lt_irrefl _ (h.live hg hb')

/-- Every legal operation is defined, and has its effect on values. -/
theorem step_rel {m : GenMem} {s : GenVals} (h : Rel m s) {op : GenOp} (hl : s.Legal op) :
    ∃ m', m.step op = .ok m' ∧ Rel m' (s.step op) := by
  cases op with
  | make v => exact create_rel h hl
  | copy g =>
    obtain ⟨gv, x, h1, h2, h3, h4, v, h5, h6, h7, h8⟩ := gen_of_alive h hl
    simp only [step, h3, h5, Res.bind_ok, GenVals.step, h1, h7]
    exact create_rel h h6
  | move g =>
    obtain ⟨gv, x, h1, h2, h3, h4, v, h5, h6, h7, h8, h9⟩ := gen_of_alive h hl
    obtain ⟨y, hy, e1, e2, e3⟩ := build_ok h6 x.types
    simp only [step, h3, h5, hy, Res.bind_ok, GenVals.step, h1, h7]
    refine ⟨_, rfl, ?_⟩
    have hr : Rel ⟨m.bufs, m.gens.set g (some { x with types := none })⟩ (s.set g .moved) :=
      set_rel h (fun _ _ _ _ _ _ => rfl) rfl (by rintro y b hy hb; cases hy; cases hb)
    refine push_rel hr (fun _ _ _ _ _ => rfl) (owned_of_build h6 e1 e2 e3 h8 h9) ?_
    rintro z b hz hb g' x' hg' hb'
    cases hz
    rw [e1] at hb
    dsimp only at hg'
    by_cases he : g' = g
    · subst he
      rw [List.getElem?_set_self (List.getElem?_eq_some_iff.1 h2).1] at hg'
      cases hg'
      cases hb'
    · rw [List.getElem?_set_ne (Ne.symm he)] at hg'
      exact he (h.apart g' g b x' x hg' h2 hb' hb)
  | assign dst src =>
    obtain ⟨gx, x, x1, x2, x3, x4, _⟩ := gen_of_alive h hl.1
    obtain ⟨gy, y, y1, y2, y3, y4, v, y5, y6, y7, y8, y9⟩ := gen_of_alive h hl.2
    simp only [step, x3, y3, Res.bind_ok, GenVals.step, y1]
    split
    · exact ⟨m, rfl, h⟩
    · rename_i hne
      obtain ⟨z, hz, e1, e2, e3⟩ := build_ok y6 (some (m.release x).bufs.length)
      simp only [y5, hz, Res.bind_ok, y7, release_gens]
      refine ⟨_, rfl, set_rel h ?_ (owned_of_build y6 e1 e2 e3 (by simp) ?_) ?_⟩
      · intro g' x' b hg hx' hb
        rw [List.getElem?_append_left (by rw [release_length]; exact h.live hx' hb)]
        exact release_bufs h x2 hg hx' hb
      · intro b hb
        cases hb
        simp
      · rintro z' b hz' hb g' x' hg hx' hb'
        cases hz'
        rw [e1, release_length] at hb
        cases hb
        exact Nat.lt_irrefl _ (h.live hx' hb')
  | moveAssign dst src =>
    obtain ⟨gx, x, x1, x2, x3, x4, _⟩ := gen_of_alive h hl.1
    obtain ⟨gy, y, y1, y2, y3, y4, v, y5, y6, y7, y8, y9⟩ := gen_of_alive h hl.2
    simp only [step, x3, y3, Res.bind_ok, GenVals.step, y1]
    split
    · obtain ⟨z, hz, e1, e2, e3⟩ := build_ok (v := []) (by simp) none
      simp only [hz, Res.bind_ok, release_gens]
      refine ⟨_, rfl, set_rel h (fun g' x' b hg hx' hb => release_bufs h x2 hg hx' hb) e1 ?_⟩
      rintro z' b hz' hb
      cases hz'
      rw [e1] at hb
      cases hb
    · rename_i hne
      obtain ⟨z, hz, e1, e2, e3⟩ := build_ok y6 y.types
      simp only [y5, hz, Res.bind_ok, y7, release_gens]
      have hr : Rel ⟨m.bufs, m.gens.set src (some { y with types := none })⟩ (s.set src .moved) :=
        set_rel h (fun _ _ _ _ _ _ => rfl) rfl (by rintro y b hy hb; cases hy; cases hb)
      have others : ∀ (g' : Nat) (x' : ParamGen) (b : Nat),
          (m.gens.set src (some { y with types := none }))[g']? = some (some x') → x'.types = some b →
            g' ≠ src ∧ m.gens[g']? = some (some x') := by
        intro g' x' b hg' hb
        by_cases he : g' = src
        · subst he
          rw [List.getElem?_set_self (List.getElem?_eq_some_iff.1 y2).1] at hg'
          cases hg'
          cases hb
        · rw [List.getElem?_set_ne (Ne.symm he)] at hg'
          exact ⟨he, hg'⟩
      refine ⟨_, rfl, set_rel hr ?_ (owned_of_build y6 e1 e2 e3 y8 ?_) ?_⟩
      · intro g' x' b hg hx' hb
        exact release_bufs h x2 hg (others g' x' b hx' hb).2 hb
      · intro b hb
        rw [release_bufs h x2 (Ne.symm hne) y2 hb]
        exact y9 b hb
      · rintro z' b hz' hb g' x' hg hx' hb'
        cases hz'
        rw [e1] at hb
        obtain ⟨q1, q2⟩ := others g' x' b hx' hb'
        exact q1 (h.apart g' src b x' y q2 y2 hb' hb)
  | destroy g =>
    obtain ⟨gx, x, x1, x2, x3, x4, _⟩ := gen_of_alive h hl
    simp only [step, x3, Res.bind_ok, GenVals.step, release_gens]
    exact ⟨_, rfl, set_rel h (fun g' x' b hg hx' hb => release_bufs h x2 hg hx' hb) trivial (by rintro x b hx; cases hx)⟩

theorem run_rel {ops : List GenOp} {m : GenMem} {s : GenVals} (h : Rel m s) (hl : s.LegalAll ops) :
    ∃ m', m.run ops = .ok m' ∧ Rel m' (s.run ops) := by
  induction ops generalizing m s with
  | nil => exact ⟨m, rfl, h⟩
  | cons op ops ih =>
    obtain ⟨m', h1, h2⟩ := step_rel h hl.1
    obtain ⟨m'', h3, h4⟩ := ih h2 hl.2
    exact ⟨m'', by rw [run, h1, Res.bind_ok, h3], h4⟩

theorem empty_rel : Rel empty [] :=
  ⟨rfl, fun _ _ _ h => by simp at h, fun _ _ _ _ _ h => by simp [empty] at h⟩

/-- Reading through the pointers of a suffix of the own buffer. -/
theorem deref_suffix {m : GenMem} {b : Nat} {v : List (List Obj)} (h : m.bufs[b]? = some (some v)) (k n : Nat)
    (hk : k + n = v.length) : m.deref ((List.range' k n).map fun i => (b, i)) = .ok (v.drop k) := by
  induction n generalizing k with
  | zero =>
    rw [List.drop_eq_nil_of_le (by omega)]
    rfl
  | succ n ih =>
    have hl : k < v.length := by omega
    rw [List.range'_succ, List.map_cons, deref]
    simp only [buf, h, Res.bind_ok, Res.index_lt hl]
    rw [ih (k + 1) (by omega), List.drop_eq_getElem_cons hl]
    rfl

theorem view_of {m : GenMem} {s : GenVals} (h : Rel m s) {g : Nat} {v : List (List Obj)} (hs : s[g]? = some (.val v)) :
    m.view g = .ok v ∧ m.size g = .ok (Comb.size v) ∧ [] ∉ v := by
  obtain ⟨gv, x, h1, h2, h3, h4, _⟩ := gen_of_alive h ⟨_, hs, by simp⟩
  rw [hs] at h1
  cases h1
  refine ⟨?_, by simp only [size, h3, Res.bind_ok, h4.size]; rfl, h4.full⟩
  simp only [view, h3, Res.bind_ok]
  rcases h4.place with ⟨_, p2, p3⟩ | ⟨b, _, p2, p3⟩
  · rw [p2, p3]
    rfl
  · rw [p3, List.range_eq_range', deref_suffix p2 0 _ (by simp), List.drop_zero]

end GenMem
end Symbolic
