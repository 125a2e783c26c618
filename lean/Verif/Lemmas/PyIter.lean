import Verif.Spec.PyIter
import Verif.Props.Combinations

/-!
# Lemmas on Python iterators
-/

namespace Symbolic

variable {σ V : Type}

namespace CppIter

/-- From `s` on, the iterator visits the elements of the list and ends in `e`. -/
inductive Runs (C : CppIter σ V) : σ → List V → σ → Prop
  | done {s} : C.atEnd s = true → Runs C s [] s
  | cons {s s' e v l} : C.atEnd s = false → C.deref s = .ok v → C.step s = .ok s' → Runs C s' l e → Runs C s (v :: l) e

variable {C : CppIter σ V}

theorem Runs.cons_inv {s e : σ} {v : V} {l : List V} (h : Runs C s (v :: l) e) :
    C.atEnd s = false ∧ C.deref s = .ok v ∧ ∃ s', C.step s = .ok s' ∧ Runs C s' l e := by
  cases h with
  | cons h1 h2 h3 h4 => exact ⟨h1, h2, _, h3, h4⟩

theorem Runs.nil_inv {s e : σ} (h : Runs C s [] e) : C.atEnd s = true ∧ s = e := by
  cases h with
  | done h => exact ⟨h, rfl⟩

/-- The Python iterator after `pos` calls. -/
inductive At (C : CppIter σ V) (l : List V) (e : σ) : PyIt σ → Nat → Prop
  | ready {s pos} : Runs C s (l.drop pos) e → At C l e ⟨s, true⟩ pos
  | on {s pos v} : l[pos]? = some v → Runs C s (v :: l.drop (pos + 1)) e → At C l e ⟨s, false⟩ (pos + 1)

/-- Entering a position. -/
theorem arrive {l : List V} {s e : σ} {pos : Nat} (h : Runs C s (l.drop pos) e) :
    ∃ p b, (if C.atEnd s then pure (false, ⟨s, true⟩) else pure (true, ⟨s, false⟩) : Res (Bool × PyIt σ)) = .ok (b, p) ∧
      At C l e p (pos + 1) ∧
      ((b = true ∧ ∃ v, l[pos]? = some v ∧ C.deref p.it = .ok v) ∨ (b = false ∧ l[pos]? = none)) := by
  by_cases hp : pos < l.length
  · have hv := List.getElem?_eq_getElem hp
    rw [List.drop_eq_getElem_cons hp] at h
    have h' := h.cons_inv
    refine ⟨⟨s, false⟩, true, ?_, .on hv h, .inl ⟨rfl, _, hv, h'.2.1⟩⟩
    rw [h'.1]; rfl
  · have hp' : l.length ≤ pos := by omega
    rw [List.drop_eq_nil_of_le hp'] at h
    refine ⟨⟨s, true⟩, false, ?_, .ready ?_, .inr ⟨rfl, List.getElem?_eq_none hp'⟩⟩
    · rw [h.nil_inv.1]; rfl
    · rw [List.drop_eq_nil_of_le (by omega)]; exact h

/-- `__next__` goes through the list. -/
theorem next_spec {l : List V} {e : σ} {p : PyIt σ} {pos : Nat} (h : At C l e p pos) :
    ∃ p' b, C.next p = .ok (b, p') ∧ At C l e p' (pos + 1) ∧
      ((b = true ∧ ∃ v, l[pos]? = some v ∧ C.deref p'.it = .ok v) ∨ (b = false ∧ l[pos]? = none)) := by
  cases h with
  | ready h =>
    obtain ⟨p', b, h1, h2⟩ := arrive h
    exact ⟨p', b, h1, h2⟩
  | on hv h =>
    obtain ⟨_, _, s', hs, h'⟩ := h.cons_inv
    obtain ⟨p', b, h1, h2⟩ := arrive h'
    refine ⟨p', b, ?_, h2⟩
    simp only [next, Bool.false_eq_true, if_false, hs, Res.bind_ok]
    exact h1

/-- A variable of that kind and the value it should have. -/
def VarOk (C : CppIter σ V) (p : PyIt σ) : PyKind → PyVar V → Option V → Prop
  | .copied, .own v, w => w = some v
  | .copied, .none, w => w = none
  | .copied, .ref, _ => False
  | .latest, .ref, w => ∃ v, w = some v ∧ C.deref p.it = .ok v
  | .latest, .none, w => w = none
  | .latest, .own _, _ => False
  | .earlier, _, _ => True

/-- The variables and their values. -/
structure FrameOk (C : CppIter σ V) (l : List V) (e : σ) (m : PyFrame σ V) (pos : Nat) (ks : List PyKind)
    (vs : List (Option V)) : Prop where
  it : At C l e m.py pos
  lenK : ks.length = m.vars.length
  lenV : vs.length = m.vars.length
  ok : ∀ (x : Nat) (k : PyKind) (a : PyVar V) (w : Option V), ks[x]? = some k → m.vars[x]? = some a → vs[x]? = some w →
    VarOk C m.py k a w

theorem read_ok {l : List V} {e : σ} {m : PyFrame σ V} {pos : Nat} {ks : List PyKind} {vs : List (Option V)}
    (h : FrameOk C l e m pos ks vs) {x : Nat} (hx : ks[x]? = some .latest ∨ ks[x]? = some .copied) :
    ∃ w, vs[x]? = some w ∧ C.read m x = .ok w := by
  have hlt : x < ks.length := by
    rcases hx with hx | hx <;> exact (List.getElem?_eq_some_iff.1 hx).1
  have hv := List.getElem?_eq_getElem (l := vs) (i := x) (by rw [h.lenV, ← h.lenK]; exact hlt)
  have ha := List.getElem?_eq_getElem (l := m.vars) (i := x) (by rw [← h.lenK]; exact hlt)
  refine ⟨_, hv, ?_⟩
  simp only [read, ha]
  rcases hx with hx | hx
  · have := h.ok x _ _ _ hx ha hv
    cases hm : m.vars[x]'(by rw [← h.lenK]; exact hlt) with
    | ref =>
      rw [hm] at this
      obtain ⟨v, h1, h2⟩ := this
      simp only [h2, Res.bind_ok, h1]
      rfl
    | own v => rw [hm] at this; exact this.elim
    | none =>
      rw [hm] at this
      simp only [VarOk] at this
      simp only [this]
  · have := h.ok x _ _ _ hx ha hv
    cases hm : m.vars[x]'(by rw [← h.lenK]; exact hlt) with
    | ref => rw [hm] at this; exact this.elim
    | own v =>
      rw [hm] at this
      simp only [VarOk] at this
      simp only [this]
    | none =>
      rw [hm] at this
      simp only [VarOk] at this
      simp only [this]

theorem getElem?_snoc {α : Type} {l : List α} {a b : α} {x : Nat} (h : (l ++ [a])[x]? = some b) :
    l[x]? = some b ∨ (x = l.length ∧ b = a) := by
  rw [List.getElem?_append] at h
  split at h
  · exact .inl h
  · rename_i hx
    have h0 : x - l.length = 0 := by
      have := (List.getElem?_eq_some_iff.1 h).1
      simp only [List.length_singleton] at this
      omega
    rw [h0] at h
    simp only [List.getElem?_cons_zero, Option.some.injEq] at h
    exact .inr ⟨by omega, h.symm⟩

theorem use_ok {l : List V} {e : σ} {m : PyFrame σ V} {pos : Nat} {ks : List PyKind} {vs : List (Option V)}
    (h : FrameOk C l e m pos ks vs) :
    (∃ m', C.use m .next = .ok m' ∧ FrameOk C l e m' (pos + 1) (ks.map PyKind.age ++ [.latest]) (vs ++ [l[pos]?])) ∧
    ∀ x, (ks[x]? = some .latest ∨ ks[x]? = some .copied) →
      ∃ m', C.use m (.copy x) = .ok m' ∧ FrameOk C l e m' pos (ks ++ [.copied]) (vs ++ [vs[x]?.join]) := by
  constructor
  · obtain ⟨p', b, h1, h2, h3⟩ := next_spec h.it
    refine ⟨⟨p', m.vars ++ [if b then .ref else .none]⟩, ?_, h2, ?_, ?_, ?_⟩
    · simp only [use, h1, Res.bind_ok]; rfl
    · simp [h.lenK]
    · simp [h.lenV]
    · intro x k a w hk ha hw
      rcases getElem?_snoc hk with hk | ⟨hx, rfl⟩
      · rw [List.getElem?_map] at hk
        cases hk0 : ks[x]? with
        | none => rw [hk0] at hk; simp at hk
        | some k0 =>
          rw [hk0] at hk
          simp only [Option.map_some, Option.some.injEq] at hk
          have hlt := (List.getElem?_eq_some_iff.1 hk0).1
          have ha' : m.vars[x]? = some a := by
            rcases getElem?_snoc ha with ha | ⟨hx, _⟩
            · exact ha
            · rw [← h.lenK] at hx; omega
          have hw' : vs[x]? = some w := by
            rcases getElem?_snoc hw with hw | ⟨hx, _⟩
            · exact hw
            · rw [h.lenV, ← h.lenK] at hx; omega
          have hv := h.ok x k0 a w hk0 ha' hw'
          subst hk
          cases k0 with
          | latest => trivial
          | earlier => trivial
          | copied =>
            cases a with
            | ref => exact hv
            | own v => exact hv
            | none => exact hv
      · simp only [List.length_map] at hx
        have ha' : a = if b then .ref else .none := by
          rcases getElem?_snoc ha with ha | ⟨_, ha⟩
          · have := (List.getElem?_eq_some_iff.1 ha).1
            rw [← h.lenK] at this; omega
          · exact ha
        have hw' : w = l[pos]? := by
          rcases getElem?_snoc hw with hw | ⟨_, hw⟩
          · have := (List.getElem?_eq_some_iff.1 hw).1
            rw [h.lenV, ← h.lenK] at this; omega
          · exact hw
        rcases h3 with ⟨rfl, v, hv, hd⟩ | ⟨rfl, hn⟩
        · subst ha' hw'
          exact ⟨v, hv, hd⟩
        · subst ha' hw'
          exact hn
  · intro x hx
    obtain ⟨w, hw, hr⟩ := read_ok h hx
    refine ⟨⟨m.py, m.vars ++ [.hold w]⟩, ?_, h.it, ?_, ?_, ?_⟩
    · simp only [use, hr, Res.bind_ok]; rfl
    · simp [h.lenK]
    · simp [h.lenV]
    · intro y k a u hk ha hu
      rcases getElem?_snoc hk with hk | ⟨hy, rfl⟩
      · have hlt := (List.getElem?_eq_some_iff.1 hk).1
        have ha' : m.vars[y]? = some a := by
          rcases getElem?_snoc ha with ha | ⟨hy, _⟩
          · exact ha
          · rw [← h.lenK] at hy; omega
        have hu' : vs[y]? = some u := by
          rcases getElem?_snoc hu with hu | ⟨hy, _⟩
          · exact hu
          · rw [h.lenV, ← h.lenK] at hy; omega
        exact h.ok y k a u hk ha' hu'
      · have ha' : a = .hold w := by
          rcases getElem?_snoc ha with ha | ⟨_, ha⟩
          · have := (List.getElem?_eq_some_iff.1 ha).1
            rw [← h.lenK] at this; omega
          · exact ha
        have hu' : u = vs[x]?.join := by
          rcases getElem?_snoc hu with hu | ⟨_, hu⟩
          · have := (List.getElem?_eq_some_iff.1 hu).1
            rw [h.lenV, ← h.lenK] at this; omega
          · exact hu
        rw [hw] at hu'
        subst hu' ha'
        cases u with
        | none => rfl
        | some v => rfl

theorem run_ok {l : List V} {e : σ} : ∀ {us : List PyUse} {m : PyFrame σ V} {pos : Nat} {ks : List PyKind} {vs : List (Option V)},
    FrameOk C l e m pos ks vs → PyPrompt ks us →
    ∃ m' pos', C.run m us = .ok m' ∧ FrameOk C l e m' pos' (pyKinds ks us) (pyWanted l pos vs us)
  | [], m, pos, _, _, h, _ => ⟨m, pos, rfl, h⟩
  | .next :: us, _, _, _, _, h, hp => by
    obtain ⟨m', h1, h2⟩ := (use_ok h).1
    obtain ⟨m'', pos', h3, h4⟩ := run_ok h2 hp
    exact ⟨m'', pos', by simp only [run, h1, Res.bind_ok, h3], h4⟩
  | .copy x :: us, _, _, _, _, h, hp => by
    obtain ⟨m', h1, h2⟩ := (use_ok h).2 x hp.1
    obtain ⟨m'', pos', h3, h4⟩ := run_ok h2 hp.2
    exact ⟨m'', pos', by simp only [run, h1, Res.bind_ok, h3], h4⟩

theorem Runs.start {s e : σ} {l : List V} (h : Runs C s l e) : FrameOk C l e ⟨⟨s, true⟩, []⟩ 0 [] [] :=
  ⟨.ready (by simpa using h), rfl, rfl, fun x _ _ _ hk => by simp at hk⟩

/-- `list(it)` has as many objects as there are elements. -/
theorem list_at {l : List V} {e : σ} : ∀ (n : Nat) {p : PyIt σ} {pos k : Nat}, At C l e p pos → l.length = pos + n → n < k →
    C.list k p = .ok (n, ⟨e, true⟩)
  | 0, p, pos, k + 1, h, hl, _ => by
    obtain ⟨p', b, h1, h2, h3⟩ := next_spec h
    have hn : l[pos]? = none := List.getElem?_eq_none (by omega)
    rcases h3 with ⟨_, v, hv, _⟩ | ⟨rfl, _⟩
    · rw [hn] at hv; cases hv
    · simp only [list, h1, Res.bind_ok, Bool.false_eq_true, if_false]
      cases h2 with
      | ready h =>
        rw [List.drop_eq_nil_of_le (by omega)] at h
        rw [h.nil_inv.2]; rfl
      | on hv _ => rw [hn] at hv; cases hv
  | n + 1, p, pos, k + 1, h, hl, hk => by
    obtain ⟨p', b, h1, h2, h3⟩ := next_spec h
    rcases h3 with ⟨rfl, _⟩ | ⟨_, hn⟩
    · simp only [list, h1, Res.bind_ok, if_true]
      rw [list_at n h2 (by omega) (by omega)]
      rfl
    · rw [List.getElem?_eq_none_iff] at hn; omega

theorem readAll_refs {p : PyIt σ} {r : Res V} (hr : C.deref p.it = r) {k : Nat} : ∀ (n x : Nat), x + n ≤ k → n ≠ 0 →
    C.readAll ⟨p, List.replicate k .ref⟩ x n = (do let v ← r; pure (List.replicate n (some v)))
  | 1, x, h, _ => by
    simp only [readAll, read, List.getElem?_replicate, show x < k by omega, if_true, hr]
    cases r <;> rfl
  | n + 2, x, h, _ => by
    rw [readAll, readAll_refs hr (n + 1) (x + 1) (by omega) (by omega)]
    simp only [read, List.getElem?_replicate, show x < k by omega, if_true, hr]
    cases r <;> rfl

/-- After `list(it)` all objects show what the iterator holds at its end. -/
theorem listed_eq {s e : σ} {l : List V} (h : Runs C s l e) {k : Nat} (hk : l.length < k) (hl : l ≠ []) :
    C.listed k ⟨s, true⟩ = (do let v ← C.deref e; pure (List.replicate l.length (some v))) := by
  have h1 := list_at (C := C) l.length (.ready (pos := 0) (by simpa using h)) (by omega) hk
  simp only [listed, h1, Res.bind_ok]
  exact readAll_refs rfl _ _ (by omega) (by simpa using hl)

end CppIter

namespace Comb

theorem traverse_runs {options : List (List Obj)} : ∀ {n : Nat} {it : Iter Obj} {l : List (List Obj)},
    traverse Obj.dflt options 1 (size options : Int) n it = .ok l → ∃ e, (cpp options).Runs it l e ∧
      (l ≠ [] → l.getLast? = some e.comb)
  | 0, _, _, h => by simp [traverse] at h
  | n + 1, it, l, h => by
    simp only [traverse] at h
    split at h
    · rename_i he
      cases h
      exact ⟨it, .done (by simp [cpp, he]), by simp⟩
    · rename_i he
      simp only [Res.bind_eq_ok, Res.pure_eq, Res.ok.injEq] at h
      obtain ⟨it', h1, r, h2, rfl⟩ := h
      obtain ⟨e, h3, h4⟩ := traverse_runs h2
      refine ⟨e, .cons (by simp [cpp, he]) rfl h1 h3, fun _ => ?_⟩
      cases r with
      | nil =>
        have h3 := h3.nil_inv
        -- past the last element the combination is kept
        have hidx : it'.idx = (size options : Int) := by simpa [cpp] using h3.1
        have : it'.comb = it.comb := by
          simp only [advance, moveTo] at h1
          split at h1
          · cases h1; rfl
          · split at h1
            · cases h1; rfl
            · rename_i ho
              simp only [Res.bind_eq_ok, Res.pure_eq, Res.ok.injEq] at h1
              obtain ⟨c, _, rfl⟩ := h1
              simp only at hidx
              rw [hidx] at ho
              simp [outside] at ho
        rw [← h3.2, this]; rfl
      | cons a r => rw [List.getLast?_cons_cons, h4 (by simp)]

theorem pyIter_runs {options : List (List Obj)} (hne : ∀ o ∈ options, o ≠ []) :
    ∃ s e, pyIter options = .ok ⟨s, true⟩ ∧ (cpp options).Runs s (if options = [] then [] else cartesian options) e ∧
      ((if options = [] then [] else cartesian options) ≠ [] →
        (if options = [] then [] else cartesian options).getLast? = some e.comb) := by
  by_cases h0 : options = []
  · subst h0
    exact ⟨⟨[], 0⟩, ⟨[], 0⟩, rfl, .done rfl, by simp⟩
  · rw [if_neg h0]
    have h := (C06_iteration_is_cartesian_product Obj.dflt options h0 hne _ (Nat.lt_succ_self _)).2.1
    simp only [forward, Res.bind_eq_ok] at h
    obtain ⟨b, h1, e', h2, h3⟩ := h
    have he : e'.idx = (size options : Int) := by
      have hx : iter Obj.dflt options (size options : Int) = .ok ⟨[], (size options : Int)⟩ := by
        simp [iter, outside_nat]
      simp only [endIt, hx, Res.ok.injEq] at h2
      rw [← h2]
    rw [he] at h3
    obtain ⟨e, h4, h5⟩ := traverse_runs h3
    exact ⟨b, e, by simp only [pyIter, h1, Res.bind_ok]; rfl, h4, h5⟩

end Comb

section
variable [StrHash]

/-- The iterator keeps its last child. -/
theorem Pddl.nodeNext_child {P : Pddl} {fuel : Nat} {parent : PNode} : ∀ {k : Nat} {it it' : NodeIt},
    P.nodeNext fuel parent k it = .ok it' → it.child.isSome = true → it'.child.isSome = true := by
  have htry : ∀ (it : NodeIt) (r : NodeIt × Bool), P.tryChild fuel parent it = .ok r → it.child.isSome = true →
      r.1.child.isSome = true := by
    intro it r h hc
    unfold tryChild at h
    split at h
    · cases h
    · simp only [Res.bind_eq_ok] at h
      obtain ⟨v, _, h⟩ := h
      split at h
      · simp only [Res.bind_eq_ok, Res.pure_eq, Res.ok.injEq] at h
        obtain ⟨s, _, rfl⟩ := h
        rfl
      · cases h; exact hc
  intro k
  induction k with
  | zero => intro it it' h; simp [nodeNext] at h
  | succ k ih =>
    intro it it' h hc
    unfold nodeNext at h
    split at h
    · cases h; exact hc
    · split at h
      · split at h
        · cases h; exact hc
        · simp only [Res.bind_eq_ok] at h
          obtain ⟨b, _, h⟩ := h
          split at h
          · exact ih h hc
          · simp only [Res.bind_eq_ok] at h
            obtain ⟨r, hr, h⟩ := h
            split at h
            · cases h; exact htry _ _ hr hc
            · exact ih h (htry _ _ hr hc)
      · simp only [Res.bind_eq_ok] at h
        obtain ⟨q, _, h⟩ := h
        split at h
        · exact ih h hc
        · simp only [Res.bind_eq_ok] at h
          obtain ⟨r, hr, h⟩ := h
          split at h
          · cases h; exact htry _ _ hr hc
          · exact ih h (htry _ _ hr hc)

theorem Pddl.runs_child {P : Pddl} {fuel : Nat} {parent : PNode} {s e : NodeIt} {l : List PNode}
    (h : (P.kids fuel parent).Runs s l e) (hl : l ≠ []) : ∃ d, (P.kids fuel parent).deref e = .ok d := by
  have key : ∀ {s e : NodeIt} {l : List PNode}, (P.kids fuel parent).Runs s l e → s.child.isSome = true → e.child.isSome = true := by
    intro s e l h
    induction h with
    | done _ => exact id
    | cons _ _ h3 _ ih => exact fun hc => ih (nodeNext_child h3 hc)
  cases h with
  | done _ => exact absurd rfl hl
  | cons h1 h2 h3 h4 =>
    have hs : s.child.isSome = true := by
      simp only [kids] at h2
      split at h2
      · rename_i hc; rw [hc]; rfl
      · cases h2
    obtain ⟨d, hd⟩ := Option.isSome_iff_exists.1 (key h4 (nodeNext_child h3 hs))
    exact ⟨d, by simp only [kids, hd]⟩

theorem Pddl.nodeLoop_runs {P : Pddl} {fuel : Nat} {parent : PNode} : ∀ {m : Nat} {it : NodeIt} {l : List PNode},
    P.nodeLoop fuel parent P.nodeBudget m it = .ok l → ∃ e, (P.kids fuel parent).Runs it l e
  | 0, _, _, h => by simp [nodeLoop] at h
  | m + 1, it, l, h => by
    cases ha : it.acts with
    | nil =>
      simp only [nodeLoop, ha] at h
      cases h
      exact ⟨it, .done (by simp [kids, ha])⟩
    | cons op ops =>
      cases hc : it.child with
      | none => simp [nodeLoop, ha, hc] at h
      | some c =>
        simp only [nodeLoop, ha, hc, Res.bind_eq_ok, Res.pure_eq, Res.ok.injEq] at h
        obtain ⟨it', h1, r, h2, rfl⟩ := h
        obtain ⟨e, h3⟩ := nodeLoop_runs h2
        exact ⟨e, .cons (by simp [kids, ha]) (by simp [kids, hc]) h1 h3⟩

end
end Symbolic
