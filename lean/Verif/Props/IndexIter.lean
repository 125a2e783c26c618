import Verif.Lemmas.IndexIter
import Verif.Props.Python

/-!
# C83: iterators over a StateIndex
-/

namespace Symbolic

/-- **C83.** The propositions of an index by position: every type-correct proposition once. -/
theorem C83_listing [StrHash] (objects : List Obj) (preds : List PredDecl) (hs : Signature objects preds)
    (useCache : Bool) (I : StateIndex) (hI : I = ⟨preds, ObjMap.create objects, useCache⟩) :
    ∃ l, Listing I l ∧ l.Nodup ∧ ∀ a, a ∈ l ↔ TypeCorrect objects preds a := by
  have hr : I.Reached .empty := ⟨[], by simp, rfl⟩
  obtain ⟨l, n, h1, -, h3, h4, h5⟩ := C40_iteration objects preds hs useCache I hI .empty hr
  have hex : ∀ i : Fin n, ∃ a, (I.getProposition .empty i).1 = .ok a ∧ TypeCorrect objects preds a ∧
      (I.getPropositionIndex .empty a).1 = .ok i.1 := fun i =>
    C40_index_of_proposition objects preds hs useCache I hI _ _ hr hr n h1 i i.2
  choose f g1 g2 g3 using hex
  refine ⟨List.ofFn f, ⟨by simpa using h1, ?_⟩, ?_, fun a => ?_⟩
  · intro i a ha
    obtain ⟨hlt, rfl⟩ := List.getElem?_eq_some_iff.1 ha
    simp only [List.length_ofFn] at hlt
    simpa using g1 ⟨i, hlt⟩
  · rw [List.nodup_ofFn]
    intro i j hij
    have := g3 i
    rw [hij, g3 j] at this
    exact Fin.ext (Res.ok.inj this).symm
  · rw [List.mem_ofFn]
    constructor
    · rintro ⟨i, rfl⟩; exact g2 i
    · intro ha
      obtain ⟨n', i, e1, e2, e3, e4⟩ := C40_proposition_of_index objects preds hs useCache I hI _ _ hr hr a ha
      rw [h1] at e1; cases e1
      refine ⟨⟨i, e3⟩, ?_⟩
      have := g1 ⟨i, e3⟩
      rw [e4] at this
      exact (Res.ok.inj this).symm

section
variable {I : StateIndex} {l : List Atom} (hl : Listing I l) (h31 : l.length < 2 ^ 31)
include hl h31

/-- **C83, partial: positions.** A program that respects the rules for random access iterators over the propositions `l`
runs, and at its end every live iterator is at its position: `*it` and `it[d]` are the propositions of `l` there, and
comparisons and differences are those of the positions. -/
theorem C83_random_access_partial [StrHash] (c : IndexCache) (hc : I.Reached c) (prog : List IxCmd) (ps : Cursors)
    (hprog : Cursors.run l.length [] prog = some ps) :
    ∃ m, IxMem.run I ⟨[], c⟩ prog = .ok m ∧ ∀ o p, ps.pos o = some p → ∃ it, m.get o = .ok it ∧
      (∀ a, l[p]? = some a → ∃ m', m.step I (.deref o) = .ok m' ∧ m'.read o = .ok (some a)) ∧
      (∀ (d : Int) a, 0 ≤ (p : Int) + d → l[((p : Int) + d).toNat]? = some a → ∃ c', it.at_ I m.cache d = .ok (a, c')) ∧
      ∀ o' p', ps.pos o' = some p' → ∃ it', m.get o' = .ok it' ∧
        it.eq it' = decide (p = p') ∧ it.lt it' = decide (p < p') ∧ it.gt it' = decide (p > p') ∧
        it.le it' = decide (p ≤ p') ∧ it.ge it' = decide (p ≥ p') ∧ it.diff it' = .ok ((p : Int) - p') := by
  have h0 : Placed I l.length ⟨[], c⟩ [] := ⟨.nil, hc.ok⟩
  obtain ⟨m, h1, h2⟩ := h0.run hl h31 hprog
  refine ⟨m, h1, fun o p hp => ?_⟩
  obtain ⟨it, g1, g2, g3, g4⟩ := h2.get hp
  refine ⟨it, g1, fun a ha => ?_, fun d a hd ha => ?_, fun o' p' hp' => ?_⟩
  · obtain ⟨m', e1, e2, -⟩ := read_deref hl h31 h2 hp ha
    exact ⟨m', e1, e2⟩
  · have hlt := (List.getElem?_eq_some_iff.1 ha).1
    obtain ⟨c', e1, -⟩ := IxIt.fetch_ok hl h31 h2.cache (it := ⟨(((p : Int) + d).toNat : Nat), it.prop⟩) rfl ha
    refine ⟨c', ?_⟩
    simp only [IxIt.at_, IxIt.add_ok h31 g2 hd (by omega), Res.bind_ok, e1]
  · obtain ⟨it', f1, f2, f3, -⟩ := h2.get hp'
    refine ⟨it', f1, ?_, ?_, ?_, ?_, ?_, ?_⟩
    · simp only [IxIt.eq, g2, f2, Int.natCast_inj]
    · simp only [IxIt.lt, g2, f2, Int.ofNat_lt]
    · simp only [IxIt.gt, IxIt.lt, g2, f2, Int.ofNat_lt, gt_iff_lt]
    · simp only [IxIt.le, g2, f2, Int.ofNat_le]
    · simp only [IxIt.ge, IxIt.le, g2, f2, Int.ofNat_le, ge_iff_le]
    · simp only [IxIt.diff, g2, f2]
      rw [if_pos (by omega)]

/-- **C83, partial: loops.** A loop from `begin()` to `end()` visits `l`. -/
theorem C83_forward_partial [StrHash] (c : IndexCache) (hc : I.Reached c) : ∃ last, IxIt.finish I = .ok last ∧
    IxIt.forward I last (l.length + 1) .begin c = .ok l := by
  have hfin : IxIt.finish I = .ok ⟨(l.length : Nat), none⟩ := by
    simp only [IxIt.finish, hl.size, Res.bind_ok, Res.pure_eq]
    rw [toI32_small (by omega) (by omega)]
  refine ⟨_, hfin, ?_⟩
  have key : ∀ (k i : Nat) (c : IndexCache) (it : IxIt), StateIndex.CacheOk I c → i + k = l.length → it.idx = i →
      IxIt.forward I ⟨(l.length : Nat), none⟩ (k + 1) it c = .ok (l.drop i) := by
    intro k
    induction k with
    | zero =>
      intro i c it _ hi hp
      have : it.eq ⟨(l.length : Nat), none⟩ = true := by simp only [IxIt.eq, hp, decide_eq_true_eq]; omega
      rw [IxIt.forward, if_pos this, show i = l.length by omega, List.drop_length]
    | succ k ih =>
      intro i c it hc hi hp
      have hlt : i < l.length := by omega
      have : it.eq ⟨(l.length : Nat), none⟩ = false := by simp only [IxIt.eq, hp, decide_eq_false_iff_not]; omega
      obtain ⟨c', e1, e2⟩ := IxIt.fetch_ok hl h31 hc hp (List.getElem?_eq_getElem hlt)
      rw [IxIt.forward, if_neg (by simp [this]), e1]
      simp only [Res.bind_ok, IxIt.inc, IxIt.add_ok h31 hp (d := 1) (by omega) (by omega)]
      rw [ih (i + 1) c' _ e2 (by omega) (by simp only; omega)]
      rw [List.drop_eq_getElem_cons hlt]
      rfl
  simpa using key l.length 0 c .begin hc.ok (by omega) rfl

/-- **C83, partial: loops.** A loop that steps back from `end()` to `begin()` visits `l` in the reverse order. -/
theorem C83_backward_partial [StrHash] (c : IndexCache) (hc : I.Reached c) : ∃ last, IxIt.finish I = .ok last ∧
    IxIt.backward I .begin (l.length + 1) last c = .ok l.reverse := by
  have hfin : IxIt.finish I = .ok ⟨(l.length : Nat), none⟩ := by
    simp only [IxIt.finish, hl.size, Res.bind_ok, Res.pure_eq]
    rw [toI32_small (by omega) (by omega)]
  refine ⟨_, hfin, ?_⟩
  have key : ∀ (k : Nat) (c : IndexCache) (it : IxIt), StateIndex.CacheOk I c → k ≤ l.length → it.idx = k →
      IxIt.backward I .begin (k + 1) it c = .ok (l.take k).reverse := by
    intro k
    induction k with
    | zero =>
      intro c it _ _ hp
      have : it.eq .begin = true := by simp only [IxIt.eq, hp, IxIt.begin, decide_eq_true_eq]; omega
      rw [IxIt.backward, if_pos this]
      rfl
    | succ k ih =>
      intro c it hc hk hp
      have hlt : k < l.length := by omega
      have : it.eq .begin = false := by simp only [IxIt.eq, hp, IxIt.begin, decide_eq_false_iff_not]; omega
      have hadd := IxIt.add_ok h31 hp (d := -1) (by omega) (by omega)
      obtain ⟨c', e1, e2⟩ := IxIt.fetch_ok hl h31 hc
        (it := ⟨((((k + 1 : Nat) : Int) + -1).toNat : Nat), it.prop⟩) (p := k) (by simp only; omega) (List.getElem?_eq_getElem hlt)
      rw [IxIt.backward, if_neg (by simp [this])]
      simp only [IxIt.dec, hadd, Res.bind_ok, e1]
      rw [ih c' _ e2 (by omega) (by simp only; omega)]
      rw [← List.take_append_getElem hlt, List.reverse_append]
      rfl
  simpa using key l.length c ⟨(l.length : Nat), none⟩ hc.ok (Nat.le_refl _) rfl

/-- **C83, partial: references.** What `*it` referred to is still there after any steps that neither dereference nor
assign nor destroy that same iterator; moving it is no such step. -/
theorem C83_reference_partial [StrHash] (c : IndexCache) (hc : I.Reached c) (prog rest : List IxCmd) (o p : Nat) (a : Atom)
    (ps ps' : Cursors) (hprog : Cursors.run l.length [] prog = some ps) (hp : ps.pos o = some p) (ha : l[p]? = some a)
    (hrest : Cursors.run l.length ps rest = some ps') (hkeep : ∀ c ∈ rest, ¬ c.Touches o) :
    ∃ m, IxMem.run I ⟨[], c⟩ (prog ++ .deref o :: rest) = .ok m ∧ m.read o = .ok (some a) := by
  have h0 : Placed I l.length ⟨[], c⟩ [] := ⟨.nil, hc.ok⟩
  obtain ⟨m, h1, h2⟩ := h0.run hl h31 hprog
  obtain ⟨m1, h3, h4, h5⟩ := read_deref hl h31 h2 hp ha
  obtain ⟨m2, h6, -⟩ := h5.run hl h31 hrest
  refine ⟨m2, ?_, read_run hkeep h4 h6⟩
  rw [IxMem.run_append, h1]
  show (m.run I (.deref o :: rest)) = _
  simp only [IxMem.run, h3, Res.bind_ok, h6]

/-- **C83.** Dereferencing an iterator that is not at a proposition, the end or a position before the first one, is undefined. -/
theorem C83_outside [StrHash] (c : IndexCache) (hc : I.Reached c) (it : IxIt) (h1 : -2 ^ 31 ≤ it.idx) (h2 : it.idx < 2 ^ 31)
    (h : it.idx < 0 ∨ (l.length : Int) ≤ it.idx) : it.fetch I c = .ub := by
  unfold IxIt.fetch
  have hk : total I.gens ≤ (it.idx % 2 ^ 64).toNat := by
    rw [hl.length]
    omega
  generalize (it.idx % 2 ^ 64).toNat = k at hk ⊢
  simp only
  split
  · rfl
  · have h3 := (StateIndex.getProposition_ok hc.ok k).1
    rw [StateIndex.lookupProp_past I hk] at h3
    generalize I.getProposition c k = r at h3 ⊢
    obtain ⟨r, c'⟩ := r
    simp only at h3
    subst h3
    rfl

omit hl h31 in
/-- **C83.** An iterator may be moved anywhere, as long as the new position fits 64 bits; it is then taken modulo 2^32. Moving it
there and back restores it. -/
theorem C83_far (it : IxIt) (h1 : -2 ^ 31 ≤ it.idx) (h2 : it.idx < 2 ^ 31) (n : Int) :
    (it.add n = .ub ↔ it.idx + n < -9223372036854775808 ∨ 9223372036854775807 < it.idx + n) ∧
    ∀ it', it.add n = .ok it' → (2 ^ 32 : Int) ∣ it'.idx - (it.idx + n) ∧ -2 ^ 31 ≤ it'.idx ∧ it'.idx < 2 ^ 31 ∧
      ∀ back, it'.sub n = .ok back → back = it := by
  have hb : ∀ i : Int, (2 ^ 32 : Int) ∣ Comb.toI32 i - i ∧ -2 ^ 31 ≤ Comb.toI32 i ∧ Comb.toI32 i < 2 ^ 31 := by
    intro i
    unfold Comb.toI32
    rw [Int.bmod_def]
    split <;> omega
  have hadd : ∀ (it : IxIt) (n : Int), it.add n = if -2 ^ 63 ≤ it.idx + n ∧ it.idx + n < 2 ^ 63 then
      .ok { it with idx := Comb.toI32 (it.idx + n) } else .ub := by
    intro it n
    unfold IxIt.add ptrdiff
    split <;> rfl
  constructor
  · rw [hadd]
    split
    · simp; omega
    · simp; omega
  · intro it' h
    rw [hadd] at h
    split at h
    · cases h
      obtain ⟨e1, e2, e3⟩ := hb (it.idx + n)
      refine ⟨e1, e2, e3, ?_⟩
      intro back hbk
      unfold IxIt.sub at hbk
      rw [Res.bind_eq_ok] at hbk
      obtain ⟨m, hm, hbk⟩ := hbk
      have hmn : m = -n := by
        unfold ptrdiff at hm
        split at hm <;> cases hm
        rfl
      subst hmn
      rw [hadd] at hbk
      split at hbk
      · cases hbk
        obtain ⟨f1, f2, f3⟩ := hb (Comb.toI32 (it.idx + n) + -n)
        have : Comb.toI32 (Comb.toI32 (it.idx + n) + -n) = it.idx := by omega
        cases it
        simp only [IxIt.mk.injEq, and_true] at this ⊢
        exact this
      · cases hbk
    · cases h

/-- **C83, refuted: references.** After dereferencing, stepping and dereferencing again, what the first `*it` referred to
is the second proposition; for every index and iterator. -/
theorem C83_overwritten_refuted [StrHash] (c : IndexCache) (hc : I.Reached c) (prog : List IxCmd) (o p : Nat) (a b : Atom)
    (ps : Cursors) (hprog : Cursors.run l.length [] prog = some ps) (hp : ps.pos o = some p) (ha : l[p]? = some a)
    (hb : l[p + 1]? = some b) (hnd : l.Nodup) :
    a ≠ b ∧ ∃ m m', IxMem.run I ⟨[], c⟩ (prog ++ [.deref o]) = .ok m ∧ m.read o = .ok (some a) ∧
      m.run I [.inc o, .deref o] = .ok m' ∧ m'.read o = .ok (some b) := by
  have hlt := (List.getElem?_eq_some_iff.1 hb).1
  refine ⟨?_, ?_⟩
  · rintro rfl
    have h1 := (List.getElem?_eq_some_iff.1 ha).1
    have := (List.getElem?_inj h1 hnd).1 (ha.trans hb.symm)
    omega
  have h0 : Placed I l.length ⟨[], c⟩ [] := ⟨.nil, hc.ok⟩
  obtain ⟨m, h1, h2⟩ := h0.run hl h31 hprog
  obtain ⟨m1, h3, h4, h5⟩ := read_deref hl h31 h2 hp ha
  have hmv : ps.move l.length o 1 = some (ps.set o (some (p + 1))) := by
    simp only [Cursors.move, hp]
    rw [if_pos (by omega)]
    congr 2
  obtain ⟨m2, h6, h7⟩ := h5.step hl h31 (c := .inc o) hmv
  have hp2 : Cursors.pos (ps.set o (some (p + 1))) o = some (p + 1) := by
    unfold Cursors.pos at hp ⊢
    rw [Option.join_eq_some_iff] at hp
    simp [(List.getElem?_eq_some_iff.1 hp).1]
  obtain ⟨m3, h8, h9, -⟩ := read_deref hl h31 h7 hp2 hb
  refine ⟨m1, m3, ?_, h4, ?_, h9⟩
  · rw [IxMem.run_append, h1]
    show (m.run I [.deref o]) = _
    simp only [IxMem.run, h3, Res.bind_ok]
  · simp only [IxMem.run, h6, h8, Res.bind_ok]

omit hl h31 in
theorem read_destroyed {m m' : IxMem} {o : Nat} (h : m.step I (.destroy o) = .ok m') : m'.read o = .ub := by
  simp only [IxMem.step, Res.bind_eq_ok, Res.pure_eq, Res.ok.injEq] at h
  obtain ⟨it, h1, rfl⟩ := h
  unfold IxMem.read IxMem.get
  have : ∀ x, (m.objs.set o none)[o]? = some (some x) → False := by
    intro x hx
    rw [List.getElem?_set] at hx
    simp only [if_true] at hx
    split at hx <;> simp at hx
  split
  · rename_i x hx; exact (this x hx).elim
  · rfl

/-- **C83, refuted: `*it++`.** The reference is to a part of the temporary iterator that `it++` returns; reading through
it after the expression is undefined, for every index and every iterator that can be dereferenced and stepped. -/
theorem C83_postfix_refuted [StrHash] (c : IndexCache) (hc : I.Reached c) (prog : List IxCmd) (o p : Nat) (ps : Cursors)
    (hprog : Cursors.run l.length [] prog = some ps) (hp : ps.pos o = some p) (hlt : p < l.length) :
    ∃ m, IxMem.run I ⟨[], c⟩ (prog ++ [.postInc o, .deref ps.length, .destroy ps.length]) = .ok m ∧
      m.read ps.length = .ub := by
  have h0 : Placed I l.length ⟨[], c⟩ [] := ⟨.nil, hc.ok⟩
  obtain ⟨m, h1, h2⟩ := h0.run hl h31 hprog
  have hmv : ps.move l.length o 1 = some (ps.set o (some (p + 1))) := by
    simp only [Cursors.move, hp]
    rw [if_pos (by omega)]
    congr 2
  have hst : ps.step l.length (.postInc o) = some (ps.set o (some (p + 1)) ++ [some p]) := by
    simp only [Cursors.step, hp, hmv]
  obtain ⟨m2, h6, h7⟩ := h2.step hl h31 hst
  have hpos : Cursors.pos (ps.set o (some (p + 1)) ++ [some p]) ps.length = some p := by
    simp [Cursors.pos]
  obtain ⟨m3, h8, -, h9⟩ := read_deref hl h31 h7 hpos (List.getElem?_eq_getElem hlt)
  obtain ⟨m4, h10, -⟩ := h9.step hl h31 (c := .destroy ps.length)
    (ps' := (ps.set o (some (p + 1)) ++ [some p]).set ps.length none) (by simp only [Cursors.step, hpos])
  refine ⟨m4, ?_, read_destroyed h10⟩
  rw [IxMem.run_append, h1]
  show (m.run I _) = _
  simp only [IxMem.run, h6, h8, h10, Res.bind_ok]

/-- **C83, refuted: `std::reverse_iterator`.** Its `operator*` copies the iterator, steps the copy back and dereferences
it; the copy is gone when the reference is used, for every index and every position after the first. -/
theorem C83_reverse_refuted [StrHash] (c : IndexCache) (hc : I.Reached c) (prog : List IxCmd) (o p : Nat) (ps : Cursors)
    (hprog : Cursors.run l.length [] prog = some ps) (hp : ps.pos o = some (p + 1)) (hlt : p < l.length) :
    ∃ m, IxMem.run I ⟨[], c⟩ (prog ++ [.copy o, .dec ps.length, .deref ps.length, .destroy ps.length]) = .ok m ∧
      m.read ps.length = .ub := by
  have h0 : Placed I l.length ⟨[], c⟩ [] := ⟨.nil, hc.ok⟩
  obtain ⟨m, h1, h2⟩ := h0.run hl h31 hprog
  have hst : ps.step l.length (.copy o) = some (ps ++ [some (p + 1)]) := by simp only [Cursors.step, hp]
  obtain ⟨m2, h6, h7⟩ := h2.step hl h31 hst
  have hst2 : Cursors.step l.length (ps ++ [some (p + 1)]) (.dec ps.length) = some (ps ++ [some p]) := by
    have : Cursors.pos (ps ++ [some (p + 1)]) ps.length = some (p + 1) := by simp [Cursors.pos]
    simp only [Cursors.step, Cursors.move, this]
    rw [if_pos (by omega)]
    simp only [Option.some.injEq]
    rw [List.set_append_right _ _ (Nat.le_refl _)]
    simp only [Nat.sub_self, List.set_cons_zero]
    congr 3
    omega
  obtain ⟨m3, h8, h9⟩ := h7.step hl h31 hst2
  have hpos : Cursors.pos (ps ++ [some p]) ps.length = some p := by simp [Cursors.pos]
  obtain ⟨m4, h10, -, h11⟩ := read_deref hl h31 h9 hpos (List.getElem?_eq_getElem hlt)
  obtain ⟨m5, h12, -⟩ := h11.step hl h31 (c := .destroy ps.length)
    (ps' := (ps ++ [some p]).set ps.length none) (by simp only [Cursors.step, hpos])
  refine ⟨m5, ?_, read_destroyed h12⟩
  rw [IxMem.run_append, h1]
  show (m.run I _) = _
  simp only [IxMem.run, h6, h8, h10, h12, Res.bind_ok]

end

section
open Demo
attribute [local instance] lenHash

/-- The demo index has ten propositions. A program with two iterators, at positions 1 and 9. -/
example : Cursors.run 10 [] [.begin, .finish, .inc 0, .deref 0, .dec 1, .deref 1] = some [some 1, some 9] := by decide

example : (do
    let m ← IxMem.run P.stateIndex .empty [.begin, .finish, .add 0 3, .deref 0, .sub 1 7]
    m.read 0) = .ok (some (on b table)) := by decide +kernel

example : (do
    let last ← IxIt.finish P.stateIndex
    IxIt.backward P.stateIndex .begin 11 last .empty) =
    (do
      let l ← P.stateIndex.traverse 11 0 .empty
      pure l.reverse) := by decide +kernel

/-- 32 parameters of a type with two objects: 2^32 propositions. -/
def wideIndex : StateIndex := ⟨[⟨n!"wide", List.replicate 32 x⟩], ObjMap.create [a, b], true⟩

/-- **C83, refuted: sizes.** With 2^32 propositions `end()` is `begin()`, so that a loop visits nothing. -/
theorem C83_size_refuted : wideIndex.size = .ok (2 ^ 32) ∧ IxIt.finish wideIndex = .ok .begin ∧
    IxIt.forward wideIndex .begin 1 .begin .empty = .ok [] := by decide +kernel

/-- 31 parameters: 2^31 propositions. -/
def halfIndex : StateIndex := ⟨[⟨n!"half", List.replicate 31 x⟩], ObjMap.create [a, b], true⟩

/-- **C83, refuted: sizes.** With 2^31 propositions `end()` comes before `begin()`. -/
theorem C83_half_refuted : halfIndex.size = .ok (2 ^ 31) ∧
    ∃ last, IxIt.finish halfIndex = .ok last ∧ last.lt .begin = true ∧ last.diff .begin = .ok (-2 ^ 31) := by
  refine ⟨by decide +kernel, ⟨-2 ^ 31, none⟩, by decide +kernel, by decide +kernel, by decide +kernel⟩

end
end Symbolic
