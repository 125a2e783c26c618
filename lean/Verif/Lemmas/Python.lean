import Verif.Model.Python
import Verif.Lemmas.StateIndex
import Verif.Lemmas.Parse

/-!
# Lemmas about the objects of the Python module
-/

namespace Symbolic

variable [StrHash]

namespace PyMem

/-! ## Memory -/

/-- What happens to an address in use: its cell may be destroyed or change, but keeps the pointers of its parts. -/
theorem step_home {m m' : PyMem} {op : PyOp} (h : m.step op = .ok m') {a : Nat} (ha : a < m.cells.length) :
    a < m'.cells.length ∧
      ∀ c', m'.cells[a]? = some (some c') → ∃ c, m.cells[a]? = some (some c) ∧ c.home = c'.home := by
  have hset : ∀ (b : Nat) (c : PyCell) (P : Pddl), m.cell b = .ok c → ∀ c',
      (m.cells.set b (some { c with pddl := P }))[a]? = some (some c') →
      ∃ c, m.cells[a]? = some (some c) ∧ c.home = c'.home := by
    intro b c P hb c' hc'
    rw [List.getElem?_set] at hc'
    split at hc'
    · subst b
      unfold cell at hb
      split at hb
      · rename_i c₀ e
        cases hb
        refine ⟨c, e, ?_⟩
        rw [if_pos ha] at hc'
        cases hc'
        rfl
      · cases hb
    · exact ⟨c', hc', rfl⟩
  cases op with
  | init t b k =>
    simp only [step, Res.bind_eq_ok, Res.pure_eq, Res.ok.injEq] at h
    obtain ⟨P, -, rfl⟩ := h
    refine ⟨by simp; omega, fun c' hc' => ⟨c', ?_, rfl⟩⟩
    dsimp only at hc'
    rwa [List.getElem?_append_left ha] at hc'
  | unpickle t k =>
    simp only [step, Res.bind_eq_ok, Res.pure_eq, Res.ok.injEq] at h
    obtain ⟨P, -, rfl⟩ := h
    refine ⟨by simp; omega, fun c' hc' => ⟨c', ?_, rfl⟩⟩
    dsimp only at hc'
    rwa [List.getElem?_append_left ha] at hc'
  | addObject b name type =>
    simp only [step, Res.bind_eq_ok, Res.pure_eq, Res.ok.injEq] at h
    obtain ⟨c, h1, P, -, rfl⟩ := h
    exact ⟨by simpa using ha, hset b c P h1⟩
  | setInitial b strings =>
    simp only [step, Res.bind_eq_ok, Res.pure_eq, Res.ok.injEq] at h
    obtain ⟨c, h1, P, -, rfl⟩ := h
    exact ⟨by simpa using ha, hset b c P h1⟩
  | destroy b =>
    simp only [step, Res.ok.injEq] at h
    subst h
    refine ⟨by simpa using ha, fun c' hc' => ⟨c', ?_, rfl⟩⟩
    dsimp only at hc'
    rw [List.getElem?_set] at hc'
    split at hc'
    · split at hc' <;> simp at hc'
    · exact hc'

theorem run_home : ∀ {ops : List PyOp} {m m' : PyMem}, m.run ops = .ok m' → ∀ {a : Nat}, a < m.cells.length →
    a < m'.cells.length ∧
      ∀ c', m'.cells[a]? = some (some c') → ∃ c, m.cells[a]? = some (some c) ∧ c.home = c'.home
  | [], m, m', h, a, ha => by
    simp only [run, Res.ok.injEq] at h
    subst h
    exact ⟨ha, fun c' hc' => ⟨c', hc', rfl⟩⟩
  | op :: ops, m, m', h, a, ha => by
    simp only [run, Res.bind_eq_ok] at h
    obtain ⟨m₁, h1, h2⟩ := h
    obtain ⟨ha1, h3⟩ := step_home h1 ha
    obtain ⟨ha2, h4⟩ := run_home h2 ha1
    refine ⟨ha2, fun c' hc' => ?_⟩
    obtain ⟨c₁, e1, e2⟩ := h4 c' hc'
    obtain ⟨c, e3, e4⟩ := h3 c₁ e1
    exact ⟨c, e3, e4.trans e2⟩

/-- The operation does not write the Pddl at this address. -/
def Spares (a : Nat) : PyOp → Prop
  | .init .. => True
  | .unpickle .. => True
  | .addObject b _ _ => b ≠ a
  | .setInitial b _ => b ≠ a
  | .destroy b => b ≠ a

theorem step_spared {op : PyOp} {m m' : PyMem} (h : m.step op = .ok m') {a : Nat} {c : PyCell}
    (ha : m.cells[a]? = some (some c)) (hs : Spares a op) : m'.cells[a]? = some (some c) := by
  have hl := (List.getElem?_eq_some_iff.1 ha).1
  cases op <;> simp only [step, Res.bind_eq_ok, Res.pure_eq, Res.ok.injEq] at h
  case init => obtain ⟨P, -, rfl⟩ := h; simpa [List.getElem?_append_left hl] using ha
  case unpickle => obtain ⟨P, -, rfl⟩ := h; simpa [List.getElem?_append_left hl] using ha
  case addObject => obtain ⟨c', -, P, -, rfl⟩ := h; simpa [List.getElem?_set_ne hs] using ha
  case setInitial => obtain ⟨c', -, P, -, rfl⟩ := h; simpa [List.getElem?_set_ne hs] using ha
  case destroy => subst h; simpa [List.getElem?_set_ne hs] using ha

theorem run_spared : ∀ {ops : List PyOp} {m m' : PyMem}, m.run ops = .ok m' → ∀ {a : Nat} {c : PyCell},
    m.cells[a]? = some (some c) → (∀ op ∈ ops, Spares a op) → m'.cells[a]? = some (some c)
  | [], m, m', h, a, c, ha, _ => by
    simp only [run, Res.ok.injEq] at h
    rwa [← h]
  | op :: ops, m, m', h, a, c, ha, hs => by
    simp only [run, Res.bind_eq_ok] at h
    obtain ⟨m₁, h1, h2⟩ := h
    exact run_spared h2 (step_spared h1 ha (hs op (by simp))) fun o ho => hs o (by simp [ho])

theorem run_append : ∀ (ops ops' : List PyOp) (m : PyMem), m.run (ops ++ ops') = (m.run ops).bind (·.run ops')
  | [], _, _ => rfl
  | op :: ops, ops', m => by
    simp only [List.cons_append, run]
    cases h : m.step op with
    | ok m' => simp only [Res.bind_ok]; exact run_append ops ops' m'
    | exc e => rfl
    | ub => rfl
    | fuel => rfl

theorem cell_ok {m : PyMem} {a : Nat} {c : PyCell} : m.cell a = .ok c ↔ m.cells[a]? = some (some c) := by
  unfold cell
  split
  · rename_i c' h; simp [h]
  · rename_i h
    constructor
    · intro h'; cases h'
    · intro h'; exact absurd h' (h c)

/-! ## Names -/

theorem parseObjects_live {m : PyMem} {a : Nat} {c : PyCell} (hc : m.cell a = .ok c) : ∀ args : List Name,
    m.parseObjects (some a) args = lookupAll c.pddl.symbols args
  | [] => rfl
  | n :: ns => by
    simp only [parseObjects, read, hc, Res.bind_ok, Res.pure_eq, lookupAll, parseObjects_live hc ns]

theorem parseObjects_ub {m : PyMem} {p : PddlPtr} (hp : m.read p = .ub) {args : List Name} (h : args ≠ []) :
    m.parseObjects p args = .ub := by
  cases args with
  | nil => exact absurd rfl h
  | cons n ns => simp only [parseObjects, hp]; rfl

theorem parseProp_nil {m : PyMem} {p : PddlPtr} {s : Name} (h : tokenizeArguments s = []) :
    m.parseProp p s = .ok ⟨parseHead s, []⟩ := by
  simp only [parseProp, h, parseObjects, Res.bind_ok, Res.pure_eq]
  rfl

theorem parseProp_ub {m : PyMem} {p : PddlPtr} (hp : m.read p = .ub) {s : Name} (h : tokenizeArguments s ≠ []) :
    m.parseProp p s = .ub := by
  simp only [parseProp, parseObjects_ub hp h]
  rfl

theorem parseStateFrom_ub {m : PyMem} {p : PddlPtr} (hp : m.read p = .ub) : ∀ {strings : List Name} (s : State),
    (∃ str ∈ strings, tokenizeArguments str ≠ []) → m.parseStateFrom p s strings = .ub
  | [], _, ⟨_, h, _⟩ => by simp at h
  | str :: strs, s, ⟨x, hx, hn⟩ => by
    by_cases h : tokenizeArguments str = []
    · have hx' : x ∈ strs := by
        rcases List.mem_cons.1 hx with rfl | h'
        · exact absurd h hn
        · exact h'
      simp only [parseStateFrom, parseProp_nil h, Res.bind_ok]
      exact parseStateFrom_ub hp _ ⟨x, hx', hn⟩
    · simp only [parseStateFrom, parseProp_ub hp h]
      rfl

theorem parseStateFrom_nil {m : PyMem} {p : PddlPtr} (table : List Obj) : ∀ {strings : List Name} (s : State),
    (∀ str ∈ strings, tokenizeArguments str = []) → m.parseStateFrom p s strings = insertParsed table s strings
  | [], _, _ => rfl
  | str :: strs, s, h => by
    have h1 := h str (by simp)
    simp only [parseStateFrom, parseProp_nil h1, insertParsed, parseAtom, parseArguments, h1, lookupAll, Res.bind_ok,
      Res.pure_eq]
    exact parseStateFrom_nil table _ fun x hx => h x (List.mem_cons_of_mem _ hx)

end PyMem

/-! ## Positions past the end -/

omit [StrHash] in
theorem cumSum_length : ∀ (gs : List (List (List Obj))) (acc : Nat), (cumSum gs acc).length = gs.length + 1
  | [], _ => rfl
  | _ :: gs, acc => by simp [cumSum, cumSum_length gs]

omit [StrHash] in
theorem cumSum_le : ∀ (gs : List (List (List Obj))) (acc : Nat), ∀ x ∈ cumSum gs acc, x ≤ acc + total gs
  | [], acc, x, h => by simp [cumSum] at h; omega
  | g :: gs, acc, x, h => by
    simp only [cumSum, List.mem_cons] at h
    have e : total (g :: gs) = Comb.size g + total gs := by simp [total]
    rcases h with rfl | h
    · omega
    · have := cumSum_le gs _ x h
      omega

omit [StrHash] in
theorem StateIndex.lookupProp_past (I : StateIndex) {i : Nat} (h : total I.gens ≤ i) : I.lookupProp i = .ub := by
  have h1 : lowerBound (fun a b => decide (a < b)) I.groups (i + 1) = I.preds.length + 1 := by
    unfold lowerBound
    rw [List.takeWhile_eq_self_iff.2]
    · simp [groups, cumSum_length, gens]
    · intro x hx
      have := cumSum_le _ _ x hx
      simp; omega
  simp only [lookupProp, h1, Nat.add_sub_cancel]
  have h2 : ∃ v, Res.index I.groups I.preds.length = .ok v := by
    have hl : I.preds.length < I.groups.length := by simp [groups, cumSum_length, gens]
    exact ⟨_, Res.index_lt hl⟩
  obtain ⟨v, hv⟩ := h2
  have h3 : Res.index I.preds I.preds.length = .ub := by simp [Res.index]
  rw [hv, h3]
  rfl

/-! ## Searches -/

namespace PyBfs

variable {N : Type}

omit [StrHash] in
/-- A C++ loop standing on an iterator, as the calls of `next` that follow. -/
theorem drain_of_collect {sp : Space N} {D : Nat} {clock : Nat → Nat → Bool} {fuel : Nat} {root : N} :
    ∀ {steps i : Nat} {it : Bfs.It N} {l : List (List N)}, Bfs.collect sp D clock fuel steps i it = .ok l →
      it.finished = false → ∃ p l', it.cur = some p ∧ l = p :: l' ∧
        drain sp D clock fuel root steps i ⟨it, true⟩ = .ok l'
  | 0, _, _, _, h, _ => by simp [Bfs.collect] at h
  | steps + 1, i, it, l, h, hf => by
    simp only [Bfs.collect, hf, Bool.false_eq_true, if_false] at h
    cases hc : it.cur with
    | none => rw [hc] at h; cases h
    | some p =>
      rw [hc] at h
      simp only [Res.bind_eq_ok, Res.pure_eq, Res.ok.injEq] at h
      obtain ⟨it', h1, rest, h2, rfl⟩ := h
      refine ⟨p, rest, rfl, rfl, ?_⟩
      simp only [drain, next, if_true, h1, Res.bind_ok]
      by_cases hf' : it'.finished = true
      · have : rest = [] := by
          cases steps with
          | zero => simp [Bfs.collect] at h2
          | succ steps => simpa [Bfs.collect, hf'] using h2.symm
        subst this
        simp [hf']
      · simp only [Bool.not_eq_true] at hf'
        obtain ⟨q, l', e1, rfl, e3⟩ := drain_of_collect (root := root) h2 hf'
        simp [hf', e1, e3]

omit [StrHash] in
theorem drain_of_run {sp : Space N} {D : Nat} {clock : Nat → Nat → Bool} {fuel : Nat} {root : N}
    {l : List (List N)} (h : Bfs.run sp D clock fuel root = .ok l) :
    drain sp D clock fuel root (fuel + 1) 0 new = .ok l := by
  simp only [Bfs.run, Res.bind_eq_ok] at h
  obtain ⟨it, h1, h2⟩ := h
  simp only [drain, next, new, Bool.false_eq_true, if_false, h1, Res.bind_ok]
  by_cases hf : it.finished = true
  · have : l = [] := by
      cases fuel with
      | zero => simp [Bfs.collect] at h2
      | succ fuel => simpa [Bfs.collect, hf] using h2.symm
    subst this
    simp [hf]
  · simp only [Bool.not_eq_true] at hf
    obtain ⟨q, l', e1, rfl, e3⟩ := drain_of_collect (root := root) h2 hf
    simp [hf, e1, e3]

omit [StrHash] in
/-- At the end every call raises `StopIteration`. -/
theorem calls_end {sp : Space N} {D : Nat} {clock : Nat → Nat → Bool} {fuel : Nat} {root : N} {it : Bfs.It N}
    (h : it.finished = true) : ∀ (n i : Nat),
      calls sp D clock (fuel + 1) root n i ⟨it, true⟩ = .ok (List.replicate n none, ⟨it, true⟩)
  | 0, _ => rfl
  | n + 1, i => by
    have h1 : Bfs.next sp D (clock i) (fuel + 1) 0 it = .ok it := by
      obtain ⟨queue, cur⟩ := it
      simp only [Bfs.It.finished, Bool.and_eq_true, List.isEmpty_iff, Option.isNone_iff_eq_none] at h
      obtain ⟨rfl, rfl⟩ := h
      rfl
    simp only [calls, next, if_true, h1, Res.bind_ok, h, Res.pure_eq, calls_end h n (i + 1), List.replicate_succ]

omit [StrHash] in
/-- The calls of `next` give what a loop would, then `StopIteration`. -/
theorem calls_of_drain {sp : Space N} {D : Nat} {clock : Nat → Nat → Bool} {fuel : Nat} {root : N} :
    ∀ {steps i : Nat} {b : PyBfs N} {l : List (List N)}, drain sp D clock (fuel + 1) root steps i b = .ok l →
      ∀ n, ∃ b', calls sp D clock (fuel + 1) root n i b = .ok ((l.map some ++ List.replicate n none).take n, b')
  | 0, _, _, _, h, _ => by simp [drain] at h
  | steps + 1, i, b, l, h, 0 => ⟨b, rfl⟩
  | steps + 1, i, b, l, h, n + 1 => by
    simp only [drain, Res.bind_eq_ok] at h
    obtain ⟨r, h1, h2⟩ := h
    obtain ⟨r, b₁⟩ := r
    simp only [calls, h1, Res.bind_ok]
    cases r with
    | none =>
      simp only [Res.pure_eq, Res.ok.injEq] at h2
      subst h2
      have hb : ∃ it : Bfs.It N, it.finished = true ∧ b₁ = ⟨it, true⟩ := by
        simp only [next, Res.bind_eq_ok] at h1
        obtain ⟨it, -, h3⟩ := h1
        split at h3
        · rename_i hf
          simp only [Res.pure_eq, Res.ok.injEq, Prod.mk.injEq] at h3
          exact ⟨it, hf, h3.2.symm⟩
        · split at h3
          · cases h3
          · simp at h3
      obtain ⟨it, hf, rfl⟩ := hb
      refine ⟨⟨it, true⟩, ?_⟩
      simp only [calls_end hf n (i + 1), Res.bind_ok, Res.pure_eq, List.map_nil, List.nil_append, List.replicate_succ,
        List.take_succ_cons, List.take_replicate, Nat.min_self]
    | some p =>
      simp only [Res.bind_eq_ok, Res.pure_eq, Res.ok.injEq] at h2
      obtain ⟨rest, h3, rfl⟩ := h2
      obtain ⟨b', h4⟩ := calls_of_drain h3 n
      refine ⟨b', ?_⟩
      simp only [h4, Res.bind_ok, Res.pure_eq, List.map_cons, List.cons_append, List.take_succ_cons, Res.ok.injEq,
        Prod.mk.injEq, List.cons.injEq, true_and, and_true, List.replicate_succ']
      rw [← List.append_assoc]
      exact (List.take_append_of_le_length (l₁ := rest.map some ++ List.replicate n none) (by simp)).symm

omit [StrHash] in
theorem drain_mono {sp : Space N} {D : Nat} {clock : Nat → Nat → Bool} {fuel : Nat} {root : N} :
    ∀ {steps steps' i : Nat} {b : PyBfs N} {l : List (List N)}, drain sp D clock fuel root steps i b = .ok l →
      steps ≤ steps' → drain sp D clock fuel root steps' i b = .ok l
  | 0, _, _, _, _, h, _ => by simp [drain] at h
  | steps + 1, 0, _, _, _, _, hs => by omega
  | steps + 1, steps' + 1, i, b, l, h, hs => by
    simp only [drain, Res.bind_eq_ok] at h
    obtain ⟨⟨r, b₁⟩, h1, h2⟩ := h
    simp only [drain, h1, Res.bind_ok]
    cases r with
    | none => exact h2
    | some p =>
      simp only [Res.bind_eq_ok, Res.pure_eq, Res.ok.injEq] at h2
      obtain ⟨rest, h3, rfl⟩ := h2
      simp only [drain_mono h3 (by omega : steps ≤ steps'), Res.bind_ok, Res.pure_eq]

omit [StrHash] in
theorem next_none {sp : Space N} {D : Nat} {late : Nat → Bool} {fuel : Nat} {root : N} {b b' : PyBfs N}
    (h : next sp D late fuel root b = .ok (none, b')) : b'.it.finished = true ∧ b'.initialized = true := by
  simp only [next, Res.bind_eq_ok] at h
  obtain ⟨it, -, h3⟩ := h
  split at h3
  · rename_i hf
    simp only [Res.pure_eq, Res.ok.injEq, Prod.mk.injEq] at h3
    rw [← h3.2]
    exact ⟨hf, rfl⟩
  · split at h3
    · cases h3
    · simp at h3

omit [StrHash] in
/-- After some calls of `next`, a loop gives the rest. -/
theorem drain_of_calls {sp : Space N} {D : Nat} {clock : Nat → Nat → Bool} {fuel : Nat} {root : N} :
    ∀ {n steps i : Nat} {b b' : PyBfs N} {l : List (List N)} {rs : List (Option (List N))},
      drain sp D clock (fuel + 1) root steps i b = .ok l → calls sp D clock (fuel + 1) root n i b = .ok (rs, b') →
      ∃ steps' ≤ steps, drain sp D clock (fuel + 1) root steps' (i + n) b' = .ok (l.drop n)
  | 0, steps, i, b, b', l, rs, h, hc => by
    simp only [calls, Res.ok.injEq, Prod.mk.injEq] at hc
    obtain ⟨-, rfl⟩ := hc
    exact ⟨steps, Nat.le_refl _, h⟩
  | n + 1, 0, _, _, _, _, _, h, _ => by simp [drain] at h
  | n + 1, steps + 1, i, b, b', l, rs, h, hc => by
    simp only [drain, Res.bind_eq_ok] at h
    obtain ⟨⟨r, b₁⟩, h1, h2⟩ := h
    simp only [calls, h1, Res.bind_ok, Res.bind_eq_ok, Res.pure_eq, Res.ok.injEq, Prod.mk.injEq] at hc
    obtain ⟨⟨rs', b''⟩, h3, -, rfl⟩ := hc
    rw [show i + (n + 1) = i + 1 + n by omega]
    cases r with
    | none =>
      simp only [Res.pure_eq, Res.ok.injEq] at h2
      subst h2
      obtain ⟨hf, hi⟩ := next_none h1
      obtain ⟨it, ini⟩ := b₁
      simp only at hf hi
      subst hi
      rw [calls_end hf] at h3
      cases h3
      refine ⟨1, by omega, ?_⟩
      have h4 := calls_end (sp := sp) (D := D) (clock := clock) (fuel := fuel) (root := root) hf 1 (i + 1 + n)
      simp only [calls, Res.bind_eq_ok, Res.pure_eq, Res.ok.injEq, Prod.mk.injEq] at h4
      obtain ⟨⟨r, b₂⟩, h5, ⟨rs2, b3⟩, h6, h7, -⟩ := h4
      simp only [Prod.mk.injEq] at h6
      obtain ⟨rfl, -⟩ := h6
      simp only [List.replicate_one, List.cons.injEq, and_true] at h7
      subst h7
      simp only [drain, h5, Res.bind_ok, Res.pure_eq, List.drop_nil]
    | some p =>
      simp only [Res.bind_eq_ok, Res.pure_eq, Res.ok.injEq] at h2
      obtain ⟨rest, h4, rfl⟩ := h2
      obtain ⟨s', hs, h5⟩ := drain_of_calls h4 h3
      exact ⟨s', by omega, by simpa using h5⟩

end PyBfs
end Symbolic
