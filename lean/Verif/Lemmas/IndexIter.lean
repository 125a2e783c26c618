import Verif.Spec.IndexIter
import Verif.Lemmas.Python

/-!
# Lemmas: iterators over a StateIndex
-/

namespace Symbolic


theorem toI32_small {i : Int} (h1 : -2 ^ 31 ≤ i) (h2 : i < 2 ^ 31) : Comb.toI32 i = i := by
  unfold Comb.toI32
  rw [Int.bmod_def]
  split <;> omega

theorem Listing.length {I : StateIndex} {l : List Atom} (h : Listing I l) : total I.gens = l.length := by
  have := h.size
  rw [StateIndex.size_eq] at this
  exact Res.ok.inj this

theorem Listing.lookup {I : StateIndex} {l : List Atom} (h : Listing I l) {i : Nat} {a : Atom} (ha : l[i]? = some a) :
    I.lookupProp i = .ok a := by
  rw [← (StateIndex.getProposition_ok (StateIndex.CacheOk.empty I) i).1]
  exact h.props i a ha

/-- Dereferencing. -/
theorem IxIt.fetch_ok {I : StateIndex} {l : List Atom} (h : Listing I l) (h31 : l.length < 2 ^ 31) {c : IndexCache}
    (hc : StateIndex.CacheOk I c) {it : IxIt} {p : Nat} (hp : it.idx = p) {a : Atom} (ha : l[p]? = some a) :
    ∃ c', it.fetch I c = .ok (a, c') ∧ StateIndex.CacheOk I c' := by
  have hlt := (List.getElem?_eq_some_iff.1 ha).1
  have hk : (it.idx % 2 ^ 64).toNat = p := by omega
  obtain ⟨h1, h2⟩ := StateIndex.getProposition_ok hc p
  rw [h.lookup ha] at h1
  refine ⟨(I.getProposition c p).2, ?_, h2⟩
  unfold fetch
  simp only [hk]
  rw [if_neg (by omega)]
  generalize I.getProposition c p = r at h1 ⊢
  obtain ⟨r, c'⟩ := r
  simp only at h1
  subst h1
  rfl

/-- Moving within the sequence. -/
theorem IxIt.add_ok {n : Nat} (h31 : n < 2 ^ 31) {it : IxIt} {p : Nat} (hp : it.idx = p) {d : Int}
    (h1 : 0 ≤ (p : Int) + d) (h2 : (p : Int) + d ≤ n) :
    it.add d = .ok ⟨(((p : Int) + d).toNat : Nat), it.prop⟩ := by
  unfold add ptrdiff
  rw [hp, if_pos (by omega)]
  simp only [Res.bind_ok, Res.pure_eq]
  rw [toI32_small (by omega) (by omega)]
  congr 2
  omega

theorem IxIt.sub_ok {n : Nat} (h31 : n < 2 ^ 31) {it : IxIt} {p : Nat} (hp : it.idx = p) (hpn : p ≤ n) {d : Int}
    (h1 : 0 ≤ (p : Int) + -d) (h2 : (p : Int) + -d ≤ n) :
    it.sub d = .ok ⟨(((p : Int) + -d).toNat : Nat), it.prop⟩ := by
  unfold sub
  rw [show ptrdiff (-d) = .ok (-d) by unfold ptrdiff; rw [if_pos (by omega)]]
  exact IxIt.add_ok h31 hp h1 h2

/-- An object is at its position. -/
def AtPos (n : Nat) : Option IxIt → Option Nat → Prop
  | some it, some p => it.idx = p ∧ p ≤ n
  | none, none => True
  | _, _ => False

/-- The objects are at their positions. -/
structure Placed (I : StateIndex) (n : Nat) (m : IxMem) (ps : Cursors) : Prop where
  objs : List.Forall₂ (AtPos n) m.objs ps
  cache : StateIndex.CacheOk I m.cache

theorem Placed.get {I : StateIndex} {n : Nat} {m : IxMem} {ps : Cursors} (h : Placed I n m ps) {o p : Nat}
    (hp : ps.pos o = some p) : ∃ it, m.get o = .ok it ∧ it.idx = p ∧ p ≤ n ∧ o < m.objs.length := by
  unfold Cursors.pos at hp
  rw [Option.join_eq_some_iff] at hp
  obtain ⟨hlt, he⟩ := List.getElem?_eq_some_iff.1 hp
  have hlt' : o < m.objs.length := by rw [h.objs.length_eq]; exact hlt
  have := h.objs.get (i := o) hlt' hlt
  simp only [List.get_eq_getElem, he] at this
  unfold IxMem.get
  rw [List.getElem?_eq_getElem hlt']
  cases hx : m.objs[o] with
  | none => rw [hx] at this; exact this.elim
  | some it => rw [hx] at this; exact ⟨it, rfl, this.1, this.2, hlt'⟩

theorem forall₂_set {α β : Type} {R : α → β → Prop} {a : α} {b : β} (hab : R a b) : ∀ {l : List α} {l' : List β} (i : Nat),
    List.Forall₂ R l l' → List.Forall₂ R (l.set i a) (l'.set i b)
  | _, _, _, .nil => .nil
  | _, _, 0, .cons _ hs => .cons hab hs
  | _, _, i + 1, .cons h hs => .cons h (forall₂_set hab i hs)

theorem forall₂_snoc {α β : Type} {R : α → β → Prop} {a : α} {b : β} (hab : R a b) : ∀ {l : List α} {l' : List β},
    List.Forall₂ R l l' → List.Forall₂ R (l ++ [a]) (l' ++ [b])
  | _, _, .nil => .cons hab .nil
  | _, _, .cons h hs => .cons h (forall₂_snoc hab hs)

theorem Placed.put {I : StateIndex} {n : Nat} {m : IxMem} {ps : Cursors} (h : Placed I n m ps) (o : Nat) {it : IxIt} {p : Nat}
    (hi : it.idx = p) (hp : p ≤ n) : Placed I n (m.put o it) (ps.set o (some p)) :=
  ⟨forall₂_set ⟨hi, hp⟩ o h.objs, h.cache⟩

theorem Placed.alloc {I : StateIndex} {n : Nat} {m : IxMem} {ps : Cursors} (h : Placed I n m ps) {it : IxIt} {p : Nat}
    (hi : it.idx = p) (hp : p ≤ n) : Placed I n (m.alloc it) (ps ++ [some p]) :=
  ⟨forall₂_snoc ⟨hi, hp⟩ h.objs, h.cache⟩

/-- Moving an object. -/
theorem Placed.move {I : StateIndex} {n : Nat} (h31 : n < 2 ^ 31) {m : IxMem} {ps ps' : Cursors} (h : Placed I n m ps)
    {o : Nat} {d : Int} (hm : ps.move n o d = some ps') : ∃ it p q, m.get o = .ok it ∧ ps.pos o = some p ∧ it.idx = p ∧ p ≤ n ∧
      0 ≤ (p : Int) + d ∧ (p : Int) + d ≤ n ∧ q = ((p : Int) + d).toNat ∧ it.add d = .ok ⟨(q : Nat), it.prop⟩ ∧
      Placed I n (m.put o ⟨(q : Nat), it.prop⟩) ps' := by
  unfold Cursors.move at hm
  split at hm
  · rename_i p hp
    split at hm
    · rename_i hr
      obtain ⟨it, h1, h2, h3, -⟩ := h.get hp
      cases hm
      exact ⟨it, p, _, h1, hp, h2, h3, hr.1, hr.2, rfl, IxIt.add_ok h31 h2 hr.1 hr.2, h.put o rfl (by omega)⟩
    · cases hm
  · cases hm

/-- One step. -/
theorem Placed.step {I : StateIndex} {l : List Atom} (hl : Listing I l) (h31 : l.length < 2 ^ 31) {m : IxMem}
    {ps ps' : Cursors} (h : Placed I l.length m ps) {c : IxCmd} (hs : ps.step l.length c = some ps') :
    ∃ m', m.step I c = .ok m' ∧ Placed I l.length m' ps' := by
  cases c with
  | begin => cases hs; exact ⟨_, rfl, h.alloc rfl (Nat.zero_le _)⟩
  | finish =>
    cases hs
    refine ⟨_, ?_, h.alloc (it := ⟨(l.length : Nat), none⟩) rfl (Nat.le_refl _)⟩
    simp only [IxMem.step, IxIt.finish, hl.size, Res.bind_ok, Res.pure_eq]
    rw [toI32_small (by omega) (by omega)]
  | copy o =>
    simp only [Cursors.step] at hs
    split at hs
    · rename_i p hp
      cases hs
      obtain ⟨it, h1, h2, h3, -⟩ := h.get hp
      exact ⟨m.alloc it, by simp only [IxMem.step, h1, Res.bind_ok, Res.pure_eq], h.alloc h2 h3⟩
    · cases hs
  | assign o q =>
    simp only [Cursors.step] at hs
    split at hs
    · rename_i p' p hp' hp
      cases hs
      obtain ⟨it', h1', -⟩ := h.get hp'
      obtain ⟨it, h1, h2, h3, -⟩ := h.get hp
      exact ⟨m.put o it, by simp only [IxMem.step, h1, h1', Res.bind_ok, Res.pure_eq], h.put o h2 h3⟩
    · cases hs
  | add o d =>
    obtain ⟨it, p, q, h1, -, -, -, -, -, -, h3, h4⟩ := h.move h31 hs
    exact ⟨_, by simp only [IxMem.step, h1, h3, Res.bind_ok, Res.pure_eq], h4⟩
  | sub o d =>
    obtain ⟨it, p, q, h1, -, hp, hn, g1, g2, rfl, -, h4⟩ := h.move h31 hs
    exact ⟨_, by simp only [IxMem.step, h1, IxIt.sub_ok h31 hp hn g1 g2, Res.bind_ok, Res.pure_eq], h4⟩
  | inc o =>
    obtain ⟨it, p, q, h1, -, -, -, -, -, -, h3, h4⟩ := h.move h31 hs
    exact ⟨_, by simp only [IxMem.step, h1, IxIt.inc, h3, Res.bind_ok, Res.pure_eq], h4⟩
  | dec o =>
    obtain ⟨it, p, q, h1, -, -, -, -, -, -, h3, h4⟩ := h.move h31 hs
    exact ⟨_, by simp only [IxMem.step, h1, IxIt.dec, h3, Res.bind_ok, Res.pure_eq], h4⟩
  | postInc o =>
    simp only [Cursors.step] at hs
    split at hs
    · rename_i p ps'' hp hm
      cases hs
      obtain ⟨it, p', q, h1, hp', h2, h3, -, -, -, h5, h6⟩ := h.move h31 hm
      rw [hp] at hp'; cases hp'
      exact ⟨_, by simp only [IxMem.step, h1, IxIt.inc, h5, Res.bind_ok, Res.pure_eq], h6.alloc h2 h3⟩
    · cases hs
  | postDec o =>
    simp only [Cursors.step] at hs
    split at hs
    · rename_i p ps'' hp hm
      cases hs
      obtain ⟨it, p', q, h1, hp', h2, h3, -, -, -, h5, h6⟩ := h.move h31 hm
      rw [hp] at hp'; cases hp'
      exact ⟨_, by simp only [IxMem.step, h1, IxIt.dec, h5, Res.bind_ok, Res.pure_eq], h6.alloc h2 h3⟩
    · cases hs
  | deref o =>
    simp only [Cursors.step] at hs
    split at hs
    · rename_i p hp
      split at hs
      · rename_i hlt
        cases hs
        obtain ⟨it, h1, h2, h3, -⟩ := h.get hp
        obtain ⟨c', h4, h5⟩ := IxIt.fetch_ok hl h31 h.cache h2 (List.getElem?_eq_getElem hlt)
        refine ⟨_, by simp only [IxMem.step, h1, h4, Res.bind_ok, Res.pure_eq]; rfl, ?_, h5⟩
        have := (h.put o (it := { it with prop := some l[p] }) h2 h3).objs
        have e : ps.set o (some p) = ps := by
          unfold Cursors.pos at hp
          rw [Option.join_eq_some_iff] at hp
          obtain ⟨hlt, he⟩ := List.getElem?_eq_some_iff.1 hp
          rw [← he, List.set_getElem_self]
        rw [e] at this
        exact this
      · cases hs
    · cases hs
  | destroy o =>
    simp only [Cursors.step] at hs
    split at hs
    · rename_i p hp
      cases hs
      obtain ⟨it, h1, -⟩ := h.get hp
      exact ⟨{ m with objs := m.objs.set o none }, by simp only [IxMem.step, h1, Res.bind_ok, Res.pure_eq],
        forall₂_set trivial o h.objs, h.cache⟩
    · cases hs

theorem Placed.run {I : StateIndex} {l : List Atom} (hl : Listing I l) (h31 : l.length < 2 ^ 31) :
    ∀ {prog : List IxCmd} {m : IxMem} {ps ps' : Cursors}, Placed I l.length m ps → ps.run l.length prog = some ps' →
    ∃ m', m.run I prog = .ok m' ∧ Placed I l.length m' ps'
  | [], m, ps, ps', h, hs => by cases hs; exact ⟨m, rfl, h⟩
  | c :: cs, m, ps, ps', h, hs => by
    simp only [Cursors.run] at hs
    split at hs
    · rename_i ps1 h1
      obtain ⟨m1, h2, h3⟩ := h.step hl h31 h1
      obtain ⟨m2, h4, h5⟩ := Placed.run hl h31 h3 hs
      exact ⟨m2, by simp only [IxMem.run, h2, Res.bind_ok, h4], h5⟩
    · cases hs

theorem Cursors.run_append {n : Nat} : ∀ {p q : List IxCmd} {ps : Cursors},
    ps.run n (p ++ q) = (ps.run n p).bind fun ps' => ps'.run n q
  | [], q, ps => rfl
  | c :: p, q, ps => by
    simp only [List.cons_append, Cursors.run]
    cases ps.step n c with
    | none => rfl
    | some ps' => exact Cursors.run_append

theorem IxMem.run_append {I : StateIndex} : ∀ {p q : List IxCmd} {m : IxMem},
    m.run I (p ++ q) = (m.run I p).bind fun m' => m'.run I q
  | [], q, m => rfl
  | c :: p, q, m => by
    simp only [List.cons_append, IxMem.run]
    cases h : m.step I c with
    | ok m' => exact IxMem.run_append
    | _ => rfl

theorem IxIt.add_prop {it it' : IxIt} {d : Int} (h : it.add d = .ok it') : it'.prop = it.prop := by
  simp only [add, Res.bind_eq_ok, Res.pure_eq, Res.ok.injEq] at h
  obtain ⟨_, -, rfl⟩ := h
  rfl

theorem IxIt.sub_prop {it it' : IxIt} {d : Int} (h : it.sub d = .ok it') : it'.prop = it.prop := by
  simp only [sub, Res.bind_eq_ok] at h
  obtain ⟨_, -, h⟩ := h
  exact add_prop h

theorem read_alloc {m : IxMem} {o : Nat} {a : Option Atom} {it : IxIt} (h : m.read o = .ok a) :
    (m.alloc it).read o = .ok a := by
  unfold IxMem.read IxMem.get at h ⊢
  unfold IxMem.alloc
  cases hx : m.objs[o]? with
  | none => rw [hx] at h; simp [Bind.bind, Res.bind] at h
  | some x =>
    rw [hx] at h
    rw [show (m.objs ++ [some it])[o]? = some x by
      rw [List.getElem?_append_left (List.getElem?_eq_some_iff.1 hx).1]; exact hx]
    exact h

theorem read_put {m : IxMem} {o q : Nat} {a : Option Atom} {it it' : IxIt} (h : m.read o = .ok a) (hg : m.get q = .ok it)
    (hp : q = o → it'.prop = it.prop) : (m.put q it').read o = .ok a := by
  unfold IxMem.read at h ⊢
  by_cases hq : q = o
  · subst hq
    rw [hg] at h
    have hlt : q < m.objs.length := by
      unfold IxMem.get at hg
      split at hg
      · rename_i hx; exact (List.getElem?_eq_some_iff.1 hx).1
      · cases hg
    have : (m.put q it').get q = .ok it' := by
      unfold IxMem.get IxMem.put
      simp [hlt]
    rw [this]
    simp only [Res.bind_ok, Res.pure_eq, Res.ok.injEq] at h ⊢
    rw [hp rfl]; exact h
  · have : (m.put q it').get o = m.get o := by
      unfold IxMem.get IxMem.put
      simp [List.getElem?_set_ne hq]
    rw [this]; exact h

/-- Steps that do not touch what a reference refers to. -/
theorem read_step {I : StateIndex} {m m' : IxMem} {c : IxCmd} {o : Nat} {a : Option Atom} (hc : ¬ c.Touches o)
    (h : m.read o = .ok a) (hs : m.step I c = .ok m') : m'.read o = .ok a := by
  cases c with
  | begin => cases hs; exact read_alloc h
  | finish =>
    simp only [IxMem.step, Res.bind_eq_ok, Res.pure_eq, Res.ok.injEq] at hs
    obtain ⟨it, -, rfl⟩ := hs
    exact read_alloc h
  | copy q =>
    simp only [IxMem.step, Res.bind_eq_ok, Res.pure_eq, Res.ok.injEq] at hs
    obtain ⟨it, -, rfl⟩ := hs
    exact read_alloc h
  | assign q p =>
    simp only [IxMem.step, Res.bind_eq_ok, Res.pure_eq, Res.ok.injEq] at hs
    obtain ⟨it, h1, it', h2, rfl⟩ := hs
    exact read_put h h1 (fun e => (hc e).elim)
  | add q d =>
    simp only [IxMem.step, Res.bind_eq_ok, Res.pure_eq, Res.ok.injEq] at hs
    obtain ⟨it, h1, it', h2, rfl⟩ := hs
    exact read_put h h1 (fun _ => IxIt.add_prop h2)
  | sub q d =>
    simp only [IxMem.step, Res.bind_eq_ok, Res.pure_eq, Res.ok.injEq] at hs
    obtain ⟨it, h1, it', h2, rfl⟩ := hs
    exact read_put h h1 (fun _ => IxIt.sub_prop h2)
  | inc q =>
    simp only [IxMem.step, Res.bind_eq_ok, Res.pure_eq, Res.ok.injEq] at hs
    obtain ⟨it, h1, it', h2, rfl⟩ := hs
    exact read_put h h1 (fun _ => IxIt.add_prop h2)
  | dec q =>
    simp only [IxMem.step, Res.bind_eq_ok, Res.pure_eq, Res.ok.injEq] at hs
    obtain ⟨it, h1, it', h2, rfl⟩ := hs
    exact read_put h h1 (fun _ => IxIt.add_prop h2)
  | postInc q =>
    simp only [IxMem.step, Res.bind_eq_ok, Res.pure_eq, Res.ok.injEq] at hs
    obtain ⟨it, h1, it', h2, rfl⟩ := hs
    exact read_alloc (read_put h h1 (fun _ => IxIt.add_prop h2))
  | postDec q =>
    simp only [IxMem.step, Res.bind_eq_ok, Res.pure_eq, Res.ok.injEq] at hs
    obtain ⟨it, h1, it', h2, rfl⟩ := hs
    exact read_alloc (read_put h h1 (fun _ => IxIt.add_prop h2))
  | deref q =>
    simp only [IxMem.step, Res.bind_eq_ok, Res.pure_eq, Res.ok.injEq] at hs
    obtain ⟨it, h1, r, -, rfl⟩ := hs
    exact read_put (it' := { it with prop := some r.1 }) h h1 (fun e => (hc e).elim)
  | destroy q =>
    simp only [IxMem.step, Res.bind_eq_ok, Res.pure_eq, Res.ok.injEq] at hs
    obtain ⟨it, h1, rfl⟩ := hs
    have hq : q ≠ o := fun e => hc e
    unfold IxMem.read IxMem.get at h ⊢
    rw [List.getElem?_set_ne hq]
    exact h

theorem read_run {I : StateIndex} {o : Nat} {a : Option Atom} : ∀ {prog : List IxCmd} {m m' : IxMem},
    (∀ c ∈ prog, ¬ c.Touches o) → m.read o = .ok a → m.run I prog = .ok m' → m'.read o = .ok a
  | [], m, m', _, h, hs => by cases hs; exact h
  | c :: cs, m, m', hc, h, hs => by
    simp only [IxMem.run, Res.bind_eq_ok] at hs
    obtain ⟨m1, h1, h2⟩ := hs
    exact read_run (fun c hm => hc c (by simp [hm])) (read_step (hc c (by simp)) h h1) h2

/-- What `*o` refers to, right after. -/
theorem read_deref {I : StateIndex} {l : List Atom} (hl : Listing I l) (h31 : l.length < 2 ^ 31) {m : IxMem}
    {ps : Cursors} (h : Placed I l.length m ps) {o p : Nat} (hp : ps.pos o = some p) {a : Atom} (ha : l[p]? = some a) :
    ∃ m', m.step I (.deref o) = .ok m' ∧ m'.read o = .ok (some a) ∧ Placed I l.length m' ps := by
  have hlt := (List.getElem?_eq_some_iff.1 ha).1
  have hst : ps.step l.length (.deref o) = some ps := by simp only [Cursors.step, hp, if_pos hlt]
  obtain ⟨m', h1, h2⟩ := h.step hl h31 hst
  refine ⟨m', h1, ?_, h2⟩
  obtain ⟨it, g1, g2, g3, g4⟩ := h.get hp
  obtain ⟨c', g5, -⟩ := IxIt.fetch_ok hl h31 h.cache g2 ha
  simp only [IxMem.step, g1, g5, Res.bind_ok, Res.pure_eq, Res.ok.injEq] at h1
  subst h1
  simp [IxMem.read, IxMem.get, IxMem.put, g4]

end Symbolic
