import Verif.Spec.PyLife
import Verif.Lemmas.Res

/-!
# Lemmas about the life of objects

The counts are right (`Good`), so that an object is alive exactly if it is held (`alive_iff`).
-/

namespace Symbolic.PyLife

/-- What an object contributes to the count of `j`. -/
def weight (c : Cell) (j : Nat) : Nat := if c.refs ≠ 0 ∧ c.inst.keeps = some j then 1 else 0

/-- The live objects that keep `j`. -/
def keepers : List Cell → Nat → Nat
  | [], _ => 0
  | c :: cs, j => weight c j + keepers cs j

/-- The variables that have `j`. -/
def holders : List (Nat × Nat) → Nat → Nat
  | [], _ => 0
  | b :: bs, j => (if b.2 = j then 1 else 0) + holders bs j

/-- One for `i`. -/
def one (i : Nat) : Nat → Nat := fun j => if j = i then 1 else 0

/-- The counts are right except for `d`, by which they are too large. -/
structure Good (vars : List (Nat × Nat)) (cells : List Cell) (d : Nat → Nat) : Prop where
  nodup : (vars.map (·.1)).Nodup
  bound : ∀ b ∈ vars, b.2 < cells.length
  down : ∀ (i : Nat) (c : Cell), cells[i]? = some c → ∀ j, c.inst.keeps = some j → j < i
  refs : ∀ (i : Nat) (c : Cell), cells[i]? = some c → c.refs = holders vars i + keepers cells i + d i

theorem keepers_set {cells : List Cell} {i : Nat} {c : Cell} (h : cells[i]? = some c) (c' : Cell) (j : Nat) :
    keepers (cells.set i c') j + weight c j = keepers cells j + weight c' j := by
  induction cells generalizing i with
  | nil => simp at h
  | cons a as ih =>
    cases i with
    | zero =>
      simp only [List.getElem?_cons_zero, Option.some.injEq] at h; subst h
      simp only [List.set_cons_zero, keepers]; omega
    | succ i =>
      simp only [List.getElem?_cons_succ] at h
      simp only [List.set_cons_succ, keepers]
      have := ih h
      omega

theorem keepers_append (cells : List Cell) (c : Cell) (j : Nat) : keepers (cells ++ [c]) j = keepers cells j + weight c j := by
  induction cells with
  | nil => simp [keepers]
  | cons a as ih => simp only [List.cons_append, keepers, ih]; omega

theorem keepers_pos {cells : List Cell} {i j : Nat} {c : Cell} (h : cells[i]? = some c) (hr : c.refs ≠ 0)
    (hk : c.inst.keeps = some j) : 0 < keepers cells j := by
  induction cells generalizing i with
  | nil => simp at h
  | cons a as ih =>
    cases i with
    | zero =>
      simp only [List.getElem?_cons_zero, Option.some.injEq] at h; subst h
      simp [keepers, weight, hr, hk]; omega
    | succ i =>
      simp only [List.getElem?_cons_succ] at h
      have := ih h
      simp only [keepers]; omega

theorem of_keepers_pos {cells : List Cell} {j : Nat} (h : 0 < keepers cells j) :
    ∃ (i : Nat) (c : Cell), cells[i]? = some c ∧ c.refs ≠ 0 ∧ c.inst.keeps = some j := by
  induction cells with
  | nil => simp [keepers] at h
  | cons a as ih =>
    simp only [keepers] at h
    by_cases ha : a.refs ≠ 0 ∧ a.inst.keeps = some j
    · exact ⟨0, a, rfl, ha.1, ha.2⟩
    · simp only [weight, if_neg ha, Nat.zero_add] at h
      obtain ⟨i, c, h1, h2⟩ := ih h
      exact ⟨i + 1, c, h1, h2⟩

theorem holders_pos {vars : List (Nat × Nat)} {b : Nat × Nat} (h : b ∈ vars) : 0 < holders vars b.2 := by
  induction vars with
  | nil => simp at h
  | cons a as ih =>
    rcases List.mem_cons.1 h with rfl | h
    · simp only [holders, if_pos]; omega
    · have := ih h; simp only [holders]; omega

theorem of_holders_pos {vars : List (Nat × Nat)} {j : Nat} (h : 0 < holders vars j) : ∃ b ∈ vars, b.2 = j := by
  induction vars with
  | nil => simp [holders] at h
  | cons a as ih =>
    simp only [holders] at h
    by_cases ha : a.2 = j
    · exact ⟨a, List.mem_cons_self, ha⟩
    · rw [if_neg ha, Nat.zero_add] at h
      obtain ⟨b, h1, h2⟩ := ih h
      exact ⟨b, List.mem_cons_of_mem _ h1, h2⟩

theorem lookup_mem {vars : List (Nat × Nat)} {y i : Nat} (h : lookup vars y = some i) : (y, i) ∈ vars := by
  simp only [lookup, Option.map_eq_some_iff] at h
  obtain ⟨b, h1, rfl⟩ := h
  have := List.find?_some h1
  simp only [decide_eq_true_eq] at this
  subst this
  exact List.mem_of_find?_eq_some h1

theorem lookup_none {vars : List (Nat × Nat)} {y : Nat} (h : lookup vars y = none) : ∀ b ∈ vars, b.1 ≠ y := by
  simp only [lookup, Option.map_eq_none_iff, List.find?_eq_none, decide_eq_true_eq] at h
  exact h

theorem unbind_self {vars : List (Nat × Nat)} {x : Nat} (h : ∀ b ∈ vars, b.1 ≠ x) : unbind vars x = vars := by
  simp only [unbind, List.filter_eq_self, decide_eq_true_eq]; exact h

theorem holders_unbind {vars : List (Nat × Nat)} (hn : (vars.map (·.1)).Nodup) {x o : Nat} (h : lookup vars x = some o)
    (j : Nat) : holders vars j = holders (unbind vars x) j + one o j := by
  induction vars with
  | nil => simp [lookup] at h
  | cons a as ih =>
    simp only [List.map_cons, List.nodup_cons] at hn
    by_cases ha : a.1 = x
    · have h1 : unbind (a :: as) x = as := by
        simp only [unbind, List.filter_cons, ha, ne_eq, not_true, decide_false, Bool.false_eq_true, if_false]
        refine unbind_self fun b hb e => hn.1 ?_
        rw [ha, ← e]; exact List.mem_map_of_mem (f := (·.1)) hb
      have h2 : a.2 = o := by simpa [lookup, ha] using h
      rw [h1, holders, ← h2, one]
      simp only [eq_comm (a := a.2)]; omega
    · have h1 : unbind (a :: as) x = a :: unbind as x := by simp [unbind, ha]
      have h2 : lookup as x = some o := by simpa [lookup, ha] using h
      rw [h1, holders, holders, ih hn.2 h2]; omega

theorem get_set {cells : List Cell} {i : Nat} {c c' : Cell} (hc : cells[i]? = some c) (n : Nat) (e : Cell)
    (he : (cells.set i c')[n]? = some e) : (n = i ∧ e = c') ∨ (n ≠ i ∧ cells[n]? = some e) := by
  have hlt := (List.getElem?_eq_some_iff.1 hc).1
  by_cases h : n = i
  · subst h
    rw [List.getElem?_set_self hlt] at he
    exact .inl ⟨rfl, (Option.some.inj he).symm⟩
  · rw [List.getElem?_set_ne (fun e => h e.symm)] at he
    exact .inr ⟨h, he⟩

theorem map_set_inst {cells : List Cell} {i : Nat} {c c' : Cell} (hc : cells[i]? = some c) (h : c'.inst = c.inst) :
    (cells.set i c').map (·.inst) = cells.map (·.inst) := by
  have hlt := (List.getElem?_eq_some_iff.1 hc).1
  refine List.ext_getElem? fun n => ?_
  by_cases hn : n = i
  · subst hn; rw [List.getElem?_map, List.getElem?_map, List.getElem?_set_self hlt, hc]; simp [h]
  · rw [List.getElem?_map, List.getElem?_map, List.getElem?_set_ne (fun e => hn e.symm)]

theorem modify_set {cells : List Cell} {i : Nat} {c : Cell} (hc : cells[i]? = some c) (f : Cell → Cell) :
    cells.modify i f = cells.set i (f c) := by
  have hlt := (List.getElem?_eq_some_iff.1 hc).1
  refine List.ext_getElem? fun n => ?_
  by_cases hn : n = i
  · subst hn; rw [List.getElem?_modify, List.getElem?_set_self hlt, hc]; simp
  · rw [List.getElem?_modify, List.getElem?_set_ne (fun e => hn e.symm)]
    simp [Ne.symm hn]

namespace Good

variable {vars : List (Nat × Nat)} {cells : List Cell} {d : Nat → Nat}

/-- Giving up a reference. -/
theorem release {k i : Nat} (hg : Good vars cells (fun j => d j + one i j)) (hi : i < cells.length) (hk : i < k) :
    Good vars (PyLife.release k cells i) d ∧
      (PyLife.release k cells i).map (·.inst) = cells.map (·.inst) := by
  induction k generalizing cells i with
  | zero => omega
  | succ k ih =>
    obtain ⟨c, hc⟩ : ∃ c, cells[i]? = some c := ⟨_, List.getElem?_eq_getElem hi⟩
    have hrefs := hg.refs i c hc
    have hone : one i i = 1 := by simp [one]
    simp only [hone] at hrefs
    have hself : c.inst.keeps ≠ some i := fun e => Nat.lt_irrefl _ (hg.down i c hc i e)
    have hmap := map_set_inst hc (c' := { c with refs := c.refs - 1 }) rfl
    have hget := get_set hc (c' := { c with refs := c.refs - 1 })
    have hks := fun j => keepers_set hc { c with refs := c.refs - 1 } j
    simp only [PyLife.release, hc]
    have base : ∀ d' : Nat → Nat, (∀ n, keepers (cells.set i { c with refs := c.refs - 1 }) n + d' n = keepers cells n + d n) →
        Good vars (cells.set i { c with refs := c.refs - 1 }) d' := by
      intro d' hd'
      refine ⟨hg.nodup, by simpa using hg.bound, fun n e he j hj => ?_, fun n e he => ?_⟩
      · rcases hget n e he with ⟨rfl, rfl⟩ | ⟨_, he⟩
        · exact hg.down n c hc j hj
        · exact hg.down n e he j hj
      · have := hd' n
        rcases hget n e he with ⟨rfl, rfl⟩ | ⟨hne, he⟩
        · simp only; omega
        · have h1 := hg.refs n e he
          simp only [one, if_neg hne] at h1
          omega
    split
    · rename_i h1
      split
      · rename_i j hj
        have hlt := hg.down i c hc j hj
        have := ih (cells := cells.set i { c with refs := c.refs - 1 }) (i := j) (base _ fun n => ?_) (by simp; omega) (by omega)
        · exact ⟨this.1, this.2.trans hmap⟩
        · have := hks n
          simp only [weight, h1, hj, Option.some.injEq] at this
          simp only [one]
          by_cases e : n = j
          · subst e; simp at this; simp [h1]; omega
          · simp [Ne.symm e] at this; simp [e, h1]; omega
      · rename_i hj
        refine ⟨base d fun n => ?_, hmap⟩
        have := hks n
        simp only [weight, hj] at this
        simp at this; omega
    · rename_i h1
      refine ⟨base d fun n => ?_, hmap⟩
      have := hks n
      have e1 : c.refs - 1 ≠ 0 := by omega
      have e2 : c.refs ≠ 0 := by omega
      simp only [weight, ne_eq, e1, e2, not_false_iff, true_and] at this
      omega

/-- Taking a reference. -/
theorem inc (hg : Good vars cells d) {i : Nat} (hi : PyLife.alive cells i = true) :
    Good vars (PyLife.inc cells i) (fun j => d j + one i j) ∧ (PyLife.inc cells i).map (·.inst) = cells.map (·.inst) := by
  obtain ⟨c, hc, hr⟩ : ∃ c, cells[i]? = some c ∧ c.refs ≠ 0 := by
    unfold PyLife.alive at hi
    split at hi
    · rename_i c hc; exact ⟨c, hc, by simpa using hi⟩
    · simp at hi
  have hlt := (List.getElem?_eq_some_iff.1 hc).1
  have he : PyLife.inc cells i = cells.set i { c with refs := c.refs + 1 } := modify_set hc _
  have hget := get_set hc (c' := { c with refs := c.refs + 1 })
  have hks : ∀ j, keepers (cells.set i { c with refs := c.refs + 1 }) j = keepers cells j := by
    intro j
    have := keepers_set hc { c with refs := c.refs + 1 } j
    simp only [weight, hr, ne_eq, not_false_iff, true_and, Nat.add_one_ne_zero] at this
    omega
  rw [he]
  refine ⟨⟨hg.nodup, by simpa using hg.bound, fun n e he j hj => ?_, fun n e he => ?_⟩, ?_⟩
  · rcases hget n e he with ⟨rfl, rfl⟩ | ⟨_, he⟩
    · exact hg.down n c hc j hj
    · exact hg.down n e he j hj
  · rw [hks]
    rcases hget n e he with ⟨rfl, rfl⟩ | ⟨hne, he⟩
    · have := hg.refs n c hc; simp only [one, if_pos]; omega
    · have := hg.refs n e he; simp only [one, if_neg hne]; omega
  · exact map_set_inst hc rfl

/-- A change of a search. -/
theorem modify (hg : Good vars cells d) {i : Nat} {c : Cell} (hc : cells[i]? = some c) {t : Inst}
    (hk : t.keeps = c.inst.keeps) : Good vars (cells.modify i fun c => { c with inst := t }) d := by
  have hlt := (List.getElem?_eq_some_iff.1 hc).1
  have hget := get_set hc (c' := { c with inst := t })
  have hks : ∀ j, keepers (cells.set i { c with inst := t }) j = keepers cells j := by
    intro j
    have := keepers_set hc { c with inst := t } j
    simp only [weight, hk] at this
    omega
  rw [modify_set hc]
  refine ⟨hg.nodup, by simpa using hg.bound, fun n e he j hj => ?_, fun n e he => ?_⟩
  · rcases hget n e he with ⟨rfl, rfl⟩ | ⟨_, he⟩
    · exact hg.down n c hc j (hk ▸ hj)
    · exact hg.down n e he j hj
  · rw [hks]
    rcases hget n e he with ⟨rfl, rfl⟩ | ⟨_, he⟩
    · exact hg.refs n c hc
    · exact hg.refs n e he

/-- Binding a variable to an object for which a reference was taken. -/
theorem assign (hg : Good vars cells (one i)) (hi : i < cells.length) (x : Nat) :
    Good ((x, i) :: unbind vars x) (dropOld (lookup vars x) cells) (fun _ => 0) ∧
      (dropOld (lookup vars x) cells).map (·.inst) = cells.map (·.inst) := by
  have hnd : ((x, i) :: unbind vars x).map (·.1) |>.Nodup := by
    simp only [List.map_cons, List.nodup_cons]
    refine ⟨?_, (hg.nodup.sublist ((List.filter_sublist).map _))⟩
    simp [unbind]
  have hb : ∀ b ∈ (x, i) :: unbind vars x, b.2 < cells.length := by
    intro b hb
    rcases List.mem_cons.1 hb with rfl | hb
    · exact hi
    · exact hg.bound b ((List.mem_filter.1 hb).1)
  cases h : lookup vars x with
  | none =>
    refine ⟨⟨hnd, hb, hg.down, fun n c hc => ?_⟩, rfl⟩
    rw [unbind_self (lookup_none h)]
    have := hg.refs n c hc
    simp only [holders, one, dropOld] at this ⊢
    by_cases e : n = i
    · subst e; simp at this ⊢; omega
    · simp [e, Ne.symm e] at this ⊢; omega
  | some o =>
    have ho : o < cells.length := hg.bound _ (lookup_mem h)
    refine release (d := fun _ => 0) ⟨hnd, hb, hg.down, fun n c hc => ?_⟩ ho (by omega)
    have h1 := hg.refs n c hc
    have h2 := holders_unbind hg.nodup h n
    simp only [holders, one] at h1 h2 ⊢
    by_cases e : n = i
    · subst e; simp at h1 ⊢; omega
    · simp [e, Ne.symm e] at h1 ⊢; omega

end Good

/-- What the object kept alive has. -/
def keptHas (V : Nat → Val) : Option Nat → List Nat
  | some j => (V j).has
  | none => []

/-- Class, Pddl and place of an object. -/
def Fields (i : Nat) (v : Val) : Inst → Prop
  | .pddl => v.kind = .pddl ∧ v.source = i
  | .planner p => v.kind = .planner ∧ v.source = p
  | .part _ p => v.kind = .part ∧ v.source = p
  | .root pl p => v.kind = .node ∧ v.source = p ∧ v.home = pl
  | .node p => v.kind = .node ∧ v.source = p ∧ v.home = i
  | .children _ h p => v.kind = .children ∧ v.source = p ∧ v.home = h
  | .child it p => v.kind = .node ∧ v.source = p ∧ v.home = it
  | .search h p _ _ => v.kind = .search ∧ v.source = p ∧ v.home = h

/-- The value describes the object. -/
structure Desc (V : Nat → Val) (i : Nat) (t : Inst) (v : Val) : Prop where
  id : v.id = i
  has : v.has = i :: keptHas V t.keeps
  home_has : v.kind = .node ∨ v.kind = .children → v.home ∈ v.has
  source_has : v.kind = .pddl ∨ v.kind = .part → v.source ∈ v.has
  fields : Fields i v t

/-- The bookkeeping describes variables and objects. -/
structure Rel (vars : List (Nat × Nat)) (insts : List Inst) (t : Track) (V : Nat → Val) : Prop where
  made : t.made = insts.length
  vars : t.vars = vars.map fun b => (b.1, V b.2)
  desc : ∀ (i : Nat) (o : Inst), insts[i]? = some o → Desc V i o (V i)
  begun : ∀ (i h p : Nat) (b : Option Nat) (d : Bool), insts[i]? = some (.search h p b d) → t.begun i = b.map fun j => (j, d)

/-- The invariant of a run. -/
def Inv (s : St) (t : Track) : Prop :=
  Good s.vars s.cells (fun _ => 0) ∧ ∃ V, Rel s.vars (s.cells.map (·.inst)) t V

section
variable {vars : List (Nat × Nat)} {cells : List Cell} {t : Track} {V : Nat → Val}

theorem Rel.val (hr : Rel vars insts t V) (y : Nat) : t.val y = (lookup vars y).map V := by
  rw [Track.val, hr.vars, lookup, List.find?_map]
  simp only [Option.map_map, Function.comp_def]

theorem alive_get {i : Nat} : alive cells i = true ↔ ∃ c, cells[i]? = some c ∧ c.refs ≠ 0 := by
  unfold alive
  split
  · rename_i c hc; simp [hc]
  · rename_i h; simp [h]

theorem has_trans (hg : Good vars cells d) (hr : Rel vars (cells.map (·.inst)) t V) {m j i : Nat} {c : Cell}
    (hm : m < cells.length) (hj : j ∈ (V m).has) (hc : cells[j]? = some c) (hk : c.inst.keeps = some i) : i ∈ (V m).has := by
  induction m using Nat.strongRecOn with
  | _ m ih =>
    obtain ⟨e, he⟩ : ∃ e, cells[m]? = some e := ⟨_, List.getElem?_eq_getElem hm⟩
    have hd := hr.desc m e.inst (by simp [he])
    rw [hd.has] at hj ⊢
    rcases List.mem_cons.1 hj with rfl | hj
    · rw [hc] at he; cases he
      refine List.mem_cons_of_mem _ ?_
      simp only [hk, keptHas]
      have hlt := hg.down j c hc i hk
      obtain ⟨e', he'⟩ : ∃ e, cells[i]? = some e := ⟨_, List.getElem?_eq_getElem (by omega)⟩
      rw [(hr.desc i e'.inst (by simp [he'])).has]
      exact List.mem_cons_self
    · refine List.mem_cons_of_mem _ ?_
      match hk' : e.inst.keeps with
      | none => simp [hk', keptHas] at hj
      | some n =>
        simp only [hk', keptHas] at hj ⊢
        have := hg.down m e he n hk'
        exact ih n this (by omega) hj

/-- An object is alive exactly if it is held. -/
theorem alive_iff (hg : Good vars cells (fun _ => 0)) (hr : Rel vars (cells.map (·.inst)) t V) (i : Nat) :
    alive cells i = true ↔ t.Held i := by
  constructor
  · intro h
    obtain ⟨n, hn⟩ : ∃ n, n = cells.length - i := ⟨_, rfl⟩
    induction n using Nat.strongRecOn generalizing i with
    | _ n ih =>
      obtain ⟨c, hc, hrefs⟩ := alive_get.1 h
      have hlt := (List.getElem?_eq_some_iff.1 hc).1
      have h1 := hg.refs i c hc
      by_cases hh : 0 < holders vars i
      · obtain ⟨b, hb, rfl⟩ := of_holders_pos hh
        refine ⟨(b.1, V b.2), by rw [hr.vars]; exact List.mem_map_of_mem (f := fun b : Nat × Nat => (b.1, V b.2)) hb, ?_⟩
        show b.2 ∈ (V b.2).has
        rw [(hr.desc b.2 c.inst (by simp [hc])).has]
        exact List.mem_cons_self
      · obtain ⟨j, e, he, hre, hk⟩ := of_keepers_pos (cells := cells) (j := i) (by omega)
        have hij := hg.down j e he i hk
        have hjl := (List.getElem?_eq_some_iff.1 he).1
        obtain ⟨b, hb, hbj⟩ := ih (cells.length - j) (by omega) j (alive_get.2 ⟨e, he, hre⟩) rfl
        refine ⟨b, hb, ?_⟩
        rw [hr.vars] at hb
        obtain ⟨b', hb', rfl⟩ := List.mem_map.1 hb
        exact has_trans hg hr (hg.bound b' hb') hbj he hk
  · rintro ⟨b, hb, hi⟩
    rw [hr.vars] at hb
    obtain ⟨b', hb', rfl⟩ := List.mem_map.1 hb
    have key : ∀ m, alive cells m = true → i ∈ (V m).has → alive cells i = true := by
      intro m
      induction m using Nat.strongRecOn with
      | _ m ih =>
        intro hm hi
        obtain ⟨c, hc, hrefs⟩ := alive_get.1 hm
        rw [(hr.desc m c.inst (by simp [hc])).has] at hi
        rcases List.mem_cons.1 hi with rfl | hi
        · exact hm
        · match hk : c.inst.keeps with
          | none => simp [hk, keptHas] at hi
          | some n =>
            simp only [hk, keptHas] at hi
            have hlt := hg.down m c hc n hk
            have hml := (List.getElem?_eq_some_iff.1 hc).1
            obtain ⟨e, he⟩ : ∃ e, cells[n]? = some e := ⟨_, List.getElem?_eq_getElem (by omega)⟩
            have hp := keepers_pos hc hrefs hk
            have := hg.refs n e he
            exact ih n hlt (alive_get.2 ⟨e, he, by omega⟩) hi
    obtain ⟨c, hc⟩ : ∃ e, cells[b'.2]? = some e := ⟨_, List.getElem?_eq_getElem (hg.bound b' hb')⟩
    have hp := holders_pos hb'
    have := hg.refs _ c hc
    exact key b'.2 (alive_get.2 ⟨c, hc, by omega⟩) hi

theorem touch_held (hg : Good vars cells (fun _ => 0)) (hr : Rel vars (cells.map (·.inst)) t V) {i : Nat} (h : t.Held i) :
    touch cells i = .ok () := by
  rw [touch, if_pos ((alive_iff hg hr i).2 h)]

theorem touch_not (hg : Good vars cells (fun _ => 0)) (hr : Rel vars (cells.map (·.inst)) t V) {i : Nat} (h : ¬ t.Held i) :
    touch cells i = .ub := by
  rw [touch, if_neg (fun e => h ((alive_iff hg hr i).1 e))]

theorem Rel.held_of_has (hr : Rel vars insts t V) {y i j : Nat} (hy : lookup vars y = some i) (hj : j ∈ (V i).has) : t.Held j := by
  refine ⟨(y, V i), ?_, hj⟩
  rw [hr.vars]
  exact List.mem_map.2 ⟨_, lookup_mem hy, rfl⟩

theorem assign_old (hg : Good vars cells (fun _ => 0)) (hr : Rel vars (cells.map (·.inst)) t V) {x y i : Nat}
    (hy : lookup vars y = some i) : Inv (St.assign ⟨vars, cells⟩ x (.old i, cells)) (t.bind x (V i)) := by
  have hi := hg.bound _ (lookup_mem hy)
  have hself : i ∈ (V i).has := by
    obtain ⟨c, hc⟩ : ∃ e, cells[i]? = some e := ⟨_, List.getElem?_eq_getElem hi⟩
    rw [(hr.desc i c.inst (by simp [hc])).has]; exact List.mem_cons_self
  obtain ⟨g1, m1⟩ := hg.inc ((alive_iff hg hr i).2 (hr.held_of_has hy hself))
  have hlen : (inc cells i).length = cells.length := by simp [inc]
  simp only [Nat.zero_add] at g1
  obtain ⟨g2, m2⟩ := Good.assign (i := i) g1 (by simpa [hlen] using hi) x
  refine ⟨g2, V, ?_⟩
  simp only [St.assign, m2, m1]
  refine ⟨hr.made, ?_, hr.desc, hr.begun⟩
  simp only [Track.bind, hr.vars, unbind, List.map_cons, List.filter_map, Function.comp_def]

theorem assign_fresh (hg : Good vars cells (fun _ => 0)) (hr : Rel vars (cells.map (·.inst)) t V) {x : Nat} {o : Inst} {v : Val}
    (hk : ∀ j, o.keeps = some j → t.Held j) (hd : Desc V t.made o v) {g : Nat → Option (Nat × Bool)}
    (hb : ∀ i, i < t.made → g i = t.begun i)
    (hn : ∀ h p b d, o = .search h p b d → g t.made = b.map fun j => (j, d)) :
    Inv (St.assign ⟨vars, cells⟩ x (.fresh o, cells)) { t.bindNew x v with begun := g } := by
  have hmade : t.made = cells.length := by simpa using hr.made
  rw [hmade] at hd hb hn
  obtain ⟨cs, hcs, hlen, hmap, hg1⟩ : ∃ cs, retain o.keeps cells = cs ∧ cs.length = cells.length ∧ cs.map (·.inst) = cells.map (·.inst) ∧
      Good vars cs (fun n => weight ⟨o, 1⟩ n) := by
    match hk' : o.keeps with
    | none =>
      refine ⟨cells, rfl, rfl, rfl, ?_⟩
      have : (fun n => weight ⟨o, 1⟩ n) = fun _ => 0 := by funext n; simp [weight, hk']
      rw [this]; exact hg
    | some j =>
      obtain ⟨g1, m1⟩ := hg.inc ((alive_iff hg hr j).2 (hk j hk'))
      refine ⟨_, rfl, by simp [retain, inc], m1, ?_⟩
      have : (fun n => weight ⟨o, 1⟩ n) = fun n => 0 + one j n := by
        funext n; simp [weight, hk', one, eq_comm]
      rw [this]; exact g1
  have hzero : ∀ i, cs.length ≤ i → holders vars i = 0 ∧ keepers cs i = 0 := by
    intro i hi
    constructor
    · refine Classical.byContradiction fun h => ?_
      obtain ⟨b, hb, rfl⟩ := of_holders_pos (Nat.pos_of_ne_zero h)
      have := hg1.bound b hb; omega
    · refine Classical.byContradiction fun h => ?_
      obtain ⟨j, c, hc, _, hk⟩ := of_keepers_pos (Nat.pos_of_ne_zero h)
      have := hg1.down j c hc i hk
      have := (List.getElem?_eq_some_iff.1 hc).1
      omega
  have hlow : ∀ j, o.keeps = some j → j < cells.length := by
    intro j hj
    obtain ⟨c, hc, _⟩ := alive_get.1 ((alive_iff hg hr j).2 (hk j hj))
    exact (List.getElem?_eq_some_iff.1 hc).1
  have hg2 : Good vars (cs ++ [⟨o, 1⟩]) (one cs.length) := by
    have hget : ∀ (i : Nat) (c : Cell), (cs ++ [⟨o, 1⟩])[i]? = some c →
        (i < cs.length ∧ cs[i]? = some c) ∨ (i = cs.length ∧ c = ⟨o, 1⟩) := by
      intro i c hc
      rcases Nat.lt_trichotomy i cs.length with h | h | h
      · exact .inl ⟨h, by rwa [List.getElem?_append_left h] at hc⟩
      · subst h; simp at hc; exact .inr ⟨rfl, hc.symm⟩
      · rw [List.getElem?_eq_none (by simp; omega)] at hc; cases hc
    refine ⟨hg1.nodup, fun b hb => ?_, fun i c hc j hj => ?_, fun i c hc => ?_⟩
    · have := hg1.bound b hb; simp; omega
    · rcases hget i c hc with ⟨_, h⟩ | ⟨rfl, rfl⟩
      · exact hg1.down i c h j hj
      · rw [hlen]; exact hlow j hj
    · rw [keepers_append]
      rcases hget i c hc with ⟨h, h'⟩ | ⟨rfl, rfl⟩
      · have := hg1.refs i c h'
        simp only [one, if_neg (Nat.ne_of_lt h)]; omega
      · obtain ⟨h1, h2⟩ := hzero _ (Nat.le_refl cs.length)
        have h3 : weight ⟨o, 1⟩ cs.length = 0 := by
          simp only [weight]
          rw [if_neg]
          rintro ⟨_, e⟩
          have := hlow _ e; omega
        simp [h1, h2, h3, one]
  obtain ⟨g3, m3⟩ := Good.assign (i := cs.length) hg2 (by simp) x
  rw [hlen] at g3
  refine ⟨by simpa only [St.assign, hcs] using g3, fun i => if i = cells.length then v else V i, ?_⟩
  simp only [St.assign, hcs, m3, List.map_append, hmap, List.map_cons, List.map_nil]
  have hV : ∀ i, i < cells.length → (if i = cells.length then v else V i) = V i := fun i hi => if_neg (by omega)
  have hcong : ∀ (i : Nat) (o' : Inst) (w : Val), (∀ j, o'.keeps = some j → j < cells.length) → Desc V i o' w →
      Desc (fun i => if i = cells.length then v else V i) i o' w := by
    intro i o' w hj hd
    refine ⟨hd.id, ?_, hd.home_has, hd.source_has, hd.fields⟩
    rw [hd.has]
    match hk' : o'.keeps with
    | none => rfl
    | some j => simp only [keptHas, hV j (hj j hk')]
  have hgetI : ∀ (i : Nat) (o' : Inst), (cells.map (·.inst) ++ [o])[i]? = some o' →
      (i < cells.length ∧ (cells.map (·.inst))[i]? = some o') ∨ (i = cells.length ∧ o' = o) := by
    intro i o' h
    rcases Nat.lt_trichotomy i cells.length with h' | h' | h'
    · exact .inl ⟨h', by rwa [List.getElem?_append_left (by simpa using h')] at h⟩
    · subst h'
      rw [List.getElem?_append_right (by simp)] at h
      simp at h; exact .inr ⟨rfl, h.symm⟩
    · rw [List.getElem?_eq_none (by simp; omega)] at h; cases h
  refine ⟨by simp [Track.bindNew, hmade], ?_, fun i o' h => ?_, fun i h p b d hi => ?_⟩
  · simp only [Track.bindNew, Track.bind, hr.vars, unbind, List.map_cons, List.filter_map, Function.comp_def, if_true]
    congr 1
    refine List.map_congr_left fun b hb => ?_
    rw [hV _ (hg.bound b (List.mem_filter.1 hb).1)]
  · rcases hgetI i o' h with ⟨h1, h2⟩ | ⟨rfl, rfl⟩
    · rw [hV i h1]
      refine hcong i o' _ (fun j hj => ?_) (hr.desc i o' h2)
      rw [List.getElem?_map, Option.map_eq_some_iff] at h2
      obtain ⟨c, hc, rfl⟩ := h2
      have := hg.down i c hc j hj
      omega
    · simp only [if_true]
      exact hcong _ _ _ hlow hd
  · rcases hgetI i _ hi with ⟨h1, h2⟩ | ⟨rfl, h2⟩
    · simp only [hb i h1]
      exact hr.begun i h p b d h2
    · exact hn h p b d h2.symm

theorem modify_search (hg : Good vars cells (fun _ => 0)) (hr : Rel vars (cells.map (·.inst)) t V) {i h p : Nat} {b : Option Nat}
    {d : Bool} (hi : (cells.map (·.inst))[i]? = some (.search h p b d)) (j : Nat) (d' : Bool) :
    Good vars (cells.modify i fun c => { c with inst := .search h p (some j) d' }) (fun _ => 0) ∧
    Rel vars ((cells.modify i fun c => { c with inst := .search h p (some j) d' }).map (·.inst))
      { t with begun := fun n => if n = i then some (j, d') else t.begun n } V := by
  rw [List.getElem?_map, Option.map_eq_some_iff] at hi
  obtain ⟨c, hc, hci⟩ := hi
  have hlt := (List.getElem?_eq_some_iff.1 hc).1
  refine ⟨hg.modify hc (by rw [hci]; rfl), ?_⟩
  rw [modify_set hc]
  have hget : ∀ (n : Nat) (o : Inst), ((cells.set i { c with inst := .search h p (some j) d' }).map (·.inst))[n]? = some o →
      (n = i ∧ o = .search h p (some j) d') ∨ (n ≠ i ∧ (cells.map (·.inst))[n]? = some o) := by
    intro n o ho
    rw [List.getElem?_map, Option.map_eq_some_iff] at ho
    obtain ⟨e, he, rfl⟩ := ho
    rcases get_set hc n e he with ⟨rfl, rfl⟩ | ⟨h1, h2⟩
    · exact .inl ⟨rfl, rfl⟩
    · exact .inr ⟨h1, by simp [h2]⟩
  refine ⟨by simpa using hr.made, hr.vars, fun n o ho => ?_, fun n h' p' b' d'' ho => ?_⟩
  · rcases hget n o ho with ⟨rfl, rfl⟩ | ⟨_, h2⟩
    · have := hr.desc n c.inst (by simp [hc])
      rw [hci] at this
      exact ⟨this.id, this.has, this.home_has, this.source_has, this.fields⟩
    · exact hr.desc n o h2
  · rcases hget n _ ho with ⟨rfl, e⟩ | ⟨h1, h2⟩
    · cases e; simp
    · simp only [if_neg h1]; exact hr.begun n h' p' b' d'' h2

/-- The object of a variable. -/
theorem get_eq (hg : Good vars cells (fun _ => 0)) (hr : Rel vars (cells.map (·.inst)) t V) (y : Nat) :
    (lookup vars y = none ∧ t.val y = none ∧ St.get ⟨vars, cells⟩ y = .exc .runtimeError) ∨
    ∃ i o, lookup vars y = some i ∧ t.val y = some (V i) ∧ (cells.map (·.inst))[i]? = some o ∧ Desc V i o (V i) ∧
      St.get ⟨vars, cells⟩ y = .ok (i, o) ∧ t.Held i := by
  rw [hr.val, St.get]
  match h : lookup vars y with
  | none => exact .inl ⟨rfl, rfl, rfl⟩
  | some i =>
    obtain ⟨c, hc⟩ : ∃ e, cells[i]? = some e := ⟨_, List.getElem?_eq_getElem (hg.bound _ (lookup_mem h))⟩
    have hd := hr.desc i c.inst (by simp [hc])
    refine .inr ⟨i, c.inst, rfl, rfl, by simp [hc], hd, by simp only [hc], hr.held_of_has h ?_⟩
    rw [hd.has]; exact List.mem_cons_self

/-- The node of a variable. -/
theorem getNode_eq (hg : Good vars cells (fun _ => 0)) (hr : Rel vars (cells.map (·.inst)) t V) (y : Nat) :
    (t.valOf .node y = none ∧ St.getNode ⟨vars, cells⟩ y = .exc .runtimeError) ∨
    ∃ i o, lookup vars y = some i ∧ t.valOf .node y = some (V i) ∧ (cells.map (·.inst))[i]? = some o ∧ Desc V i o (V i) ∧
      St.getNode ⟨vars, cells⟩ y = .ok (i, (V i).home, (V i).source) ∧ t.Held i ∧ t.Held (V i).home ∧ (V i).kind = .node := by
  rcases get_eq hg hr y with ⟨h1, h2, h3⟩ | ⟨i, o, h1, h2, h3, h4, h5, h6⟩
  · exact .inl ⟨by simp [Track.valOf, h2], by simp [St.getNode, h3]⟩
  · have hf := h4.fields
    by_cases hk : (V i).kind = .node
    · refine .inr ⟨i, o, h1, by simp [Track.valOf, h2, hk], h3, h4, ?_, h6, hr.held_of_has h1 (h4.home_has (.inl hk)), hk⟩
      simp only [St.getNode, h5, Res.bind_ok]
      cases o <;> simp_all [Fields, Inst.asNode] <;> rfl
    · refine .inl ⟨by simp [Track.valOf, h2, hk], ?_⟩
      simp only [St.getNode, h5, Res.bind_ok]
      cases o <;> simp_all [Fields, Inst.asNode]

/-- The value of a fresh object that keeps nothing. -/
theorem Desc.alone (V : Nat → Val) (n : Nat) {o : Inst} (v : Val) (hk : o.keeps = none) (hid : v.id = n) (hh : v.has = [n])
    (hf : Fields n v o) (h1 : v.kind = .node ∨ v.kind = .children → v.home = n)
    (h2 : v.kind = .pddl ∨ v.kind = .part → v.source = n) : Desc V n o v :=
  ⟨hid, by rw [hh, hk]; rfl, fun h => by rw [h1 h, hh]; exact List.mem_cons_self,
    fun h => by rw [h2 h, hh]; exact List.mem_cons_self, hf⟩

/-- The value of a fresh object that keeps another. -/
theorem Desc.keeping {n i : Nat} {o o' : Inst} {v : Val} (_hi : Desc V i o (V i)) (hk : o'.keeps = some i) (hid : v.id = n)
    (hh : v.has = n :: (V i).has) (hf : Fields n v o')
    (h1 : v.kind = .node ∨ v.kind = .children → v.home ∈ (V i).has)
    (h2 : v.kind = .pddl ∨ v.kind = .part → v.source ∈ (V i).has) : Desc V n o' v :=
  ⟨hid, by rw [hh, hk]; rfl, fun h => by rw [hh]; exact List.mem_cons_of_mem _ (h1 h),
    fun h => by rw [hh]; exact List.mem_cons_of_mem _ (h2 h), hf⟩

theorem Desc.self {i : Nat} {o : Inst} {v : Val} (h : Desc V i o v) : i ∈ v.has := by rw [h.has]; exact List.mem_cons_self

/-- What a statement does agrees with the bookkeeping. -/
def Agrees (s : St) (t : Track) (c : Cmd) : Prop :=
  (¬ (∀ i ∈ t.reads c, t.Held i) ∧ s.step c = .ub) ∨
  ((∀ i ∈ t.reads c, t.Held i) ∧
    ((t.next c = none ∧ s.step c = .exc .runtimeError) ∨
      ∃ s' t', t.next c = some t' ∧ s.step c = .ok s' ∧ Inv s' t'))

theorem agrees_of_none {s : St} {c : Cmd} (h1 : t.reads c = []) (h2 : t.next c = none) (h3 : s.step c = .exc .runtimeError) :
    Agrees s t c := .inr ⟨by simp [h1], .inl ⟨h2, h3⟩⟩

theorem agrees_of_some {s s' : St} {t' : Track} {c : Cmd} (h1 : ∀ i ∈ t.reads c, t.Held i) (h2 : t.next c = some t')
    (h3 : s.step c = .ok s') (h4 : Inv s' t') : Agrees s t c := .inr ⟨h1, .inr ⟨_, _, h2, h3, h4⟩⟩

theorem agrees_of_ub {s : St} {c : Cmd} {i : Nat} (h1 : i ∈ t.reads c) (h2 : ¬ t.Held i) (h3 : s.step c = .ub) :
    Agrees s t c := .inl ⟨fun h => h2 (h i h1), h3⟩

variable (hg : Good vars cells (fun _ => 0)) (hr : Rel vars (cells.map (·.inst)) t V)
include hg hr

theorem step_var (x y : Nat) : Agrees ⟨vars, cells⟩ t (.set x (.var y)) := by
  rcases get_eq hg hr y with ⟨h1, h2, h3⟩ | ⟨i, o, h1, h2, h3, h4, h5, h6⟩
  · exact agrees_of_none rfl (by simp [Track.next, h2]) (by simp [St.step, St.eval, h3])
  · exact agrees_of_some (by simp [Track.reads]) (by simp [Track.next, h2]; rfl)
      (by simp only [St.step, St.eval, h5, Res.bind_ok]; rfl) (assign_old hg hr h1)

theorem step_pddl (x : Nat) : Agrees ⟨vars, cells⟩ t (.set x .pddl) := by
  refine agrees_of_some (by simp [Track.reads]) rfl rfl ?_
  exact (assign_fresh (o := .pddl) (v := ⟨.pddl, t.made, t.made, t.made, [t.made]⟩) (g := t.begun) hg hr (by simp [Inst.keeps]) (Desc.alone V _ _ rfl rfl rfl ⟨rfl, rfl⟩ (by simp) (by simp)) (by simp)
      (by simp))

theorem step_planner (x y : Nat) : Agrees ⟨vars, cells⟩ t (.set x (.planner y)) := by
  rcases get_eq hg hr y with ⟨h1, h2, h3⟩ | ⟨i, o, h1, h2, h3, h4, h5, h6⟩
  · exact agrees_of_none rfl (by simp [Track.next, Track.valOf, h2]) (by simp [St.step, St.eval, h3])
  · have hf := h4.fields
    by_cases hk : o = .pddl
    · subst hk
      have hv : t.valOf .pddl y = some (V i) := by simp [Track.valOf, h2, hf.1]
      refine agrees_of_some (by simp [Track.reads]) (by simp only [Track.next, hv]; rfl)
        (by simp only [St.step, St.eval, h5, Res.bind_ok, touch_held hg hr h6]; rfl) ?_
      exact (assign_fresh (o := .planner i) (v := ⟨.planner, t.made, (V i).id, t.made, [t.made]⟩) (g := t.begun) hg hr (by simp [Inst.keeps]) (Desc.alone V _ _ rfl rfl rfl ⟨rfl, h4.id⟩ (by simp) (by simp)) (by simp)
          (by simp))
    · exact agrees_of_none rfl (by cases o <;> simp_all [Track.next, Track.valOf, Fields])
        (by simp only [St.step, St.eval, h5, Res.bind_ok]; cases o <;> simp_all)

theorem step_part (x y : Nat) : Agrees ⟨vars, cells⟩ t (.set x (.part y)) := by
  rcases get_eq hg hr y with ⟨h1, h2, h3⟩ | ⟨i, o, h1, h2, h3, h4, h5, h6⟩
  · exact agrees_of_none rfl (by simp [Track.next, h2]) (by simp [St.step, St.eval, h3])
  · have hf := h4.fields
    have hself := h4.self
    match ho : o with
    | .pddl =>
      have hv : ((t.val y).filter fun v => decide (v.kind = .pddl ∨ v.kind = .part)) = some (V i) := by simp [h2, hf.1]
      refine agrees_of_some (by simp [Track.reads]) (by simp only [Track.next, hv]; rfl)
        (by simp only [St.step, St.eval, h5, Res.bind_ok, touch_held hg hr h6]; rfl) ?_
      exact (assign_fresh (o := .part i i) (v := ⟨.part, t.made, (V i).source, (V i).source, t.made :: (V i).has⟩) (g := t.begun) hg hr (by simp [Inst.keeps, h6]) (h4.keeping rfl rfl rfl ⟨rfl, hf.2⟩ (by simp)
          (fun _ => h4.source_has (.inl hf.1))) (by simp) (by simp))
    | .part _ p =>
      have hv : ((t.val y).filter fun v => decide (v.kind = .pddl ∨ v.kind = .part)) = some (V i) := by simp [h2, hf.1]
      have hs := h4.source_has (.inr hf.1)
      rw [hf.2] at hs
      refine agrees_of_some (by simp [Track.reads]) (by simp only [Track.next, hv]; rfl)
        (by simp only [St.step, St.eval, h5, Res.bind_ok, touch_held hg hr (hr.held_of_has h1 hs)]; rfl) ?_
      exact (assign_fresh (o := .part i p) (v := ⟨.part, t.made, (V i).source, (V i).source, t.made :: (V i).has⟩) (g := t.begun) hg hr (by simp [Inst.keeps, h6]) (h4.keeping rfl rfl rfl ⟨rfl, hf.2⟩ (by simp)
          (fun _ => h4.source_has (.inr hf.1))) (by simp) (by simp))
    | .planner _ | .root _ _ | .node _ | .children _ _ _ | .child _ _ | .search _ _ _ _ =>
      exact agrees_of_none rfl (by simp [Track.next, h2, hf.1]) (by simp [St.step, St.eval, h5])

theorem step_root (x y : Nat) : Agrees ⟨vars, cells⟩ t (.set x (.root y)) := by
  rcases get_eq hg hr y with ⟨h1, h2, h3⟩ | ⟨i, o, h1, h2, h3, h4, h5, h6⟩
  · exact agrees_of_none rfl (by simp [Track.next, Track.valOf, h2]) (by simp [St.step, St.eval, h3])
  · have hf := h4.fields
    have hself := h4.self
    match ho : o with
    | .planner p =>
      have hv : t.valOf .planner y = some (V i) := by simp [Track.valOf, h2, hf.1]
      refine agrees_of_some (by simp [Track.reads]) (by simp only [Track.next, hv]; rfl)
        (by simp only [St.step, St.eval, h5, Res.bind_ok, touch_held hg hr h6]; rfl) ?_
      exact (assign_fresh (o := .root i p) (v := ⟨.node, t.made, (V i).source, (V i).id, t.made :: (V i).has⟩) (g := t.begun) hg hr (by simp [Inst.keeps, h6]) (h4.keeping rfl rfl rfl ⟨rfl, hf.2, h4.id⟩
          (fun _ => by simp only [h4.id]; exact hself) (by simp)) (by simp) (by simp))
    | .pddl | .part _ _ | .root _ _ | .node _ | .children _ _ _ | .child _ _ | .search _ _ _ _ =>
      exact agrees_of_none rfl (by simp [Track.next, Track.valOf, h2, hf.1]) (by simp [St.step, St.eval, h5])

theorem step_copy (x y : Nat) : Agrees ⟨vars, cells⟩ t (.set x (.copy y)) := by
  rcases getNode_eq hg hr y with ⟨h1, h2⟩ | ⟨i, o, h1, h2, h3, h4, h5, h6, h7, h8⟩
  · exact agrees_of_none rfl (by simp [Track.next, h1]) (by simp [St.step, St.eval, h2])
  · refine agrees_of_some (by simp [Track.reads]) (by simp only [Track.next, h2]; rfl)
      (by simp only [St.step, St.eval, h5, Res.bind_ok, touch_held hg hr h7]; rfl) ?_
    exact (assign_fresh (o := .node (V i).source) (v := ⟨.node, t.made, (V i).source, t.made, [t.made]⟩) (g := t.begun) hg hr (by simp [Inst.keeps]) (Desc.alone V _ _ rfl rfl rfl ⟨rfl, rfl, rfl⟩ (by simp) (by simp)) (by simp)
        (by simp))

theorem step_children (x y : Nat) : Agrees ⟨vars, cells⟩ t (.set x (.children y)) := by
  rcases getNode_eq hg hr y with ⟨h1, h2⟩ | ⟨i, o, h1, h2, h3, h4, h5, h6, h7, h8⟩
  · exact agrees_of_none (by simp [Track.reads, h1]) (by simp [Track.next, h1]) (by simp [St.step, St.eval, h2])
  · by_cases hs : t.Held (V i).source
    · refine agrees_of_some (by simp [Track.reads, h2, hs]) (by simp only [Track.next, h2]; rfl)
        (by simp only [St.step, St.eval, h5, Res.bind_ok, touch_held hg hr h7, touch_held hg hr hs]; rfl) ?_
      exact (assign_fresh (o := .children i (V i).home (V i).source) (v := ⟨.children, t.made, (V i).source, (V i).home, t.made :: (V i).has⟩) (g := t.begun) hg hr (by simp [Inst.keeps, h6]) (h4.keeping rfl rfl rfl ⟨rfl, rfl, rfl⟩
          (fun _ => h4.home_has (.inl h8)) (by simp)) (by simp) (by simp))
    · exact agrees_of_ub (i := (V i).source) (by simp [Track.reads, h2]) hs
        (by simp only [St.step, St.eval, h5, Res.bind_ok, touch_held hg hr h7, touch_not hg hr hs]; rfl)

theorem step_child (x y : Nat) (more : Bool) : Agrees ⟨vars, cells⟩ t (.set x (.child y more)) := by
  rcases get_eq hg hr y with ⟨h1, h2, h3⟩ | ⟨i, o, h1, h2, h3, h4, h5, h6⟩
  · exact agrees_of_none (by simp [Track.reads, Track.valOf, h2]) (by simp [Track.next, Track.valOf, h2])
      (by simp [St.step, St.eval, h3])
  · have hf := h4.fields
    have hself := h4.self
    match ho : o with
    | .children par h p =>
      have hv : t.valOf .children y = some (V i) := by simp [Track.valOf, h2, hf.1]
      have h7 : t.Held h := hr.held_of_has h1 (by rw [← hf.2.2]; exact h4.home_has (.inr hf.1))
      have e : (V i).source = p := hf.2.1
      by_cases hs : t.Held p
      · cases more
        · refine agrees_of_some (t' := t) (by simp [Track.reads, Track.valOf, h2, hf.1, e, hs])
            (by simp [Track.next, Track.valOf, h2, hf.1])
            (by simp only [St.step, St.eval, h5, Res.bind_ok, touch_held hg hr h6, touch_held hg hr h7, touch_held hg hr hs]; rfl)
            ⟨hg, V, hr⟩
        · refine agrees_of_some (by simp [Track.reads, Track.valOf, h2, hf.1, e, hs])
            (by simp only [Track.next, hv]; rfl)
            (by simp only [St.step, St.eval, h5, Res.bind_ok, touch_held hg hr h6, touch_held hg hr h7, touch_held hg hr hs]; rfl) ?_
          exact (assign_fresh (o := .child i p) (v := ⟨.node, t.made, (V i).source, (V i).id, t.made :: (V i).has⟩) (g := t.begun) hg hr (by simp [Inst.keeps, h6]) (h4.keeping rfl rfl rfl ⟨rfl, e, h4.id⟩
              (fun _ => by simp only [h4.id]; exact hself) (by simp)) (by simp) (by simp))
      · exact agrees_of_ub (i := p) (by simp [Track.reads, hv, e]) hs
          (by simp only [St.step, St.eval, h5, Res.bind_ok, touch_held hg hr h6, touch_held hg hr h7, touch_not hg hr hs]; rfl)
    | .pddl | .part _ _ | .root _ _ | .node _ | .planner _ | .child _ _ | .search _ _ _ _ =>
      exact agrees_of_none (by simp [Track.reads, Track.valOf, h2, hf.1]) (by simp [Track.next, Track.valOf, h2, hf.1])
        (by simp [St.step, St.eval, h5])

theorem step_search (x y : Nat) : Agrees ⟨vars, cells⟩ t (.set x (.search y)) := by
  rcases getNode_eq hg hr y with ⟨h1, h2⟩ | ⟨i, o, h1, h2, h3, h4, h5, h6, h7, h8⟩
  · exact agrees_of_none rfl (by simp [Track.next, h1]) (by simp [St.step, St.eval, h2])
  · refine agrees_of_some (by simp [Track.reads]) (by simp only [Track.next, h2]; rfl)
      (by simp only [St.step, St.eval, h5, Res.bind_ok]; rfl) ?_
    exact (assign_fresh (o := .search (V i).home (V i).source none false) (v := ⟨.search, t.made, (V i).source, (V i).home, [t.made]⟩) (g := fun i => if i = t.made then none else t.begun i) hg hr (by simp [Inst.keeps]) (Desc.alone V _ _ rfl rfl rfl ⟨rfl, rfl, rfl⟩ (by simp) (by simp))
        (fun i hi => by simp [Nat.ne_of_lt hi]) (fun _ _ _ _ e => by cases e; simp))

theorem step_again (x y : Nat) : Agrees ⟨vars, cells⟩ t (.set x (.again y)) := by
  rcases get_eq hg hr y with ⟨h1, h2, h3⟩ | ⟨i, o, h1, h2, h3, h4, h5, h6⟩
  · exact agrees_of_none rfl (by simp [Track.next, Track.valOf, h2]) (by simp [St.step, St.eval, h3])
  · have hf := h4.fields
    match ho : o with
    | .search h p b d =>
      have hv : t.valOf .search y = some (V i) := by simp [Track.valOf, h2, hf.1]
      refine agrees_of_some (by simp [Track.reads]) (by simp only [Track.next, hv]; rfl)
        (by simp only [St.step, St.eval, h5, Res.bind_ok, touch_held hg hr h6]; rfl) ?_
      refine (assign_fresh (o := .search h p b d) (v := ⟨.search, t.made, (V i).source, (V i).home, [t.made]⟩) (g := fun n => if n = t.made then t.begun (V i).id else t.begun n) hg hr (by simp [Inst.keeps]) (Desc.alone V _ _ rfl rfl rfl ⟨rfl, hf.2.1, hf.2.2⟩ (by simp) (by simp))
          (fun i hi => by simp [Nat.ne_of_lt hi]) (fun _ _ _ _ e => ?_))
      cases e
      simp only [if_true, h4.id]
      exact hr.begun i h p b d h3
    | .pddl | .part _ _ | .root _ _ | .node _ | .planner _ | .child _ _ | .children _ _ _ =>
      exact agrees_of_none rfl (by simp [Track.next, Track.valOf, h2, hf.1]) (by simp [St.step, St.eval, h5])

theorem found_inv (x : Nat) {i h p : Nat} {b : Option Nat} {d : Bool} (hi : (cells.map (·.inst))[i]? = some (.search h p b d))
    (j : Nat) (a : Answer) :
    ∃ r, St.eval.found ⟨vars, cells⟩ i h p j a = .ok r ∧ Inv (St.assign ⟨vars, cells⟩ x r) (match a with
      | .plan more =>
        { t.bindNew x ⟨.node, t.made, p, t.made, [t.made]⟩ with
          begun := fun n => if n = i then some (j, !more) else t.begun n }
      | .stop => { t with begun := fun n => if n = i then some (j, true) else t.begun n }) := by
  cases a with
  | plan more =>
    obtain ⟨g1, r1⟩ := modify_search hg hr hi j (!more)
    exact ⟨_, rfl, assign_fresh (o := .node p) (v := ⟨.node, t.made, p, t.made, [t.made]⟩) g1 r1 (by simp [Inst.keeps])
      (Desc.alone V _ _ rfl rfl rfl ⟨rfl, rfl, rfl⟩ (by simp) (by simp)) (by simp) (by simp)⟩
  | stop =>
    obtain ⟨g1, r1⟩ := modify_search hg hr hi j true
    exact ⟨_, rfl, g1, V, r1⟩

theorem step_plan (x y : Nat) (a : Answer) : Agrees ⟨vars, cells⟩ t (.set x (.plan y a)) := by
  rcases get_eq hg hr y with ⟨h1, h2, h3⟩ | ⟨i, o, h1, h2, h3, h4, h5, h6⟩
  · exact agrees_of_none (by simp [Track.reads, Track.valOf, h2]) (by simp [Track.next, Track.valOf, h2])
      (by simp [St.step, St.eval, h3])
  · have hf := h4.fields
    match ho : o with
    | .search h p b d =>
      have hb := hr.begun i h p b d h3
      obtain ⟨hf1, hf2, hf3⟩ := hf
      have hv : t.valOf .search y = some (V i) := by simp [Track.valOf, h2, hf1]
      match hb' : b, d with
      | some j, true =>
        refine agrees_of_some (t' := t) (by simp [Track.reads, hv, h4.id, hb]) (by simp [Track.next, hv, h4.id, hb])
          (by simp only [St.step, St.eval, h5, Res.bind_ok, touch_held hg hr h6]; rfl) ⟨hg, V, hr⟩
      | some j, false =>
        simp only [Option.map_some] at hb
        have hreads : t.reads (.set x (.plan y a)) = [p, j] := by simp [Track.reads, hv, h4.id, hb, hf2]
        by_cases hj : t.Held j
        · by_cases hp : t.Held p
          · obtain ⟨r, r1, r2⟩ := found_inv hg hr x h3 j a
            refine agrees_of_some (by simp [hreads, hj, hp]) (by simp only [Track.next, hv, Option.map_some, h4.id, hb, hf2]; rfl)
              (by simp only [St.step, St.eval, h5, Res.bind_ok, touch_held hg hr h6, touch_held hg hr hj, touch_held hg hr hp,
                  Bool.false_eq_true, if_false, r1]; rfl) r2
          · exact agrees_of_ub (i := p) (by simp [hreads]) hp
              (by simp only [St.step, St.eval, h5, Res.bind_ok, touch_held hg hr h6, touch_held hg hr hj, touch_not hg hr hp,
                Bool.false_eq_true, if_false]; rfl)
        · exact agrees_of_ub (i := j) (by simp [hreads]) hj
            (by simp only [St.step, St.eval, h5, Res.bind_ok, touch_held hg hr h6, touch_not hg hr hj,
                Bool.false_eq_true, if_false]; rfl)
      | none, _ =>
        simp only [Option.map_none] at hb
        have hreads : t.reads (.set x (.plan y a)) = [p, h] := by simp [Track.reads, hv, h4.id, hb, hf2, hf3]
        by_cases hh : t.Held h
        · by_cases hp : t.Held p
          · obtain ⟨r, r1, r2⟩ := found_inv hg hr x h3 i a
            refine agrees_of_some (by simp [hreads, hh, hp]) (by simp only [Track.next, hv, Option.map_some, h4.id, hb, hf2]; rfl)
              (by simp only [St.step, St.eval, h5, Res.bind_ok, touch_held hg hr h6, touch_held hg hr hh, touch_held hg hr hp,
                  r1]; rfl) r2
          · exact agrees_of_ub (i := p) (by simp [hreads]) hp
              (by simp only [St.step, St.eval, h5, Res.bind_ok, touch_held hg hr h6, touch_held hg hr hh, touch_not hg hr hp]; rfl)
        · exact agrees_of_ub (i := h) (by simp [hreads]) hh
            (by simp only [St.step, St.eval, h5, Res.bind_ok, touch_held hg hr h6, touch_not hg hr hh]; rfl)
    | .pddl | .part _ _ | .root _ _ | .node _ | .planner _ | .child _ _ | .children _ _ _ =>
      have hv : t.valOf .search y = none := by simp [Track.valOf, h2, hf.1]
      exact agrees_of_none (by simp [Track.reads, hv]) (by simp [Track.next, hv]) (by simp [St.step, St.eval, h5])

theorem step_del (x : Nat) : Agrees ⟨vars, cells⟩ t (.del x) := by
  rcases get_eq hg hr x with ⟨h1, h2, h3⟩ | ⟨i, o, h1, h2, h3, h4, h5, h6⟩
  · exact agrees_of_none rfl (by simp [Track.next, h2]) (by simp only [St.step, h1])
  · have hi := hg.bound _ (lookup_mem h1)
    have hg1 : Good (unbind vars x) cells (fun j => 0 + one i j) := by
      refine ⟨hg.nodup.sublist ((List.filter_sublist).map _), fun b hb => hg.bound b (List.mem_filter.1 hb).1, hg.down,
        fun n c hc => ?_⟩
      have e1 := hg.refs n c hc
      have e2 := holders_unbind hg.nodup h1 n
      omega
    obtain ⟨g2, m2⟩ := hg1.release (k := i + 1) hi (by omega)
    refine agrees_of_some (by simp [Track.reads]) (by simp [Track.next, h2]; rfl) (by simp only [St.step, h1]; rfl) ⟨g2, V, ?_⟩
    simp only [m2]
    refine ⟨hr.made, ?_, hr.desc, hr.begun⟩
    simp [hr.vars, unbind, List.filter_map, Function.comp_def]

theorem step_look (y : Nat) : Agrees ⟨vars, cells⟩ t (.look y) := by
  rcases get_eq hg hr y with ⟨h1, h2, h3⟩ | ⟨i, o, h1, h2, h3, h4, h5, h6⟩
  · exact agrees_of_none (by simp [Track.reads, Track.valOf, h2]) (by simp [Track.next, h2]) (by simp [St.step, h3])
  · have hf := h4.fields
    have hn := getNode_eq hg hr y
    match ho : o with
    | .pddl =>
      exact agrees_of_some (t' := t) (by simp [Track.reads, Track.valOf, h2, hf.1]) (by simp [Track.next, h2, hf.1])
        (by simp only [St.step, h5, Res.bind_ok, touch_held hg hr h6]; rfl) ⟨hg, V, hr⟩
    | .part _ p =>
      have hs := h4.source_has (.inr hf.1)
      rw [hf.2] at hs
      exact agrees_of_some (t' := t) (by simp [Track.reads, Track.valOf, h2, hf.1]) (by simp [Track.next, h2, hf.1])
        (by simp only [St.step, h5, Res.bind_ok, touch_held hg hr (hr.held_of_has h1 hs)]; rfl) ⟨hg, V, hr⟩
    | .planner _ | .children _ _ _ | .search _ _ _ _ =>
      rcases hn with ⟨n1, n2⟩ | ⟨i', o', n1, n2, n3, n4, n5, n6, n7, n8⟩
      · exact agrees_of_none (by simp [Track.reads, n1]) (by simp [Track.next, h2, hf.1])
          (by simp only [St.step, h5, Res.bind_ok, n2]; rfl)
      · rw [h1] at n1; cases n1
        rw [hf.1] at n8; cases n8
    | .root _ _ | .node _ | .child _ _ =>
      rcases hn with ⟨n1, n2⟩ | ⟨i', o', n1, n2, n3, n4, n5, n6, n7, n8⟩
      · simp [Track.valOf, h2, hf.1] at n1
      · rw [h1] at n1; cases n1
        by_cases hs : t.Held (V i).source
        · exact agrees_of_some (t' := t) (by simp [Track.reads, n2, hs]) (by simp [Track.next, h2, hf.1])
            (by simp only [St.step, h5, Res.bind_ok, n5, touch_held hg hr n7, touch_held hg hr hs]; rfl) ⟨hg, V, hr⟩
        · exact agrees_of_ub (i := (V i).source) (by simp [Track.reads, n2]) hs
            (by simp only [St.step, h5, Res.bind_ok, n5, touch_held hg hr n7, touch_not hg hr hs]; rfl)

theorem step_label (y : Nat) : Agrees ⟨vars, cells⟩ t (.label y) := by
  rcases getNode_eq hg hr y with ⟨h1, h2⟩ | ⟨i, o, h1, h2, h3, h4, h5, h6, h7, h8⟩
  · exact agrees_of_none rfl (by simp [Track.next, h1]) (by simp [St.step, h2])
  · exact agrees_of_some (t' := t) (by simp [Track.reads]) (by simp [Track.next, h2])
      (by simp only [St.step, h5, Res.bind_ok, touch_held hg hr h7]; rfl) ⟨hg, V, hr⟩

end

/-- Every statement agrees with the bookkeeping. -/
theorem step_agrees {s : St} {t : Track} (h : Inv s t) (c : Cmd) : Agrees s t c := by
  obtain ⟨hg, V, hr⟩ := h
  match c with
  | .set x (.var y) => exact step_var hg hr x y
  | .set x .pddl => exact step_pddl hg hr x
  | .set x (.planner y) => exact step_planner hg hr x y
  | .set x (.part y) => exact step_part hg hr x y
  | .set x (.root y) => exact step_root hg hr x y
  | .set x (.copy y) => exact step_copy hg hr x y
  | .set x (.children y) => exact step_children hg hr x y
  | .set x (.child y m) => exact step_child hg hr x y m
  | .set x (.search y) => exact step_search hg hr x y
  | .set x (.again y) => exact step_again hg hr x y
  | .set x (.plan y a) => exact step_plan hg hr x y a
  | .del x => exact step_del hg hr x
  | .look y => exact step_look hg hr y
  | .label y => exact step_label hg hr y

theorem inv_start : Inv ⟨[], []⟩ Track.start :=
  ⟨⟨by simp, by simp, by simp, by simp⟩, fun _ => ⟨.pddl, 0, 0, 0, []⟩, by simp [Track.start], by simp [Track.start], by simp, by simp⟩

/-- A run is undefined exactly if some statement reads an object that is not held. -/
theorem run_ub_iff {s : St} {t : Track} (h : Inv s t) (cs : List Cmd) : s.run cs = .ub ↔ ¬ t.Safe cs := by
  induction cs generalizing s t with
  | nil => simp [St.run, Track.Safe]
  | cons c cs ih =>
    rcases step_agrees h c with ⟨h1, h2⟩ | ⟨h1, ⟨h2, h3⟩ | ⟨s', t', h2, h3, h4⟩⟩
    · simp only [St.run, h2, Res.bind_ub, Track.Safe, true_iff]
      exact fun e => h1 e.1
    · simp only [St.run, h3, Res.bind_exc, Track.Safe, h2, and_true, reduceCtorEq, false_iff, Classical.not_not]
      exact h1
    · simp only [St.run, h3, Res.bind_ok, ih h4, Track.Safe, h2]
      exact ⟨fun e e' => e e'.2, fun e e' => e ⟨h1, e'⟩⟩

/-- Only objects that were made are held. -/
theorem Inv.held_lt {s : St} {t : Track} (h : Inv s t) {i : Nat} (hi : t.Held i) : i < t.made := by
  obtain ⟨hg, V, hr⟩ := h
  obtain ⟨c, hc, _⟩ := alive_get.1 ((alive_iff hg hr i).2 hi)
  have := (List.getElem?_eq_some_iff.1 hc).1
  rw [hr.made]; simpa using this

theorem run_append (s : St) (cs ds : List Cmd) : s.run (cs ++ ds) = s.run cs >>= fun s' => s'.run ds := by
  induction cs generalizing s with
  | nil => rfl
  | cons c cs ih =>
    simp only [List.cons_append, St.run]
    cases s.step c with
    | ok s' => simp only [Res.bind_ok]; exact ih s'
    | exc e => rfl
    | ub => rfl
    | fuel => rfl

/-- A run that returns is described by some bookkeeping. -/
theorem run_inv {s s' : St} {t : Track} (h : Inv s t) {cs : List Cmd} (hr : s.run cs = .ok s') : ∃ t', Inv s' t' := by
  induction cs generalizing s t with
  | nil => simp only [St.run, Res.ok.injEq] at hr; exact ⟨t, hr ▸ h⟩
  | cons c cs ih =>
    rcases step_agrees h c with ⟨_, h2⟩ | ⟨_, ⟨_, h3⟩ | ⟨s'', t', _, h3, h4⟩⟩
    · simp [St.run, h2] at hr
    · simp [St.run, h3] at hr
    · simp only [St.run, h3, Res.bind_ok] at hr
      exact ih h4 hr

namespace Track

theorem val_bind (t : Track) (x y : Nat) (v : Val) : (t.bind x v).val y = if y = x then some v else t.val y := by
  simp only [val, bind, List.find?_cons]
  by_cases h : y = x
  · subst h; simp
  · simp only [Ne.symm h, decide_false, if_neg h]
    congr 1
    rw [List.find?_filter]
    congr 1
    funext b
    by_cases e : b.1 = y
    · simp [e, h]
    · simp [e]

theorem val_bindNew (t : Track) (x y : Nat) (v : Val) : (t.bindNew x v).val y = if y = x then some v else t.val y :=
  val_bind t x y v

theorem val_with (t : Track) (g : Nat → Option (Nat × Bool)) (y : Nat) : ({ t with begun := g } : Track).val y = t.val y := rfl

theorem val_del (t : Track) (x y : Nat) :
    ({ t with vars := t.vars.filter fun b => decide (b.1 ≠ x) } : Track).val y = if y = x then none else t.val y := by
  simp only [val]
  rw [List.find?_filter]
  by_cases h : y = x
  · subst h
    rw [if_pos rfl, Option.map_eq_none_iff, List.find?_eq_none]
    intro b _; by_cases e : b.1 = y <;> simp [e]
  · rw [if_neg h]
    congr 2
    funext b
    by_cases e : b.1 = y
    · simp [e, h]
    · simp [e]

theorem held_of_val {t : Track} {y i : Nat} {v : Val} (h : t.val y = some v) (hi : i ∈ v.has) : t.Held i := by
  simp only [val, Option.map_eq_some_iff] at h
  obtain ⟨b, hb, rfl⟩ := h
  exact ⟨b, List.mem_of_find?_eq_some hb, hi⟩

/-- Some variable other than `xs` keeps the object alive. -/
def Outside (t : Track) (xs : List Nat) (i : Nat) : Prop := ∃ b ∈ t.vars, b.1 ∉ xs ∧ i ∈ b.2.has

theorem held_iff_outside (t : Track) (i : Nat) : t.Held i ↔ t.Outside [] i := by simp [Held, Outside]

theorem outside_bind (t : Track) (x : Nat) (v : Val) (xs : List Nat) (i : Nat) :
    (t.bind x v).Outside xs i ↔ (x ∉ xs ∧ i ∈ v.has) ∨ t.Outside (x :: xs) i := by
  simp only [Outside, bind, List.mem_cons, List.mem_filter, decide_eq_true_eq]
  constructor
  · rintro ⟨b, rfl | ⟨h1, h2⟩, h3, h4⟩
    · exact .inl ⟨h3, h4⟩
    · exact .inr ⟨b, h1, by simp [h2, h3], h4⟩
  · rintro (⟨h3, h4⟩ | ⟨b, h1, h2, h3⟩)
    · exact ⟨(x, v), .inl rfl, h3, h4⟩
    · simp only [not_or] at h2; exact ⟨b, .inr ⟨h1, h2.1⟩, h2.2, h3⟩

theorem outside_bindNew (t : Track) (x : Nat) (v : Val) (xs : List Nat) (i : Nat) :
    (t.bindNew x v).Outside xs i ↔ (x ∉ xs ∧ i ∈ v.has) ∨ t.Outside (x :: xs) i := outside_bind t x v xs i

theorem outside_with (t : Track) (g : Nat → Option (Nat × Bool)) (xs : List Nat) (i : Nat) :
    ({ t with begun := g } : Track).Outside xs i ↔ t.Outside xs i := Iff.rfl

theorem outside_del (t : Track) (x : Nat) (xs : List Nat) (i : Nat) :
    ({ t with vars := t.vars.filter fun b => decide (b.1 ≠ x) } : Track).Outside xs i ↔ t.Outside (x :: xs) i := by
  simp only [Outside, List.mem_filter, decide_eq_true_eq, List.mem_cons]
  constructor
  · rintro ⟨b, ⟨h1, h2⟩, h3, h4⟩; exact ⟨b, h1, by simp [h2, h3], h4⟩
  · rintro ⟨b, h1, h2, h3⟩; simp only [not_or] at h2; exact ⟨b, ⟨h1, h2.1⟩, h2.2, h3⟩

/-- The invariant of programs that keep the values of the classes in `K`; `S` says whether there may be searches. -/
structure Kept (K : List Kind) (S : Bool) (t : Track) : Prop where
  id_has : ∀ y v, t.val y = some v → v.id ∈ v.has
  home_has : ∀ y v, t.val y = some v → v.kind = .node ∨ v.kind = .children → v.home ∈ v.has
  source : ∀ y v, t.val y = some v → ∃ z w, t.val z = some w ∧ w.kind ∈ K ∧ v.source ∈ w.has
  search : ∀ y v, t.val y = some v → v.kind = .search → S = true ∧
    (∃ z w, t.val z = some w ∧ w.kind ∈ K ∧ v.home ∈ w.has) ∧
    ∀ j d, t.begun v.id = some (j, d) → ∃ z w, t.val z = some w ∧ w.kind ∈ K ∧ j ∈ w.has

/-- Values of the classes in `K` stay. -/
theorem stays {K : List Kind} {t : Track} {x : Nat} (hx : ∀ v, t.val x = some v → v.kind ∉ K) {t' : Track}
    (ht : ∀ y, y ≠ x → t'.val y = t.val y) {i : Nat} (h : ∃ z w, t.val z = some w ∧ w.kind ∈ K ∧ i ∈ w.has) :
    ∃ z w, t'.val z = some w ∧ w.kind ∈ K ∧ i ∈ w.has := by
  obtain ⟨z, w, h1, h2, h3⟩ := h
  have hz : z ≠ x := by rintro rfl; exact hx w h1 h2
  exact ⟨z, w, by rw [ht z hz, h1], h2, h3⟩

/-- A new value. -/
theorem Kept.bind {K : List Kind} {S : Bool} {t : Track} (h : Kept K S t) {x : Nat}
    (hx : ∀ v, t.val x = some v → v.kind ∉ K) {v : Val} {t' : Track} (ht : ∀ y, t'.val y = if y = x then some v else t.val y)
    (hb : ∀ i j d, t'.begun i = some (j, d) → (∃ d', t.begun i = some (j, d')) ∨
      ∃ z w, t'.val z = some w ∧ w.kind ∈ K ∧ j ∈ w.has)
    (h1 : v.id ∈ v.has) (h2 : v.kind = .node ∨ v.kind = .children → v.home ∈ v.has)
    (h3 : (∃ z w, t'.val z = some w ∧ w.kind ∈ K ∧ v.source ∈ w.has))
    (h4 : v.kind = .search → S = true ∧ (∃ z w, t'.val z = some w ∧ w.kind ∈ K ∧ v.home ∈ w.has) ∧
      ∀ j d, t'.begun v.id = some (j, d) → ∃ z w, t'.val z = some w ∧ w.kind ∈ K ∧ j ∈ w.has) : Kept K S t' := by
  have ht' : ∀ y, y ≠ x → t'.val y = t.val y := fun y hy => by rw [ht, if_neg hy]
  refine ⟨fun y w hw => ?_, fun y w hw => ?_, fun y w hw => ?_, fun y w hw hk => ?_⟩
  all_goals rw [ht] at hw
  · split at hw
    · cases hw; exact h1
    · exact h.id_has y w hw
  · split at hw
    · cases hw; exact h2
    · exact h.home_has y w hw
  · split at hw
    · cases hw; exact h3
    · exact stays hx ht' (h.source y w hw)
  · split at hw
    · cases hw; exact h4 hk
    · obtain ⟨a, b, c⟩ := h.search y w hw hk
      refine ⟨a, stays hx ht' b, fun j d hj => ?_⟩
      rcases hb _ j d hj with ⟨d', e⟩ | e
      · exact stays hx ht' (c j d' e)
      · exact e

end Track

/-- An object that is not yet made is not kept alive. -/
theorem Inv.not_outside {s : St} {t : Track} (h : Inv s t) (xs : List Nat) {i : Nat} (hi : t.made ≤ i) : ¬ t.Outside xs i := by
  rintro ⟨b, h1, _, h3⟩
  have := h.held_lt ⟨b, h1, h3⟩
  omega

/-- One statement of such a program. -/
theorem kept_next {K : List Kind} {S : Bool} (hp : .pddl ∈ K) (hS : S = true → .node ∈ K ∧ .search ∈ K) {t : Track}
    (h : Track.Kept K S t) {c : Cmd} (hc : S = false → ∀ x y, c ≠ .set x (.search y))
    (hk : Spares K t c) :
    (∀ i ∈ t.reads c, t.Held i) ∧ ∀ t', t.next c = some t' → Track.Kept K S t' := by
  have hsrc : ∀ y v, t.val y = some v → t.Held v.source := fun y v hv => by
    obtain ⟨z, w, h1, _, h3⟩ := h.source y v hv
    exact Track.held_of_val h1 h3
  have hof : ∀ {k y v}, t.valOf k y = some v → t.val y = some v ∧ v.kind = k := by
    intro k y v hv
    simpa [Track.valOf, Option.filter_eq_some_iff] using hv
  have hown : ∀ {t' : Track} {x y : Nat} {v : Val}, t'.val x = some v → v.kind ∈ K → y ∈ v.has →
      ∃ z w, t'.val z = some w ∧ w.kind ∈ K ∧ y ∈ w.has := fun h1 h2 h3 => ⟨_, _, h1, h2, h3⟩
  match c with
  | .set x (.var y) =>
    refine ⟨by simp [Track.reads], fun t' ht => ?_⟩
    simp only [Track.next, Option.map_eq_some_iff] at ht
    obtain ⟨v, hv, rfl⟩ := ht
    refine h.bind hk (Track.val_bind t x · v) (fun i j d e => .inl ⟨d, e⟩) (h.id_has y v hv) (h.home_has y v hv)
      (Track.stays hk (fun z hz => by rw [Track.val_bind, if_neg hz]) (h.source y v hv)) fun hs => ?_
    obtain ⟨a, b, c⟩ := h.search y v hv hs
    have hz : ∀ z, z ≠ x → (t.bind x v).val z = t.val z := fun z hz => by rw [Track.val_bind, if_neg hz]
    exact ⟨a, Track.stays hk hz b, fun j d e => Track.stays hk hz (c j d e)⟩
  | .set x .pddl =>
    refine ⟨by simp [Track.reads], fun t' ht => ?_⟩
    simp only [Track.next, Option.some.injEq] at ht
    subst ht
    refine h.bind hk (Track.val_bindNew t x · _) (fun i j d e => .inl ⟨d, e⟩) (by simp) (by simp)
      (hown (x := x) (v := ⟨.pddl, t.made, t.made, t.made, [t.made]⟩) (by rw [Track.val_bindNew, if_pos rfl]) hp (by simp)) (by simp)
  | .set x (.planner y) =>
    refine ⟨by simp [Track.reads], fun t' ht => ?_⟩
    simp only [Track.next, Option.map_eq_some_iff] at ht
    obtain ⟨v, hv, rfl⟩ := ht
    obtain ⟨hv, hkind⟩ := hof hv
    refine h.bind hk (Track.val_bindNew t x · _) (fun i j d e => .inl ⟨d, e⟩) (by simp) (by simp)
      (Track.stays hk (fun z hz => by rw [Track.val_bindNew, if_neg hz]) ⟨y, v, hv, hkind ▸ hp, h.id_has y v hv⟩) (by simp)
  | .set x (.part y) =>
    refine ⟨by simp [Track.reads], fun t' ht => ?_⟩
    simp only [Track.next, Option.map_eq_some_iff] at ht
    obtain ⟨v, hv, rfl⟩ := ht
    simp only [Option.filter_eq_some_iff] at hv
    refine h.bind hk (Track.val_bindNew t x · _) (fun i j d e => .inl ⟨d, e⟩) (by simp) (by simp)
      (Track.stays hk (fun z hz => by rw [Track.val_bindNew, if_neg hz]) (h.source y v hv.1)) (by simp)
  | .set x (.root y) =>
    refine ⟨by simp [Track.reads], fun t' ht => ?_⟩
    simp only [Track.next, Option.map_eq_some_iff] at ht
    obtain ⟨v, hv, rfl⟩ := ht
    obtain ⟨hv, hkind⟩ := hof hv
    refine h.bind hk (Track.val_bindNew t x · _) (fun i j d e => .inl ⟨d, e⟩) (by simp)
      (fun _ => List.mem_cons_of_mem _ (h.id_has y v hv))
      (Track.stays hk (fun z hz => by rw [Track.val_bindNew, if_neg hz]) (h.source y v hv)) (by simp)
  | .set x (.copy y) =>
    refine ⟨by simp [Track.reads], fun t' ht => ?_⟩
    simp only [Track.next, Option.map_eq_some_iff] at ht
    obtain ⟨v, hv, rfl⟩ := ht
    obtain ⟨hv, hkind⟩ := hof hv
    refine h.bind hk (Track.val_bindNew t x · _) (fun i j d e => .inl ⟨d, e⟩) (by simp) (by simp)
      (Track.stays hk (fun z hz => by rw [Track.val_bindNew, if_neg hz]) (h.source y v hv)) (by simp)
  | .set x (.children y) =>
    refine ⟨fun i hi => ?_, fun t' ht => ?_⟩
    · simp only [Track.reads, Option.mem_toList, Option.map_eq_some_iff] at hi
      obtain ⟨v, hv, rfl⟩ := hi
      exact hsrc y v (hof hv).1
    · simp only [Track.next, Option.map_eq_some_iff] at ht
      obtain ⟨v, hv, rfl⟩ := ht
      obtain ⟨hv, hkind⟩ := hof hv
      refine h.bind hk (Track.val_bindNew t x · _) (fun i j d e => .inl ⟨d, e⟩) (by simp)
        (fun _ => List.mem_cons_of_mem _ (h.home_has y v hv (.inl hkind)))
        (Track.stays hk (fun z hz => by rw [Track.val_bindNew, if_neg hz]) (h.source y v hv)) (by simp)
  | .set x (.child y more) =>
    refine ⟨fun i hi => ?_, fun t' ht => ?_⟩
    · simp only [Track.reads, Option.mem_toList, Option.map_eq_some_iff] at hi
      obtain ⟨v, hv, rfl⟩ := hi
      exact hsrc y v (hof hv).1
    · simp only [Track.next, Option.map_eq_some_iff] at ht
      obtain ⟨v, hv, ht⟩ := ht
      obtain ⟨hv, hkind⟩ := hof hv
      cases more with
      | false => simp only [Bool.false_eq_true, if_false] at ht; exact ht ▸ h
      | true =>
        simp only [if_true] at ht
        subst ht
        refine h.bind hk (Track.val_bindNew t x · _) (fun i j d e => .inl ⟨d, e⟩) (by simp)
          (fun _ => List.mem_cons_of_mem _ (h.id_has y v hv))
          (Track.stays hk (fun z hz => by rw [Track.val_bindNew, if_neg hz]) (h.source y v hv)) (by simp)
  | .set x (.search y) =>
    refine ⟨by simp [Track.reads], fun t' ht => ?_⟩
    simp only [Track.next, Option.map_eq_some_iff] at ht
    obtain ⟨v, hv, rfl⟩ := ht
    obtain ⟨hv, hkind⟩ := hof hv
    have hST : S = true := by
      cases S with
      | true => rfl
      | false => exact absurd rfl (hc rfl x y)
    have hz : ∀ z, z ≠ x → ({ t.bindNew x ⟨.search, t.made, v.source, v.home, [t.made]⟩ with
        begun := fun i => if i = t.made then none else t.begun i } : Track).val z = t.val z :=
      fun z hz => by rw [Track.val_with, Track.val_bindNew, if_neg hz]
    refine h.bind hk (Track.val_bindNew t x · _) (fun i j d e => .inl ⟨d, ?_⟩) (by simp) (by simp)
      (Track.stays hk hz (h.source y v hv)) (fun _ => ⟨hST, Track.stays hk hz ⟨y, v, hv, hkind ▸ (hS hST).1,
        h.home_has y v hv (.inl hkind)⟩, by simp⟩)
    simp only at e
    split at e
    · cases e
    · exact e
  | .set x (.again y) =>
    refine ⟨by simp [Track.reads], fun t' ht => ?_⟩
    simp only [Track.next, Option.map_eq_some_iff] at ht
    obtain ⟨v, hv, rfl⟩ := ht
    obtain ⟨hv, hkind⟩ := hof hv
    have hz : ∀ z, z ≠ x → ({ t.bindNew x ⟨.search, t.made, v.source, v.home, [t.made]⟩ with
        begun := fun i => if i = t.made then t.begun v.id else t.begun i } : Track).val z = t.val z :=
      fun z hz => by rw [Track.val_with, Track.val_bindNew, if_neg hz]
    obtain ⟨a, b, c⟩ := h.search y v hv hkind
    refine h.bind hk (Track.val_bindNew t x · _) (fun i j d e => ?_) (by simp) (by simp)
      (Track.stays hk hz (h.source y v hv)) (fun _ => ⟨a, Track.stays hk hz b, fun j d e => ?_⟩)
    · simp only at e
      split at e
      · exact .inr (Track.stays hk hz (c j d e))
      · exact .inl ⟨d, e⟩
    · simp only [if_true] at e
      exact Track.stays hk hz (c j d e)
  | .set x (.plan y a) =>
    constructor
    · intro i hi
      simp only [Track.reads] at hi
      split at hi
      · cases hi
      · rename_i v hv
        obtain ⟨hv, hkind⟩ := hof hv
        obtain ⟨_, ⟨z, w, w1, _, w3⟩, s3⟩ := h.search y v hv hkind
        split at hi
        · cases hi
        · rename_i j e
          simp only [List.mem_cons, List.not_mem_nil, or_false] at hi
          rcases hi with rfl | rfl
          · exact hsrc y v hv
          · obtain ⟨z, w, w1, _, w3⟩ := s3 _ _ e
            exact Track.held_of_val w1 w3
        · simp only [List.mem_cons, List.not_mem_nil, or_false] at hi
          rcases hi with rfl | rfl
          · exact hsrc y v hv
          · exact Track.held_of_val w1 w3
    · intro t' ht
      simp only [Track.next, Option.map_eq_some_iff] at ht
      obtain ⟨v, hv, ht⟩ := ht
      obtain ⟨hv, hkind⟩ := hof hv
      obtain ⟨s1, s2, s3⟩ := h.search y v hv hkind
      have hxy : y ≠ x := by rintro rfl; exact hk v hv (hkind ▸ (hS s1).2)
      split at ht
      · exact ht ▸ h
      · generalize hb : t.begun v.id = b at ht
        obtain ⟨place, hpl⟩ : ∃ place, Track.place v.id b = place := ⟨_, rfl⟩
        have hplace : ∃ z w, t.val z = some w ∧ w.kind ∈ K ∧ place ∈ w.has := by
          subst hpl
          match b with
          | some (j, d) => exact s3 j d hb
          | none => exact ⟨y, v, hv, hkind ▸ (hS s1).2, h.id_has y v hv⟩
        cases a with
        | plan more =>
          simp only [hpl] at ht
          subst ht
          have hz : ∀ z, z ≠ x → ({ t.bindNew x ⟨.node, t.made, v.source, t.made, [t.made]⟩ with
              begun := fun i => if i = v.id then some (place, !more) else t.begun i } : Track).val z = t.val z :=
            fun z hz => by rw [Track.val_with, Track.val_bindNew, if_neg hz]
          refine h.bind hk (Track.val_bindNew t x · _) (fun i j d e => ?_) (by simp) (by simp)
            (Track.stays hk hz (h.source y v hv)) (by simp)
          simp only at e
          split at e
          · cases e; exact .inr (Track.stays hk hz hplace)
          · exact .inl ⟨d, e⟩
        | stop =>
          simp only [hpl] at ht
          subst ht
          refine ⟨h.id_has, h.home_has, h.source, fun y' v' hv' hk' => ?_⟩
          obtain ⟨u1, u2, u3⟩ := h.search y' v' hv' hk'
          refine ⟨u1, u2, fun j d e => ?_⟩
          simp only at e
          split at e
          · cases e; exact hplace
          · exact u3 j d e
  | .del x =>
    refine ⟨by simp [Track.reads], fun t' ht => ?_⟩
    simp only [Track.next, Option.map_eq_some_iff] at ht
    obtain ⟨v, hv, rfl⟩ := ht
    have hz : ∀ z, z ≠ x → ({ t with vars := t.vars.filter fun b => decide (b.1 ≠ x) } : Track).val z = t.val z :=
      fun z hz => by rw [Track.val_del, if_neg hz]
    have hval : ∀ z w, ({ t with vars := t.vars.filter fun b => decide (b.1 ≠ x) } : Track).val z = some w → t.val z = some w := by
      intro z w hw
      rw [Track.val_del] at hw
      split at hw
      · cases hw
      · exact hw
    refine ⟨fun z w hw => h.id_has z w (hval z w hw), fun z w hw => h.home_has z w (hval z w hw),
      fun z w hw => Track.stays hk hz (h.source z w (hval z w hw)), fun z w hw hs => ?_⟩
    obtain ⟨u1, u2, u3⟩ := h.search z w (hval z w hw) hs
    exact ⟨u1, Track.stays hk hz u2, fun j d e => Track.stays hk hz (u3 j d e)⟩
  | .look y =>
    refine ⟨fun i hi => ?_, fun t' ht => ?_⟩
    · simp only [Track.reads, Option.mem_toList, Option.map_eq_some_iff] at hi
      obtain ⟨v, hv, rfl⟩ := hi
      exact hsrc y v (hof hv).1
    · simp only [Track.next, Option.map_eq_some_iff] at ht
      obtain ⟨v, hv, rfl⟩ := ht
      exact h
  | .label y =>
    refine ⟨by simp [Track.reads], fun t' ht => ?_⟩
    simp only [Track.next, Option.map_eq_some_iff] at ht
    obtain ⟨v, hv, rfl⟩ := ht
    exact h

theorem kept_safe {K : List Kind} {S : Bool} (hp : .pddl ∈ K) (hS : S = true → .node ∈ K ∧ .search ∈ K) {t : Track}
    (h : Track.Kept K S t) {cs : List Cmd} (hc : S = false → NoSearch cs) (hk : Keeps K t cs) : t.Safe cs := by
  induction cs generalizing t with
  | nil => trivial
  | cons c cs ih =>
    obtain ⟨k1, k2⟩ := hk
    obtain ⟨h1, h2⟩ := kept_next hp hS h (c := c) (fun e => hc e c List.mem_cons_self) k1
    refine ⟨h1, ?_⟩
    match hn : t.next c with
    | none => trivial
    | some t' =>
      rw [hn] at k2
      exact ih (h2 t' hn) (fun e c' hc' => hc e c' (List.mem_cons_of_mem _ hc')) k2

theorem kept_start (K : List Kind) (S : Bool) : Track.Kept K S Track.start :=
  ⟨by simp [Track.start, Track.val], by simp [Track.start, Track.val], by simp [Track.start, Track.val],
    by simp [Track.start, Track.val]⟩

namespace Track

theorem not_safe_cons {t t' : Track} {c : Cmd} {cs : List Cmd} (h : t.next c = some t') (h' : ¬ t'.Safe cs) :
    ¬ t.Safe (c :: cs) := by
  rintro ⟨_, h2⟩
  rw [h] at h2
  exact h' h2

theorem not_safe_read {t : Track} {c : Cmd} {cs : List Cmd} {i : Nat} (h : i ∈ t.reads c) (h' : ¬ t.Outside [] i) :
    ¬ t.Safe (c :: cs) := fun h2 => h' ((held_iff_outside t i).1 (h2.1 i h))

theorem valOf_some {t : Track} {k : Kind} {y : Nat} {v : Val} (h : t.val y = some v) (hk : v.kind = k) :
    t.valOf k y = some v := by simp [valOf, h, hk]

theorem next_planner {t : Track} {x y : Nat} {v : Val} (h : t.val y = some v) (hk : v.kind = .pddl) :
    t.next (.set x (.planner y)) = some (t.bindNew x ⟨.planner, t.made, v.id, t.made, [t.made]⟩) := by
  simp only [next, valOf_some h hk, Option.map_some]

theorem next_root {t : Track} {x y : Nat} {v : Val} (h : t.val y = some v) (hk : v.kind = .planner) :
    t.next (.set x (.root y)) = some (t.bindNew x ⟨.node, t.made, v.source, v.id, t.made :: v.has⟩) := by
  simp only [next, valOf_some h hk, Option.map_some]

theorem next_search {t : Track} {x y : Nat} {v : Val} (h : t.val y = some v) (hk : v.kind = .node) :
    t.next (.set x (.search y)) = some { t.bindNew x ⟨.search, t.made, v.source, v.home, [t.made]⟩ with
      begun := fun i => if i = t.made then none else t.begun i } := by
  simp only [next, valOf_some h hk, Option.map_some]

theorem next_again {t : Track} {x y : Nat} {v : Val} (h : t.val y = some v) (hk : v.kind = .search) :
    t.next (.set x (.again y)) = some { t.bindNew x ⟨.search, t.made, v.source, v.home, [t.made]⟩ with
      begun := fun i => if i = t.made then t.begun v.id else t.begun i } := by
  simp only [next, valOf_some h hk, Option.map_some]

theorem next_plan {t : Track} {x y : Nat} {v : Val} (h : t.val y = some v) (hk : v.kind = .search) (hb : t.begun v.id = none)
    (more : Bool) :
    t.next (.set x (.plan y (.plan more))) = some { t.bindNew x ⟨.node, t.made, v.source, t.made, [t.made]⟩ with
      begun := fun i => if i = v.id then some (v.id, !more) else t.begun i } := by
  simp only [next, valOf_some h hk, Option.map_some, hb, place]

theorem next_del {t : Track} {x : Nat} {v : Val} (h : t.val x = some v) :
    t.next (.del x) = some { t with vars := t.vars.filter fun b => decide (b.1 ≠ x) } := by
  simp only [next, h, Option.map_some]

theorem reads_look {t : Track} {y : Nat} {v : Val} (h : t.val y = some v) (hk : v.kind = .node) :
    v.source ∈ t.reads (.look y) := by simp [reads, valOf_some h hk]

theorem reads_plan_root {t : Track} {x y : Nat} {a : Answer} {v : Val} (h : t.val y = some v) (hk : v.kind = .search)
    (hb : t.begun v.id = none) : v.home ∈ t.reads (.set x (.plan y a)) := by simp [reads, valOf_some h hk, hb]

theorem reads_plan_begun {t : Track} {x y : Nat} {a : Answer} {v : Val} (h : t.val y = some v) (hk : v.kind = .search) {j : Nat}
    (hb : t.begun v.id = some (j, false)) : j ∈ t.reads (.set x (.plan y a)) := by simp [reads, valOf_some h hk, hb]

end Track
end Symbolic.PyLife
