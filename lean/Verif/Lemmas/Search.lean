import Verif.Spec.Search
import Verif.Lemmas.Res
import Mathlib.Data.List.Nodup
import Mathlib.Data.List.Perm.Basic
import Mathlib.Algebra.BigOperators.Group.List.Basic

/-!
# Search trees

`plans ch g d n` enumerates the plans from `n`, `treeSize` counts the nodes a search pops below `n`.
-/

namespace Symbolic

variable {N : Type}

/-- The plans from a node. -/
def plans (ch : N → List N) (g : N → Bool) : Nat → N → List (List N)
  | 0, n => if g n then [[n]] else []
  | d + 1, n => if g n then [[n]] else (ch n).flatMap fun c => (plans ch g d c).map (n :: ·)

def treeSize (ch : N → List N) (g : N → Bool) : Nat → N → Nat
  | 0, _ => 1
  | d + 1, n => if g n then 1 else 1 + ((ch n).map (treeSize ch g d)).sum

theorem IsPath.ne_nil {child : N → N → Prop} {r : N} {p : List N} (h : IsPath child r p) : p ≠ [] := by
  cases h <;> simp

theorem IsPath.head {child : N → N → Prop} {r : N} {p : List N} (h : IsPath child r p) : p.head? = some r := by
  cases h <;> rfl

theorem IsPath.snoc {child : N → N → Prop} {r : N} {p : List N} {n c : N} (h : IsPath child r p)
    (hl : p.getLast? = some n) (hc : child n c) : IsPath child r (p ++ [c]) := by
  induction h with
  | single r =>
    simp at hl; subst hl
    exact .cons hc (.single c)
  | @cons r' c' p' hrc hp ih =>
    refine .cons hrc (ih ?_)
    rw [List.getLast?_cons] at hl
    cases hq : p'.getLast? with
    | none => exact absurd (List.getLast?_eq_none_iff.1 hq) hp.ne_nil
    | some x => rw [hq] at hl; simpa using hl

theorem mem_plans {ch : N → List N} {g : N → Bool} {d : Nat} {r : N} {p : List N} :
    p ∈ plans ch g d r ↔ PlanPath (fun n c => c ∈ ch n) (fun n => g n = true) d r p := by
  induction d generalizing r p with
  | zero =>
    unfold plans
    constructor
    · intro h
      split at h
      · rename_i hg
        simp at h; subst h
        exact ⟨.single r, ⟨r, rfl, hg⟩, by simp, by simp⟩
      · simp at h
    · rintro ⟨hp, ⟨n, hn, hg⟩, hf, hl⟩
      cases hp with
      | single => simp at hn; subst hn; simp [hg]
      | cons hc hp =>
        exfalso
        have := hp.ne_nil
        simp at hl
        exact this hl
  | succ d ih =>
    unfold plans
    constructor
    · intro h
      split at h
      · rename_i hg
        simp at h; subst h
        exact ⟨.single r, ⟨r, rfl, hg⟩, by simp, by simp⟩
      · rename_i hg
        obtain ⟨c, hc, h⟩ := List.mem_flatMap.1 h
        obtain ⟨q, hq, rfl⟩ := List.mem_map.1 h
        obtain ⟨hp, ⟨n, hn, hgn⟩, hf, hl⟩ := ih.1 hq
        refine ⟨.cons hc hp, ⟨n, ?_, hgn⟩, ?_, by simpa using hl⟩
        · rw [List.getLast?_cons, hn]; rfl
        · intro m hm
          rw [List.dropLast_cons_of_ne_nil hp.ne_nil] at hm
          rcases List.mem_cons.1 hm with rfl | hm
          · exact hg
          · exact hf m hm
    · rintro ⟨hp, ⟨n, hn, hg⟩, hf, hl⟩
      cases hp with
      | single => simp at hn; subst hn; simp [hg]
      | @cons _ c q hc hp =>
        have hq := hp.ne_nil
        rw [List.dropLast_cons_of_ne_nil hq] at hf
        rw [if_neg (hf r (by simp))]
        refine List.mem_flatMap.2 ⟨c, hc, List.mem_map.2 ⟨q, ih.2 ⟨hp, ⟨n, ?_, hg⟩, ?_, by simpa using hl⟩, rfl⟩⟩
        · rw [List.getLast?_cons] at hn
          cases hz : q.getLast? with
          | none => exact absurd (List.getLast?_eq_none_iff.1 hz) hq
          | some x => rw [hz] at hn; simpa using hn
        · exact fun m hm => hf m (List.mem_cons_of_mem _ hm)

theorem plans_head {ch : N → List N} {g : N → Bool} {d : Nat} {r : N} {p : List N} (h : p ∈ plans ch g d r) :
    p.head? = some r := (mem_plans.1 h).path.head

theorem plans_pos {ch : N → List N} {g : N → Bool} {d : Nat} {r : N} {p : List N} (h : p ∈ plans ch g d r) :
    1 ≤ p.length := by
  have := (mem_plans.1 h).path.ne_nil
  cases p <;> simp_all

theorem plans_nodup {ch : N → List N} {g : N → Bool} (hch : ∀ n, (ch n).Nodup) (d : Nat) (r : N) :
    (plans ch g d r).Nodup := by
  induction d generalizing r with
  | zero => unfold plans; split <;> simp
  | succ d ih =>
    unfold plans
    split
    · simp
    · rw [List.nodup_flatMap]
      refine ⟨fun c _ => (ih c).map fun a b h => by simpa using h, ?_⟩
      refine (hch r).pairwise_of_forall_ne fun a _ b _ hab => ?_
      intro p hpa hpb
      obtain ⟨q, hq, rfl⟩ := List.mem_map.1 hpa
      obtain ⟨q', hq', he⟩ := List.mem_map.1 hpb
      have he : q' = q := by simpa using he
      subst he
      exact hab (by have h1 := plans_head hq; have h2 := plans_head hq'; rw [h1] at h2; simpa using h2)

/-- Entries of a frontier: plans still to come through an entry. -/
def entryPlans (ch : N → List N) (g : N → Bool) (maxDepth : Nat) (e : N × List N) : List (List N) :=
  (plans ch g (maxDepth - e.2.length) e.1).map (e.2 ++ ·)

def entrySize (ch : N → List N) (g : N → Bool) (maxDepth : Nat) (e : N × List N) : Nat :=
  treeSize ch g (maxDepth - e.2.length) e.1

theorem entrySize_pos {ch : N → List N} {g : N → Bool} {D : Nat} (e : N × List N) : 1 ≤ entrySize ch g D e := by
  unfold entrySize
  cases D - e.2.length <;> unfold treeSize <;> try split
  all_goals omega

/-- A frontier entry is a path. -/
def EntryOk (ch : N → List N) (g : N → Bool) (D : Nat) (root : N) (e : N × List N) : Prop :=
  IsPath (fun n c => c ∈ ch n) root (e.2 ++ [e.1]) ∧ e.2.length ≤ D ∧ ∀ n ∈ e.2, g n = false

theorem entryPlans_goal {ch : N → List N} {g : N → Bool} {D : Nat} {e : N × List N} (hg : g e.1 = true) :
    entryPlans ch g D e = [e.2 ++ [e.1]] := by
  unfold entryPlans
  cases D - e.2.length <;> simp [plans, hg]

theorem entryPlans_leaf {ch : N → List N} {g : N → Bool} {D : Nat} {e : N × List N} (hg : g e.1 = false)
    (hl : (e.2 ++ [e.1]).length > D) : entryPlans ch g D e = [] := by
  unfold entryPlans
  have : D - e.2.length = 0 := by simp at hl; omega
  rw [this]
  simp [plans, hg]

theorem entryPlans_expand {ch : N → List N} {g : N → Bool} {D : Nat} {e : N × List N} (hg : g e.1 = false)
    (hl : ¬ (e.2 ++ [e.1]).length > D) :
    entryPlans ch g D e = ((ch e.1).map fun c => (c, e.2 ++ [e.1])).flatMap (entryPlans ch g D) := by
  obtain ⟨n, anc⟩ := e
  unfold entryPlans
  simp only [List.length_append, List.length_cons, List.length_nil] at hl ⊢
  obtain ⟨d, hd⟩ : ∃ d, D - anc.length = d + 1 := ⟨D - anc.length - 1, by omega⟩
  rw [hd]
  have hd' : D - (anc.length + (0 + 1)) = d := by omega
  simp only [plans, hg, Bool.false_eq_true, if_false, List.flatMap_map, List.length_append, List.length_cons,
    List.length_nil, hd', List.map_flatMap, List.map_map]
  refine List.flatMap_congr fun c _ => List.map_congr_left fun p _ => ?_
  simp

theorem entrySize_expand {ch : N → List N} {g : N → Bool} {D : Nat} {e : N × List N} (hg : g e.1 = false)
    (hl : ¬ (e.2 ++ [e.1]).length > D) :
    entrySize ch g D e = 1 + (((ch e.1).map fun c => (c, e.2 ++ [e.1])).map (entrySize ch g D)).sum := by
  obtain ⟨n, anc⟩ := e
  unfold entrySize
  simp only [List.length_append, List.length_cons, List.length_nil] at hl ⊢
  obtain ⟨d, hd⟩ : ∃ d, D - anc.length = d + 1 := ⟨D - anc.length - 1, by omega⟩
  rw [hd]
  have hd' : D - (anc.length + (0 + 1)) = d := by omega
  simp only [treeSize, hg, Bool.false_eq_true, if_false, List.map_map]
  congr 2
  refine List.map_congr_left fun c _ => ?_
  simp [hd']

theorem EntryOk.child {ch : N → List N} {g : N → Bool} {D : Nat} {root : N} {e : N × List N}
    (h : EntryOk ch g D root e) (hg : g e.1 = false) (hl : ¬ (e.2 ++ [e.1]).length > D) {c : N} (hc : c ∈ ch e.1) :
    EntryOk ch g D root (c, e.2 ++ [e.1]) := by
  refine ⟨h.1.snoc (n := e.1) (by simp) hc, by simpa using hl, ?_⟩
  intro n hn
  rcases List.mem_append.1 hn with hn | hn
  · exact h.2.2 n hn
  · simp at hn; subst hn; exact hg

theorem entryPlans_length {ch : N → List N} {g : N → Bool} {D : Nat} {e : N × List N} {p : List N}
    (h : p ∈ entryPlans ch g D e) : e.2.length + 1 ≤ p.length := by
  obtain ⟨q, hq, rfl⟩ := List.mem_map.1 h
  have := plans_pos hq
  simp; omega

theorem entryPlans_root {ch : N → List N} {g : N → Bool} {D : Nat} (root : N) :
    entryPlans ch g D (root, []) = plans ch g D root := by simp [entryPlans]

theorem Space.Total.path {sp : Space N} {root : N} {g : N → Bool} {ch : N → List N} (ht : sp.Total root g ch)
    {p : List N} (h : IsPath (fun n c => c ∈ ch n) root p) : IsPath sp.Child root p := by
  suffices H : ∀ r p, IsPath (fun n c => c ∈ ch n) r p → ∀ q, IsPath sp.Child root q → q.getLast? = some r →
      IsPath sp.Child root (q ++ p.tail) by
    have := H root p h [root] (.single root) rfl
    cases h <;> simpa using this
  intro r p h
  induction h with
  | single r => intro q hq _; simpa using hq
  | @cons r c p hc hp ih =>
    intro q hq hl
    have h1 := hq.snoc hl (c := c) ⟨_, ht.expand _ _ hq hl, hc⟩
    have h2 := ih (q ++ [c]) h1 (by simp)
    have hh := hp.head
    cases p with
    | nil => simp at hh
    | cons x xs => simp at hh; subst hh; simpa using h2

theorem Space.Total.unpath {sp : Space N} {root : N} {g : N → Bool} {ch : N → List N} (ht : sp.Total root g ch)
    {p : List N} (h : IsPath sp.Child root p) : IsPath (fun n c => c ∈ ch n) root p := by
  suffices H : ∀ r p, IsPath sp.Child r p → ∀ q, IsPath sp.Child root q → q.getLast? = some r →
      IsPath (fun n c => c ∈ ch n) r p by
    exact H root p h [root] (.single root) rfl
  intro r p h
  induction h with
  | single r => intro q hq _; exact .single r
  | @cons r c p hc hp ih =>
    intro q hq hl
    obtain ⟨l, hl', hc'⟩ := hc
    rw [ht.expand _ _ hq hl] at hl'
    cases hl'
    exact .cons hc' (ih (q ++ [c]) (hq.snoc hl ⟨_, ht.expand _ _ hq hl, hc'⟩) (by simp))

theorem IsPath.prefix {child : N → N → Prop} {r : N} {p : List N} (h : IsPath child r p) :
    ∀ n ∈ p, ∃ q, IsPath child r q ∧ q.getLast? = some n := by
  induction h with
  | single r => intro n hn; simp at hn; subst hn; exact ⟨[n], .single n, rfl⟩
  | @cons r c p hc hp ih =>
    intro n hn
    rcases List.mem_cons.1 hn with rfl | hn
    · exact ⟨[n], .single n, rfl⟩
    · obtain ⟨q, hq, hl⟩ := ih n hn
      exact ⟨r :: q, .cons hc hq, by rw [List.getLast?_cons, hl]; rfl⟩

/-- Under totality the plans of the space are the enumerated ones. -/
theorem Space.Total.mem_plans {sp : Space N} {root : N} {g : N → Bool} {ch : N → List N} (ht : sp.Total root g ch)
    {D : Nat} {p : List N} : p ∈ plans ch g D root ↔ PlanPath sp.Child sp.Goal D root p := by
  have hgoal : ∀ {p : List N}, IsPath sp.Child root p → ∀ n ∈ p, (sp.Goal n ↔ g n = true) := by
    intro p hp n hn
    obtain ⟨q, hq, hl⟩ := hp.prefix n hn
    unfold Space.Goal
    rw [ht.goal n q hq hl]
    simp
  rw [Symbolic.mem_plans]
  constructor
  · rintro ⟨hp, ⟨n, hn, hg⟩, hf, hl⟩
    have hp' := ht.path hp
    refine ⟨hp', ⟨n, hn, (hgoal hp' n (List.mem_of_getLast? hn)).2 hg⟩, fun m hm hgm => ?_, hl⟩
    exact hf m hm ((hgoal hp' m (List.dropLast_subset _ hm)).1 hgm)
  · rintro ⟨hp', ⟨n, hn, hg⟩, hf, hl⟩
    refine ⟨ht.unpath hp', ⟨n, hn, (hgoal hp' n (List.mem_of_getLast? hn)).1 hg⟩, fun m hm hgm => ?_, hl⟩
    exact hf m hm ((hgoal hp' m (List.dropLast_subset _ hm)).2 hgm)

theorem Space.Total.goal_ok {sp : Space N} {root : N} {g : N → Bool} {ch : N → List N} (ht : sp.Total root g ch)
    {D : Nat} {e : N × List N} (he : EntryOk ch g D root e) : sp.goal e.1 = .ok (g e.1) :=
  ht.goal _ _ (ht.path he.1) (by simp)

theorem Space.Total.expand_ok {sp : Space N} {root : N} {g : N → Bool} {ch : N → List N} (ht : sp.Total root g ch)
    {D : Nat} {e : N × List N} (he : EntryOk ch g D root e) : sp.expand e.1 = .ok (ch e.1) :=
  ht.expand _ _ (ht.path he.1) (by simp)

/-- Plans still to come through a frontier. -/
def flatPlans (ch : N → List N) (g : N → Bool) (D : Nat) (q : List (N × List N)) : List (List N) :=
  q.flatMap (entryPlans ch g D)

def flatSize (ch : N → List N) (g : N → Bool) (D : Nat) (q : List (N × List N)) : Nat :=
  (q.map (entrySize ch g D)).sum

section Flat
variable {ch : N → List N} {g : N → Bool} {D : Nat}

@[simp] theorem flatPlans_nil : flatPlans ch g D [] = [] := rfl
@[simp] theorem flatPlans_cons (e) (q) : flatPlans ch g D (e :: q) = entryPlans ch g D e ++ flatPlans ch g D q := rfl
@[simp] theorem flatPlans_append (q q') : flatPlans ch g D (q ++ q') = flatPlans ch g D q ++ flatPlans ch g D q' := by
  simp [flatPlans]
@[simp] theorem flatSize_nil : flatSize ch g D [] = 0 := rfl
@[simp] theorem flatSize_cons (e) (q) : flatSize ch g D (e :: q) = entrySize ch g D e + flatSize ch g D q := by
  simp [flatSize]
@[simp] theorem flatSize_append (q q') : flatSize ch g D (q ++ q') = flatSize ch g D q + flatSize ch g D q' := by
  simp [flatSize]

theorem flatSize_perm {q q' : List (N × List N)} (h : q.Perm q') : flatSize ch g D q = flatSize ch g D q' :=
  (h.map _).sum_eq

theorem flatPlans_perm {q q' : List (N × List N)} (h : q.Perm q') :
    (flatPlans ch g D q).Perm (flatPlans ch g D q') := h.flatMap_right _

end Flat

namespace Bfs

/-- The ancestors in the queue are of one length, or of that length first and one more afterwards. -/
def Layered (q : List (N × List N)) : Prop :=
  ∃ (k : Nat) (A B : List (N × List N)), q = A ++ B ∧ (∀ e ∈ A, e.2.length = k) ∧ ∀ e ∈ B, e.2.length = k + 1

theorem Layered.pop {e : N × List N} {q : List (N × List N)} (h : Layered (e :: q)) :
    (∀ e' ∈ q, e.2.length ≤ e'.2.length) ∧
    ∀ l : List (N × List N), (∀ e' ∈ l, e'.2.length = e.2.length + 1) → Layered (q ++ l) := by
  obtain ⟨k, A, B, hq, hA, hB⟩ := h
  cases A with
  | nil =>
    simp only [List.nil_append] at hq
    subst hq
    have he := hB e (by simp)
    refine ⟨fun e' he' => (by rw [he, hB e' (by simp [he'])]; exact Nat.le_refl _), fun l hl => ⟨k + 1, q, l, rfl, ?_, ?_⟩⟩
    · exact fun e' he' => hB e' (by simp [he'])
    · intro e' he'; rw [hl e' he', he]
  | cons a A =>
    simp only [List.cons_append, List.cons.injEq] at hq
    obtain ⟨rfl, rfl⟩ := hq
    have he := hA e (by simp)
    refine ⟨fun e' he' => ?_, fun l hl => ⟨k, A, B ++ l, by simp, ?_, ?_⟩⟩
    · rcases List.mem_append.1 he' with h | h
      · rw [he, hA e' (by simp [h])]; exact Nat.le_refl _
      · rw [he, hB e' h]; omega
    · exact fun e' he' => hA e' (by simp [he'])
    · intro e' he'
      rcases List.mem_append.1 he' with h | h
      · exact hB e' h
      · rw [hl e' h, he]

variable {sp : Space N} {root : N} {g : N → Bool} {ch : N → List N} {D : Nat}

theorem next_spec (ht : sp.Total root g ch) {late : Nat → Bool} (hlate : ∀ k, late k = false) :
    ∀ fuel k (it : It N), (∀ e ∈ it.queue, EntryOk ch g D root e) → flatSize ch g D it.queue < fuel →
      Layered it.queue →
      ∃ it', next sp D late fuel k it = .ok it' ∧
        ((it' = ⟨[], none⟩ ∧ flatPlans ch g D it.queue = []) ∨
          ∃ p, it'.cur = some p ∧ (flatPlans ch g D it.queue).Perm (p :: flatPlans ch g D it'.queue) ∧
            (∀ e ∈ it'.queue, EntryOk ch g D root e) ∧ flatSize ch g D it'.queue < flatSize ch g D it.queue ∧
            Layered it'.queue ∧ ∀ q ∈ flatPlans ch g D it'.queue, p.length ≤ q.length) := by
  intro fuel
  induction fuel with
  | zero => intro k it _ h; omega
  | succ fuel ih =>
    intro k it hok hsz hlay
    unfold next
    obtain ⟨queue, cur⟩ := it
    cases queue with
    | nil => exact ⟨_, rfl, .inl ⟨rfl, rfl⟩⟩
    | cons e q =>
      obtain ⟨n, anc⟩ := e
      have he : EntryOk ch g D root (n, anc) := hok _ (by simp)
      have hq : ∀ e ∈ q, EntryOk ch g D root e := fun e h => hok e (by simp [h])
      obtain ⟨hpop, hpush⟩ := Layered.pop hlay
      have hpos := entrySize_pos (ch := ch) (g := g) (D := D) (n, anc)
      simp only [hlate, Bool.false_eq_true, if_false]
      have hg := ht.goal_ok he
      have hx := ht.expand_ok he
      simp only at hg hx
      rw [hg, Res.bind_ok]
      simp only [flatSize_cons] at hsz
      cases hgn : g n with
      | true =>
        simp only [if_true]
        refine ⟨_, rfl, .inr ⟨_, rfl, ?_, hq, ?_, ?_, ?_⟩⟩
        · simp only [flatPlans_cons]
          rw [entryPlans_goal hgn]
          exact List.Perm.refl _
        · simp only [flatSize_cons]; omega
        · simpa using hpush [] (by simp)
        · intro p hp
          obtain ⟨e', he', hp⟩ := List.mem_flatMap.1 hp
          have := entryPlans_length hp
          have := hpop e' he'
          simp only [List.length_append, List.length_cons, List.length_nil]
          simp only at this
          omega
      | false =>
        simp only [Bool.false_eq_true, if_false]
        split
        · rename_i hl
          obtain ⟨it', h1, h2⟩ := ih (k + 1) ⟨q, some (anc ++ [n])⟩ hq (by simp only; omega)
            (by simpa using hpush [] (by simp))
          refine ⟨it', h1, ?_⟩
          have hz : entryPlans ch g D (n, anc) = [] := entryPlans_leaf hgn hl
          simp only [flatPlans_cons, hz, List.nil_append, flatSize_cons]
          rcases h2 with h2 | ⟨p, a, b, c, d, e, f⟩
          · exact .inl h2
          · exact .inr ⟨p, a, b, c, by simp only at d; omega, e, f⟩
        · rename_i hl
          rw [hx, Res.bind_ok]
          have hz := entryPlans_expand (ch := ch) (g := g) (D := D) (e := (n, anc)) hgn hl
          have hs := entrySize_expand (ch := ch) (g := g) (D := D) (e := (n, anc)) hgn hl
          have hs' : entrySize ch g D (n, anc) = 1 + flatSize ch g D ((ch n).map fun c => (c, anc ++ [n])) := hs
          have hz' : entryPlans ch g D (n, anc) = flatPlans ch g D ((ch n).map fun c => (c, anc ++ [n])) := hz
          obtain ⟨it', h1, h2⟩ := ih (k + 1) ⟨q ++ (ch n).map (fun c => (c, anc ++ [n])), some (anc ++ [n])⟩
            (by
              intro e h
              rcases List.mem_append.1 h with h | h
              · exact hq e h
              · obtain ⟨c, hc, rfl⟩ := List.mem_map.1 h
                exact he.child hgn hl hc)
            (by simp only [flatSize_append]; omega)
            (hpush _ (by
              intro e h
              obtain ⟨c, hc, rfl⟩ := List.mem_map.1 h
              simp))
          refine ⟨it', h1, ?_⟩
          have hperm : (flatPlans ch g D ((n, anc) :: q)).Perm
              (flatPlans ch g D (q ++ (ch n).map fun c => (c, anc ++ [n]))) := by
            rw [flatPlans_cons, flatPlans_append, hz']
            exact List.perm_append_comm
          rcases h2 with ⟨a, b⟩ | ⟨p, a, b, c, d, e, f⟩
          · refine .inl ⟨a, ?_⟩
            simp only at b
            rw [b] at hperm
            exact List.perm_nil.1 hperm
          · refine .inr ⟨p, a, hperm.trans b, c, ?_, e, f⟩
            simp only [flatSize_append] at d
            simp only [flatSize_cons]; omega

/-- What a loop from `it` on still visits. -/
def Rest (ch : N → List N) (g : N → Bool) (D : Nat) (it : It N) : List (List N) :=
  match it.cur with
  | none => []
  | some p => p :: flatPlans ch g D it.queue

/-- Invariant of the iterators a loop sees. -/
structure Good (ch : N → List N) (g : N → Bool) (D : Nat) (root : N) (it : It N) : Prop where
  ok : ∀ e ∈ it.queue, EntryOk ch g D root e
  layered : Layered it.queue
  fin : it.cur = none → it.queue = []
  least : ∀ p, it.cur = some p → ∀ q ∈ flatPlans ch g D it.queue, p.length ≤ q.length

theorem good_nil : Good ch g D root ⟨[], none⟩ :=
  ⟨by simp, ⟨0, [], [], rfl, by simp, by simp⟩, fun _ => rfl, by simp⟩

theorem next_good (ht : sp.Total root g ch) {late : Nat → Bool} (hlate : ∀ k, late k = false) {fuel k : Nat} {it : It N}
    (hok : ∀ e ∈ it.queue, EntryOk ch g D root e) (hlay : Layered it.queue) (hsz : flatSize ch g D it.queue < fuel) :
    ∃ it', next sp D late fuel k it = .ok it' ∧ Good ch g D root it' ∧
      (flatPlans ch g D it.queue).Perm (Rest ch g D it') ∧
      flatSize ch g D it'.queue ≤ flatSize ch g D it.queue ∧
      (it'.cur ≠ none → flatSize ch g D it'.queue < flatSize ch g D it.queue) := by
  obtain ⟨it', h1, h2⟩ := next_spec ht hlate fuel k it hok hsz hlay
  refine ⟨it', h1, ?_⟩
  rcases h2 with ⟨rfl, h⟩ | ⟨p, a, b, c, d, e, f⟩
  · refine ⟨good_nil, ?_, by simp, by simp⟩
    rw [h]; exact List.Perm.refl _
  · refine ⟨⟨c, e, by simp [a], ?_⟩, ?_, by omega, fun _ => d⟩
    · intro p' hp'; rw [a] at hp'; cases hp'; exact f
    · simp only [Rest, a]; exact b

theorem collect_spec (ht : sp.Total root g ch) {clock : Nat → Nat → Bool} (hclock : ∀ i k, clock i k = false)
    {fuel : Nat} : ∀ steps i (it : It N), Good ch g D root it →
      flatSize ch g D it.queue < fuel → flatSize ch g D it.queue + 1 < steps →
      ∃ l, collect sp D clock fuel steps i it = .ok l ∧ l.Perm (Rest ch g D it) ∧
        l.Pairwise (fun p q => p.length ≤ q.length) := by
  intro steps
  induction steps with
  | zero => intro i it _ _ h; omega
  | succ steps ih =>
    intro i it hg hf hs
    unfold collect
    cases hc : it.cur with
    | none =>
      have hq := hg.fin hc
      simp only [It.finished, hq, hc, List.isEmpty_nil, Option.isNone_none, Bool.and_self, if_true]
      exact ⟨[], rfl, by simp [Rest, hc], List.Pairwise.nil⟩
    | some p =>
      simp only [It.finished, hc, Option.isNone_some, Bool.and_false, Bool.false_eq_true, if_false]
      obtain ⟨it', h1, h2, h3, h4, h5⟩ := next_good ht (hclock i) (k := 0) hg.ok hg.layered hf
      rw [h1, Res.bind_ok]
      have hrec : ∃ l, collect sp D clock fuel steps (i + 1) it' = .ok l ∧ l.Perm (Rest ch g D it') ∧
          l.Pairwise (fun p q => p.length ≤ q.length) := by
        cases hc' : it'.cur with
        | none =>
          have hq := h2.fin hc'
          obtain ⟨s, rfl⟩ : ∃ s, steps = s + 1 := ⟨steps - 1, by omega⟩
          unfold collect
          simp only [It.finished, hq, hc', List.isEmpty_nil, Option.isNone_none, Bool.and_self, if_true]
          exact ⟨[], rfl, by simp [Rest, hc'], List.Pairwise.nil⟩
        | some p' =>
          have := h5 (by simp [hc'])
          exact ih (i + 1) it' h2 (by omega) (by omega)
      obtain ⟨l, hl, hperm, hsort⟩ := hrec
      rw [hl, Res.bind_ok]
      refine ⟨p :: l, rfl, ?_, ?_⟩
      · simp only [Rest, hc]
        exact (hperm.trans h3.symm).cons p
      · refine List.pairwise_cons.2 ⟨fun q hq => ?_, hsort⟩
        exact hg.least p hc q ((hperm.trans h3.symm).mem_iff.1 hq)

theorem run_spec (ht : sp.Total root g ch) {clock : Nat → Nat → Bool} (hclock : ∀ i k, clock i k = false) {fuel : Nat}
    (hfuel : treeSize ch g D root + 1 < fuel) :
    ∃ l, run sp D clock fuel root = .ok l ∧ l.Perm (plans ch g D root) ∧
      l.Pairwise (fun p q => p.length ≤ q.length) := by
  unfold run begin
  have hsz : flatSize ch g D (start root).queue = treeSize ch g D root := by
    simp [start, entrySize]
  obtain ⟨it, h1, h2, h3, h4, h5⟩ := next_good (D := D) ht (hclock 0) (k := 0) (it := start root) (fuel := fuel)
    (by
      intro e he
      simp only [start, List.mem_singleton] at he
      subst he
      exact ⟨by simpa using IsPath.single root, by simp, by simp⟩)
    ⟨0, (start root).queue, [], by simp, by simp [start], by simp⟩ (by omega)
  rw [h1, Res.bind_ok]
  obtain ⟨l, hl, hperm, hs⟩ := collect_spec ht hclock (fuel := fuel) fuel 1 it h2 (by omega) (by omega)
  refine ⟨l, hl, hperm.trans (h3.symm.trans ?_), hs⟩
  simp [start, entryPlans_root]

end Bfs

namespace Dfs

variable {sp : Space N} {root : N} {g : N → Bool} {ch : N → List N} {D : Nat}

/-- The first child only. -/
def firstOf (ch : N → List N) (n : N) : List N := (ch n).head?.toList

/-- Children from last to first. -/
def revOf (ch : N → List N) (n : N) : List N := (ch n).reverse

/-- The plan of always taking the first child, as seen from the bottom of the stack. -/
def bottom (ch : N → List N) (g : N → Bool) (D : Nat) (st : List (N × List N)) : List (List N) :=
  match st.getLast? with
  | none => []
  | some e => entryPlans (firstOf ch) g D e

theorem next_spec (ht : sp.Total root g ch) :
    ∀ fuel (it : It N), (∀ e ∈ it.stack, EntryOk ch g D root e) → flatSize ch g D it.stack < fuel →
      ∃ it', next sp D fuel it = .ok it' ∧
        (∀ e ∈ it'.stack, EntryOk ch g D root e) ∧
        ((it.stack = [] ∧ it' = it) ∨
          (it.stack ≠ [] ∧ flatSize ch g D it'.stack < flatSize ch g D it.stack ∧
          ((it'.stack = [] ∧ flatPlans (revOf ch) g D it.stack = bottom ch g D it.stack) ∨
          (it'.stack ≠ [] ∧ flatPlans (revOf ch) g D it.stack = it'.cur :: flatPlans (revOf ch) g D it'.stack ∧
            bottom ch g D it'.stack = bottom ch g D it.stack)))) := by
  intro fuel
  induction fuel with
  | zero => intro it _ h; omega
  | succ fuel ih =>
    intro it hok hsz
    unfold next
    obtain ⟨stack, cur⟩ := it
    cases stack with
    | nil => exact ⟨_, rfl, by simp, .inl ⟨rfl, rfl⟩⟩
    | cons e st =>
      obtain ⟨n, anc⟩ := e
      have he : EntryOk ch g D root (n, anc) := hok _ (by simp)
      have hq : ∀ e ∈ st, EntryOk ch g D root e := fun e h => hok e (by simp [h])
      have hpos := entrySize_pos (ch := ch) (g := g) (D := D) (n, anc)
      have hg := ht.goal_ok he
      have hx := ht.expand_ok he
      simp only at hg hx ⊢
      rw [hg, Res.bind_ok]
      simp only [flatSize_cons] at hsz
      have hbot : ∀ st', st ≠ [] → bottom ch g D (st' ++ st) = bottom ch g D st := by
        intro st' hst
        unfold bottom
        rw [List.getLast?_append]
        cases hgl : st.getLast? with
        | none => exact absurd (List.getLast?_eq_none_iff.1 hgl) hst
        | some x => rfl
      cases hgn : g n with
      | true =>
        simp only [if_true]
        refine ⟨_, rfl, hq, .inr ⟨by simp, by simp only [flatSize_cons]; omega, ?_⟩⟩
        rw [flatPlans_cons, entryPlans_goal (e := (n, anc)) hgn]
        cases st with
        | nil =>
          refine .inl ⟨rfl, ?_⟩
          simp [bottom, entryPlans_goal (e := (n, anc)) hgn]
        | cons e' st =>
          refine .inr ⟨by simp, rfl, ?_⟩
          exact (hbot [(n, anc)] (by simp)).symm
      | false =>
        simp only [Bool.false_eq_true, if_false]
        split
        · rename_i hl
          obtain ⟨it', h1, h2, h3⟩ := ih ⟨st, anc ++ [n]⟩ hq (by simp only; omega)
          refine ⟨it', h1, h2, .inr ⟨by simp, ?_⟩⟩
          have hz : entryPlans (revOf ch) g D (n, anc) = [] := entryPlans_leaf hgn hl
          rw [flatPlans_cons, hz, List.nil_append]
          rcases h3 with ⟨a, rfl⟩ | ⟨a, b, c⟩
          · simp only at a
            subst a
            refine ⟨by simp only [flatSize_cons, flatSize_nil]; omega, .inl ⟨rfl, ?_⟩⟩
            have hz' : entryPlans (firstOf ch) g D (n, anc) = [] := entryPlans_leaf hgn hl
            simp [bottom, hz']
          · simp only at a b c
            refine ⟨by simp only [flatSize_cons]; omega, ?_⟩
            rw [← hbot [(n, anc)] a] at c
            exact c
        · rename_i hl
          rw [hx, Res.bind_ok]
          have hs : entrySize ch g D (n, anc) = 1 + flatSize ch g D ((ch n).map fun c => (c, anc ++ [n])) :=
            entrySize_expand (ch := ch) (g := g) (D := D) (e := (n, anc)) hgn hl
          have hz : entryPlans (revOf ch) g D (n, anc) =
              flatPlans (revOf ch) g D ((ch n).map fun c => (c, anc ++ [n])).reverse := by
            rw [← List.map_reverse]
            exact entryPlans_expand (ch := revOf ch) (g := g) (D := D) (e := (n, anc)) hgn hl
          have hF : entryPlans (firstOf ch) g D (n, anc) =
              flatPlans (firstOf ch) g D ((firstOf ch n).map fun c => (c, anc ++ [n])) :=
            entryPlans_expand (ch := firstOf ch) (g := g) (D := D) (e := (n, anc)) hgn hl
          have hsr : flatSize ch g D ((ch n).map fun c => (c, anc ++ [n])).reverse =
              flatSize ch g D ((ch n).map fun c => (c, anc ++ [n])) := flatSize_perm (List.reverse_perm _)
          obtain ⟨it', h1, h2, h3⟩ := ih ⟨((ch n).map fun c => (c, anc ++ [n])).reverse ++ st, anc ++ [n]⟩
            (by
              intro e h
              rcases List.mem_append.1 h with h | h
              · obtain ⟨c, hc, rfl⟩ := List.mem_map.1 (List.mem_reverse.1 h)
                exact he.child hgn hl hc
              · exact hq e h)
            (by simp only [flatSize_append]; omega)
          refine ⟨it', h1, h2, .inr ⟨by simp, ?_⟩⟩
          have hb : bottom ch g D (((ch n).map fun c => (c, anc ++ [n])).reverse ++ st) =
              bottom ch g D ((n, anc) :: st) := by
            cases st with
            | cons e' st => rw [hbot _ (by simp)]; exact (hbot [(n, anc)] (by simp)).symm
            | nil =>
              rw [List.append_nil]
              unfold bottom
              rw [List.getLast?_reverse]
              simp only [List.getLast?_singleton]
              rw [hF]
              cases hcn : ch n with
              | nil => simp [firstOf, hcn]
              | cons c cs => simp [firstOf, hcn]
          have hfl : flatPlans (revOf ch) g D ((n, anc) :: st) =
              flatPlans (revOf ch) g D (((ch n).map fun c => (c, anc ++ [n])).reverse ++ st) := by
            rw [flatPlans_cons, flatPlans_append, hz]
          rw [hfl, ← hb]
          simp only [flatSize_append, hsr, flatSize_cons, hs] at h3 ⊢
          rcases h3 with ⟨a, rfl⟩ | ⟨a, b, c⟩
          · have a' := List.append_eq_nil_iff.1 a
            have a1 := List.reverse_eq_nil_iff.1 a'.1
            rw [a'.2] at a ⊢
            rw [a1]
            refine ⟨by simp, .inl ⟨by simp, by simp [bottom]⟩⟩
          · exact ⟨by omega, c⟩

theorem collect_spec (ht : sp.Total root g ch) {fuel : Nat} : ∀ steps (it : It N),
    (∀ e ∈ it.stack, EntryOk ch g D root e) → it.stack ≠ [] →
      flatSize ch g D it.stack < fuel → flatSize ch g D it.stack + 1 < steps →
      ∃ l, collect sp D fuel steps it = .ok l ∧
        l ++ bottom ch g D it.stack = it.cur :: flatPlans (revOf ch) g D it.stack := by
  intro steps
  induction steps with
  | zero => intro it _ _ _ h; omega
  | succ steps ih =>
    intro it hok hne hf hs
    unfold collect
    have hfin : it.finished = false := by
      unfold It.finished; cases hst : it.stack <;> simp_all
    simp only [hfin, Bool.false_eq_true, if_false]
    obtain ⟨it', h1, h2, h3⟩ := next_spec ht fuel it hok hf
    rw [h1, Res.bind_ok]
    rcases h3 with ⟨a, _⟩ | ⟨_, hlt, ⟨a, b⟩ | ⟨a, b, c⟩⟩
    · exact absurd a hne
    · obtain ⟨s, rfl⟩ : ∃ s, steps = s + 1 := ⟨steps - 1, by omega⟩
      have hfin' : it'.finished = true := by unfold It.finished; rw [a]; rfl
      unfold collect
      simp only [hfin', if_true, Res.bind_ok]
      exact ⟨[it.cur], rfl, by rw [← b]; rfl⟩
    · obtain ⟨l, hl, he⟩ := ih it' h2 a (by omega) (by omega)
      rw [hl, Res.bind_ok]
      refine ⟨it.cur :: l, rfl, ?_⟩
      rw [b, ← he, c]; rfl

theorem run_spec (ht : sp.Total root g ch) {fuel : Nat} (hfuel : treeSize ch g D root + 1 < fuel) :
    ∃ l, run sp D fuel root = .ok l ∧ l ++ plans (firstOf ch) g D root = plans (revOf ch) g D root := by
  unfold run begin
  have hsz : flatSize ch g D (start root).stack = treeSize ch g D root := by
    simp [start, entrySize]
  obtain ⟨it, h1, h2, h3⟩ := next_spec (D := D) ht fuel (start root)
    (by
      intro e he
      simp only [start, List.mem_singleton] at he
      subst he
      exact ⟨by simpa using IsPath.single root, by simp, by simp⟩) (by omega)
  rw [h1, Res.bind_ok]
  have hroot : flatPlans (revOf ch) g D (start root).stack = plans (revOf ch) g D root := by
    simp [start, entryPlans_root]
  have hbot : bottom ch g D (start root).stack = plans (firstOf ch) g D root := by
    simp [start, bottom, entryPlans_root]
  rw [hroot, hbot] at h3
  rcases h3 with ⟨a, _⟩ | ⟨_, hlt, ⟨a, b⟩ | ⟨a, b, c⟩⟩
  · simp [start] at a
  · obtain ⟨s, rfl⟩ : ∃ s, fuel = s + 1 := ⟨fuel - 1, by omega⟩
    have hfin' : it.finished = true := by unfold It.finished; rw [a]; rfl
    unfold collect
    simp only [hfin', if_true]
    exact ⟨[], rfl, by rw [b]; rfl⟩
  · obtain ⟨l, hl, he⟩ := collect_spec ht (fuel := fuel) fuel it h2 a (by omega) (by omega)
    exact ⟨l, hl, by rw [b, ← he, c]⟩

end Dfs

end Symbolic
