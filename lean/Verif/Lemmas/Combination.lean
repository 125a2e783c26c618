import Verif.Model.Combination
import Verif.Spec.Product
import Verif.Lemmas.Res
import Mathlib.Data.List.Forall2
import Mathlib.Algebra.BigOperators.Group.List.Basic
import Mathlib.Data.List.Nodup

/-!
Lemmas on CombinationGenerator.
-/

namespace Symbolic
namespace Comb
variable {α : Type}

/-- Number of combinations, with the empty product equal to one. -/
def count (os : List (List α)) : Nat := (os.map List.length).prod

@[simp] theorem count_nil : count ([] : List (List α)) = 1 := rfl
@[simp] theorem count_cons (o : List α) (os : List (List α)) : count (o :: os) = o.length * count os := by
  simp [count]

theorem groupSizes_cons (o : List α) (os : List (List α)) :
    groupSizes (o :: os) = count os :: groupSizes os := by
  induction os generalizing o with
  | nil => simp [groupSizes]
  | cons o' os ih => simp [groupSizes, ih]

theorem size_cons (o : List α) (os : List (List α)) : size (o :: os) = count (o :: os) := by
  simp [size, groupSizes_cons]

theorem size_of_ne_nil {os : List (List α)} (h : os ≠ []) : size os = count os := by
  cases os with
  | nil => exact absurd rfl h
  | cons o os => exact size_cons o os

theorem count_pos {os : List (List α)} (h : ∀ o ∈ os, o ≠ []) : 0 < count os := by
  induction os with
  | nil => simp
  | cons o os ih =>
    rw [count_cons]
    exact Nat.mul_pos (List.length_pos_iff.2 (h o (by simp))) (ih (fun o' ho' => h o' (by simp [ho'])))

theorem length_cartesian (os : List (List α)) : (cartesian os).length = count os := by
  induction os with
  | nil => simp [cartesian]
  | cons o os ih => simp [cartesian, List.length_flatMap, ih]

theorem mem_cartesian {os : List (List α)} {c : List α} :
    c ∈ cartesian os ↔ List.Forall₂ (fun a o => a ∈ o) c os := by
  induction os generalizing c with
  | nil => simp [cartesian]
  | cons o os ih =>
    simp only [cartesian, List.mem_flatMap, List.mem_map, List.forall₂_cons_right_iff, ih]
    constructor
    · rintro ⟨a, ha, r, hr, rfl⟩; exact ⟨a, r, ha, hr, rfl⟩
    · rintro ⟨a, r, ha, hr, rfl⟩; exact ⟨a, ha, r, hr, rfl⟩

theorem nodup_cartesian {os : List (List α)} (h : ∀ o ∈ os, o.Nodup) : (cartesian os).Nodup := by
  induction os with
  | nil => simp [cartesian]
  | cons o os ih =>
    have ih' := ih (fun o' ho' => h o' (by simp [ho']))
    rw [cartesian, List.nodup_flatMap]
    refine ⟨fun a _ => (List.nodup_map_iff (fun x y hxy => by simpa using hxy)).2 ih', ?_⟩
    have ho := h o (by simp)
    refine ho.imp ?_
    intro a b hab
    simp only [Function.onFun, List.disjoint_left, List.mem_map]
    rintro c ⟨x, _, rfl⟩ ⟨y, _, hy⟩
    simp at hy; exact hab hy.1.symm

/-- Entry `i` of a product splits into the first digit and the rest. -/
theorem flatMap_map_getElem? (g : List (List α)) (o : List α) (i : Nat) (hG : 0 < g.length) :
    (o.flatMap (fun a => g.map (fun r => a :: r)))[i]? =
      (o[i / g.length]?).bind (fun a => (g[i % g.length]?).map (fun r => a :: r)) := by
  induction o generalizing i with
  | nil => simp
  | cons a o ih =>
    rw [List.flatMap_cons]
    by_cases h : i < g.length
    · rw [List.getElem?_append_left (by simpa using h)]
      simp [Nat.div_eq_of_lt h, Nat.mod_eq_of_lt h]
    · have h' : g.length ≤ i := Nat.le_of_not_lt h
      rw [List.getElem?_append_right (by simpa using h'), ih]
      simp only [List.length_map]
      rw [Nat.div_eq_sub_div hG h', Nat.mod_eq_sub_mod h']
      simp

theorem cartesian_cons_getElem? (o : List α) (os : List (List α)) (i : Nat) (hG : 0 < count os) :
    (cartesian (o :: os))[i]? =
      (o[i / count os]?).bind (fun a => ((cartesian os)[i % count os]?).map (fun r => a :: r)) := by
  have h := flatMap_map_getElem? (cartesian os) o i (by rw [length_cartesian]; exact hG)
  rw [length_cartesian] at h
  exact h

theorem digit_nat (r g : Nat) : digit (r : Int) g = ((r / g : Nat) : Int) := by
  have : ¬ ((r : Int) < 0) := by omega
  simp [digit, this]

theorem reduce_nat (r g : Nat) : reduce (r : Int) ((r / g : Nat) : Int) g = ((r % g : Nat) : Int) := by
  have : ¬ ((r : Int) < 0) := by omega
  simp only [reduce, this, if_false]
  have h := Nat.div_add_mod r g
  have h' : ((g * (r / g) + r % g : Nat) : Int) = (r : Int) := by exact_mod_cast h
  push_cast at h' ⊢
  rw [Int.mul_comm] at h'
  omega

theorem vecAt_nat (o : List α) (k : Nat) : vecAt o (k : Int) =
    match o[k]? with | some a => .ok a | none => .exc .outOfRange := by
  have : ¬ ((k : Int) < 0) := by omega
  unfold vecAt
  rw [if_neg this, Int.toNat_natCast]
  cases o[k]? <;> rfl

/-- `ms` replaces some singleton options of `os` by other singletons. -/
def Masked (os ms : List (List α)) : Prop :=
  List.Forall₂ (fun o m => m = o ∨ (o.length = 1 ∧ m.length = 1)) os ms

theorem Masked.refl (os : List (List α)) : Masked os os := List.forall₂_same.2 (fun _ _ => Or.inl rfl)

theorem Masked.count_eq {os ms : List (List α)} (h : Masked os ms) : count ms = count os := by
  induction h with
  | nil => rfl
  | cons h _ ih => rcases h with rfl | ⟨h1, h2⟩ <;> simp_all

theorem Masked.ne {os ms : List (List α)} (h : Masked os ms) (hne : ∀ o ∈ os, o ≠ []) :
    ∀ m ∈ ms, m ≠ [] := by
  induction h with
  | nil => simp
  | cons h _ ih =>
    rename_i o m os ms _
    intro m' hm'
    rcases List.mem_cons.1 hm' with rfl | hm'
    · rcases h with rfl | ⟨h1, h2⟩
      · exact hne _ (by simp)
      · intro he; simp [he] at h2
    · exact ih (fun o' ho' => hne o' (by simp [ho'])) m' hm'

theorem setLoop_spec {os : List (List α)} (hne : ∀ o ∈ os, o ≠ []) :
    ∀ (r : Nat) (comb : List α), r < count os → comb.length = os.length →
      ∃ c, (cartesian os)[r]? = some c ∧ setLoop os (groupSizes os) (r : Int) comb = .ok c := by
  induction os with
  | nil =>
    intro r comb hr hl
    have : r = 0 := by simpa using hr
    subst this
    have : comb = [] := by simpa using hl
    subst this
    exact ⟨[], by simp [cartesian], by simp [setLoop]⟩
  | cons o os ih =>
    intro r comb hr hl
    have hne' : ∀ o' ∈ os, o' ≠ [] := fun o' ho' => hne o' (by simp [ho'])
    have hG := count_pos hne'
    cases comb with
    | nil => simp at hl
    | cons c0 comb =>
      have hl' : comb.length = os.length := by simpa using hl
      obtain ⟨c, hc1, hc2⟩ := ih hne' (r % count os) comb (Nat.mod_lt _ hG) hl'
      have hd : r / count os < o.length := by
        rw [Nat.div_lt_iff_lt_mul hG]; simpa using hr
      refine ⟨o[r / count os] :: c, ?_, ?_⟩
      · rw [cartesian_cons_getElem? _ _ _ hG]
        simp [hc1, hd]
      · have hg0 : ¬ count os = 0 := by omega
        rw [groupSizes_cons, setLoop]
        rw [if_neg hg0]
        simp only [digit_nat, reduce_nat, vecAt_nat, List.getElem?_eq_getElem hd, Res.bind_ok, hc2,
          Res.pure_eq]

theorem moveLoop_spec {os ms : List (List α)} (hm : Masked os ms) (hne : ∀ o ∈ os, o ≠ []) :
    ∀ (r r' : Nat) (comb : List α), r < count os → r' < count os → (cartesian ms)[r]? = some comb →
      ∃ c, (cartesian ms)[r']? = some c ∧
        moveLoop os (groupSizes os) (r : Int) (r' : Int) comb = .ok c := by
  induction hm with
  | nil =>
    intro r r' comb hr hr' hc
    have h0 : r = 0 := by simpa using hr
    have h0' : r' = 0 := by simpa using hr'
    subst h0; subst h0'
    exact ⟨comb, hc, by simp [moveLoop]⟩
  | cons h hm ih =>
    rename_i o m os ms
    intro r r' comb hr hr' hc
    have hne' : ∀ o' ∈ os, o' ≠ [] := fun o' ho' => hne o' (by simp [ho'])
    have hG := count_pos hne'
    have hcm : count ms = count os := Masked.count_eq hm
    rw [cartesian_cons_getElem? _ _ _ (by rw [hcm]; exact hG), hcm] at hc
    have hd : r / count os < o.length := by
      rw [Nat.div_lt_iff_lt_mul hG]; simpa using hr
    have hd' : r' / count os < o.length := by
      rw [Nat.div_lt_iff_lt_mul hG]; simpa using hr'
    have hml : m.length = o.length := by rcases h with rfl | ⟨h1, h2⟩ <;> simp_all
    have hg0 : ¬ count os = 0 := by omega
    have hlr : r % count os < (cartesian ms).length := by rw [length_cartesian, hcm]; exact Nat.mod_lt _ hG
    simp only [List.getElem?_eq_getElem (show r / count os < m.length by omega), Option.bind_some,
      List.getElem?_eq_getElem hlr, Option.map_some, Option.some.injEq] at hc
    subst hc
    obtain ⟨c, hc1, hc2⟩ := ih hne' (r % count os) (r' % count os) _ (Nat.mod_lt _ hG) (Nat.mod_lt _ hG)
      (List.getElem?_eq_getElem hlr)
    refine ⟨m[r' / count os]'(by omega) :: c, ?_, ?_⟩
    · rw [cartesian_cons_getElem? _ _ _ (by rw [hcm]; exact hG), hcm, hc1]
      simp [hml, hd']
    · rw [groupSizes_cons, moveLoop, if_neg hg0]
      simp only [digit_nat, reduce_nat, vecAt_nat]
      by_cases hdd : r / count os = r' / count os
      · simp only [hdd, if_true, Res.pure_eq, Res.bind_ok, hc2]
      · have hne'' : ¬ ((r / count os : Nat) : Int) = ((r' / count os : Nat) : Int) := by
          intro h; apply hdd; exact_mod_cast h
        simp only [hne'', if_false, List.getElem?_eq_getElem hd', Res.bind_ok, hc2, Res.pure_eq]
        rcases h with rfl | ⟨h1, h2⟩
        · rfl
        · rw [h1] at hd hd'
          exact absurd ((Nat.lt_one_iff.1 hd).trans (Nat.lt_one_iff.1 hd').symm) hdd

theorem outside_nat (os : List (List α)) (k : Nat) : outside os (k : Int) = decide (size os ≤ k) := by
  simp [outside]
  omega

theorem iter_spec (dflt : α) {os : List (List α)} (h0 : os ≠ []) (hne : ∀ o ∈ os, o ≠ []) (k : Nat)
    (hk : k < count os) :
    ∃ c, (cartesian os)[k]? = some c ∧ iter dflt os (k : Int) = .ok ⟨c, (k : Int)⟩ := by
  obtain ⟨c, h1, h2⟩ := setLoop_spec hne k (prealloc dflt os []) hk (by simp [prealloc])
  refine ⟨c, h1, ?_⟩
  have : ¬ size os ≤ k := by rw [size_of_ne_nil h0]; omega
  simp [iter, outside_nat, this, h2]

theorem length_of_mem_cartesian {os : List (List α)} {c : List α} (h : c ∈ cartesian os) :
    c.length = os.length := (mem_cartesian.1 h).length_eq

theorem prealloc_eq (dflt : α) {os : List (List α)} (h0 : os ≠ []) {c : List α} (hl : c.length = os.length) :
    prealloc dflt os c = c := by
  have : c ≠ [] := by
    intro h; subst h; simp at hl; exact h0 (List.length_eq_zero_iff.1 hl.symm)
  cases c with
  | nil => exact absurd rfl this
  | cons _ _ => simp [prealloc]

theorem moveTo_spec (dflt : α) {os ms : List (List α)} (h0 : os ≠ []) (hm : Masked os ms)
    (hne : ∀ o ∈ os, o ≠ []) (k k' : Nat) (hk : k < count os) (hk' : k' < count os) {c : List α}
    (hc : (cartesian ms)[k]? = some c) :
    ∃ c', (cartesian ms)[k']? = some c' ∧ moveTo dflt os ⟨c, (k : Int)⟩ (k' : Int) = .ok ⟨c', (k' : Int)⟩ := by
  unfold moveTo
  by_cases he : k = k'
  · subst he; exact ⟨c, hc, by simp⟩
  · have he' : ¬ ((k : Int) = (k' : Int)) := by omega
    obtain ⟨c', h1, h2⟩ := moveLoop_spec hm hne k k' c hk hk' hc
    refine ⟨c', h1, ?_⟩
    have : ¬ size os ≤ k' := by rw [size_of_ne_nil h0]; omega
    have hl : c.length = os.length := by
      rw [length_of_mem_cartesian (List.mem_of_getElem? hc)]
      exact hm.length_eq.symm
    simp [he', outside_nat, this, prealloc_eq dflt h0 hl, h2]

theorem moveTo_end (dflt : α) (os : List (List α)) (it : Iter α) :
    moveTo dflt os it (size os : Int) = .ok ⟨it.comb, (size os : Int)⟩ := by
  unfold moveTo
  split
  · rename_i h; rcases it with ⟨c, i⟩; simp only at h; subst h; rfl
  · simp [outside_nat]

theorem moveTo_neg (dflt : α) (os : List (List α)) (it : Iter α) :
    moveTo dflt os it (-1) = .ok ⟨it.comb, -1⟩ := by
  unfold moveTo
  split
  · rename_i h; rcases it with ⟨c, i⟩; simp only at h; subst h; rfl
  · simp [outside]

theorem traverse_forward (dflt : α) {os : List (List α)} (h0 : os ≠ []) (hne : ∀ o ∈ os, o ≠ []) :
    ∀ (m k : Nat) (budget : Nat) (c : List α), k + m = count os → m < budget → 0 < m →
      (cartesian os)[k]? = some c →
      traverse dflt os 1 (size os : Int) budget ⟨c, (k : Int)⟩ = .ok ((cartesian os).drop k) := by
  intro m
  induction m with
  | zero => intro k budget c _ _ h; omega
  | succ m ih =>
    intro k budget c hk hb _ hc
    cases budget with
    | zero => omega
    | succ budget =>
      have hs : size os = count os := size_of_ne_nil h0
      have hkl : k < (cartesian os).length := by rw [length_cartesian]; omega
      have hck : (cartesian os)[k] = c := by
        rw [List.getElem?_eq_getElem hkl] at hc; simpa using hc
      have hd : (cartesian os).drop k = c :: (cartesian os).drop (k + 1) := by
        rw [List.drop_eq_getElem_cons hkl, hck]
      have hne' : ¬ ((k : Int) = (size os : Int)) := by rw [hs]; omega
      unfold traverse
      rw [if_neg hne']
      have e1 : ((k : Int) + 1) = ((k + 1 : Nat) : Int) := by simp
      simp only [advance]
      rw [e1]
      by_cases hm : m = 0
      · have hend : k + 1 = size os := by omega
        rw [hend, moveTo_end]
        simp only [Res.bind_ok]
        cases budget with
        | zero => omega
        | succ b =>
          rw [traverse]
          rw [hd]
          have : (cartesian os).drop (k + 1) = [] := by
            rw [List.drop_eq_nil_iff, length_cartesian]; omega
          simp [← hend, this]
      · obtain ⟨c', h1, h2⟩ := moveTo_spec dflt h0 (Masked.refl os) hne k (k + 1) (by omega) (by omega) hc
        rw [h2]
        simp only [Res.bind_ok]
        rw [ih (k + 1) budget c' (by omega) (by omega) (by omega) h1]
        rw [hd]; rfl

theorem traverse_backward (dflt : α) {os ms : List (List α)} (h0 : os ≠ []) (hm : Masked os ms)
    (hne : ∀ o ∈ os, o ≠ []) :
    ∀ (k : Nat) (budget : Nat) (c : List α), k < count os → k + 1 < budget →
      (cartesian ms)[k]? = some c →
      traverse dflt os (-1) (-1) budget ⟨c, (k : Int)⟩ = .ok ((cartesian ms).take (k + 1)).reverse := by
  intro k
  induction k with
  | zero =>
    intro budget c hk hb hc
    obtain ⟨b, rfl⟩ : ∃ b, budget = b + 2 := ⟨budget - 2, by omega⟩
    rw [traverse, if_neg (by simp)]
    simp only [advance]
    have : ((0 : Nat) : Int) + -1 = -1 := by simp
    rw [this, moveTo_neg]
    simp only [Res.bind_ok]
    rw [traverse, if_pos rfl]
    rw [List.take_add_one, hc]
    simp
  | succ k ih =>
    intro budget c hk hb hc
    obtain ⟨b, rfl⟩ : ∃ b, budget = b + 1 := ⟨budget - 1, by omega⟩
    rw [traverse, if_neg (by simp only; omega)]
    simp only [advance]
    have : ((k + 1 : Nat) : Int) + -1 = (k : Int) := by omega
    rw [this]
    obtain ⟨c', h1, h2⟩ := moveTo_spec dflt h0 hm hne (k + 1) k hk (by omega) hc
    rw [h2]
    simp only [Res.bind_ok]
    rw [ih b c' (by omega) (by omega) h1]
    conv_rhs => rw [List.take_add_one, hc]
    simp

/-- What decrementing `end()` shows: singleton options other than the first keep the default element. -/
def mask (dflt : α) : List (List α) → List (List α)
  | [] => []
  | o :: os => o :: os.map (fun o => if o.length = 1 then [dflt] else o)

theorem masked_tail (dflt : α) (os : List (List α)) :
    Masked os (os.map (fun o => if o.length = 1 then [dflt] else o)) := by
  induction os with
  | nil => exact List.Forall₂.nil
  | cons o os ih =>
    refine List.Forall₂.cons ?_ ih
    by_cases h : o.length = 1
    · exact Or.inr ⟨h, by simp [h]⟩
    · exact Or.inl (by simp [h])

theorem masked_mask (dflt : α) (os : List (List α)) : Masked os (mask dflt os) := by
  cases os with
  | nil => exact List.Forall₂.nil
  | cons o os => exact List.Forall₂.cons (Or.inl rfl) (masked_tail dflt os)

theorem moveLoop_zero_last (dflt : α) {os : List (List α)} (hne : ∀ o ∈ os, o ≠ []) :
    ∃ c, (cartesian (os.map (fun o => if o.length = 1 then [dflt] else o)))[count os - 1]? = some c ∧
      moveLoop os (groupSizes os) 0 ((count os - 1 : Nat) : Int) (List.replicate os.length dflt) = .ok c := by
  induction os with
  | nil => exact ⟨[], by simp [cartesian], by simp [moveLoop]⟩
  | cons o os ih =>
    have hne' : ∀ o' ∈ os, o' ≠ [] := fun o' ho' => hne o' (by simp [ho'])
    have hG := count_pos hne'
    have ho : 0 < o.length := List.length_pos_iff.2 (hne o (by simp))
    obtain ⟨c, h1, h2⟩ := ih hne'
    have hcm := (masked_tail dflt os).count_eq
    have e1 : (count (o :: os) - 1) / count os = o.length - 1 := by
      rw [count_cons]
      obtain ⟨n, hn⟩ : ∃ n, o.length = n + 1 := ⟨o.length - 1, by omega⟩
      rw [hn, Nat.add_mul, Nat.one_mul]
      have : n * count os + count os - 1 = (count os - 1) + count os * n := by rw [Nat.mul_comm]; omega
      rw [this, Nat.add_mul_div_left _ _ hG, Nat.div_eq_of_lt (by omega)]
      omega
    have e2 : (count (o :: os) - 1) % count os = count os - 1 := by
      rw [count_cons]
      obtain ⟨n, hn⟩ : ∃ n, o.length = n + 1 := ⟨o.length - 1, by omega⟩
      rw [hn, Nat.add_mul, Nat.one_mul]
      have : n * count os + count os - 1 = (count os - 1) + count os * n := by rw [Nat.mul_comm]; omega
      rw [this, Nat.add_mul_mod_self_left, Nat.mod_eq_of_lt (by omega)]
    have hg0 : ¬ count os = 0 := by omega
    simp only [List.map_cons]
    refine ⟨(if o.length = 1 then dflt else o[o.length - 1]'(by omega)) :: c, ?_, ?_⟩
    · rw [cartesian_cons_getElem? _ _ _ (by rw [hcm]; exact hG), hcm, e1, e2, h1]
      by_cases hl : o.length = 1
      · simp [hl]
      · rw [if_neg hl, if_neg hl, List.getElem?_eq_getElem (by omega)]
        simp
    · rw [groupSizes_cons, List.length_cons, List.replicate_succ, moveLoop, if_neg hg0]
      have d0 : digit 0 (count os) = ((0 : Nat) : Int) := by
        have := digit_nat 0 (count os); simp only [Nat.zero_div] at this; exact_mod_cast this
      have r0 : reduce 0 ((0 : Nat) : Int) (count os) = 0 := by
        have := reduce_nat 0 (count os); simp only [Nat.zero_div, Nat.zero_mod] at this; exact_mod_cast this
      simp only [digit_nat, vecAt_nat, d0, r0, e1]
      have hr := reduce_nat (count (o :: os) - 1) (count os)
      rw [e1, e2] at hr
      rw [hr, h2]
      by_cases hl : o.length = 1
      · simp [hl]
      · have : ¬ (((0 : Nat) : Int) = ((o.length - 1 : Nat) : Int)) := by omega
        simp only [this, if_false, hl]
        rw [List.getElem?_eq_getElem (by omega)]
        simp

theorem rbegin_spec (dflt : α) {os : List (List α)} (h0 : os ≠ []) (hne : ∀ o ∈ os, o ≠ []) :
    ∃ c, (cartesian (mask dflt os))[count os - 1]? = some c ∧
      moveTo dflt os ⟨[], (count os : Int)⟩ ((count os - 1 : Nat) : Int) =
        .ok ⟨c, ((count os - 1 : Nat) : Int)⟩ := by
  have hcp := count_pos hne
  cases os with
  | nil => exact absurd rfl h0
  | cons o os =>
    have hne' : ∀ o' ∈ os, o' ≠ [] := fun o' ho' => hne o' (by simp [ho'])
    have hG := count_pos hne'
    have ho : 0 < o.length := List.length_pos_iff.2 (hne o (by simp))
    obtain ⟨c, h1, h2⟩ := moveLoop_zero_last dflt hne'
    have hcm := (masked_tail dflt os).count_eq
    have e1 : (count (o :: os) - 1) / count os = o.length - 1 := by
      rw [count_cons]
      obtain ⟨n, hn⟩ : ∃ n, o.length = n + 1 := ⟨o.length - 1, by omega⟩
      rw [hn, Nat.add_mul, Nat.one_mul]
      have : n * count os + count os - 1 = (count os - 1) + count os * n := by rw [Nat.mul_comm]; omega
      rw [this, Nat.add_mul_div_left _ _ hG, Nat.div_eq_of_lt (by omega)]
      omega
    have e2 : (count (o :: os) - 1) % count os = count os - 1 := by
      rw [count_cons]
      obtain ⟨n, hn⟩ : ∃ n, o.length = n + 1 := ⟨o.length - 1, by omega⟩
      rw [hn, Nat.add_mul, Nat.one_mul]
      have : n * count os + count os - 1 = (count os - 1) + count os * n := by rw [Nat.mul_comm]; omega
      rw [this, Nat.add_mul_mod_self_left, Nat.mod_eq_of_lt (by omega)]
    have hg0 : ¬ count os = 0 := by omega
    refine ⟨o[o.length - 1]'(by omega) :: c, ?_, ?_⟩
    · rw [mask, cartesian_cons_getElem? _ _ _ (by rw [hcm]; exact hG), hcm, e1, e2, h1,
        List.getElem?_eq_getElem (by omega)]
      simp
    · unfold moveTo
      have hne1 : ¬ ((count (o :: os) : Int) = ((count (o :: os) - 1 : Nat) : Int)) := by omega
      have hne2 : ¬ (size (o :: os) ≤ count (o :: os) - 1) := by rw [size_cons]; omega
      simp only [hne1, if_false, outside_nat, hne2, decide_false, Bool.false_eq_true]
      have hp : prealloc dflt (o :: os) [] = dflt :: List.replicate os.length dflt := by
        simp [prealloc, List.replicate_succ]
      have e3 : count (o :: os) / count os = o.length := by
        rw [count_cons, Nat.mul_div_cancel _ hG]
      have e4 : count (o :: os) % count os = 0 := by rw [count_cons, Nat.mul_mod_left]
      rw [hp, groupSizes_cons, moveLoop, if_neg hg0]
      have hr := reduce_nat (count (o :: os) - 1) (count os)
      have hr' := reduce_nat (count (o :: os)) (count os)
      rw [e1, e2] at hr
      rw [e3, e4] at hr'
      simp only [digit_nat, vecAt_nat, e1, e3, hr, hr']
      have : ¬ (((o.length : Nat) : Int) = ((o.length - 1 : Nat) : Int)) := by omega
      simp only [this, if_false]
      rw [List.getElem?_eq_getElem (by omega)]
      have h2' : moveLoop os (groupSizes os) ((0 : Nat) : Int) ((count os - 1 : Nat) : Int)
        (List.replicate os.length dflt) = .ok c := h2
      simp only [Res.bind_ok, h2', Res.pure_eq]

/-! ### find -/

theorem findIdx_some {eq : α → α → Bool} {a : α} {o : List α} {k : Nat} (h : findIdx eq a o = some k) :
    ∃ x, o[k]? = some x ∧ eq x a = true := by
  induction o generalizing k with
  | nil => simp [findIdx] at h
  | cons x o ih =>
    unfold findIdx at h
    split at h
    · simp at h; subst h; exact ⟨x, by simp, by assumption⟩
    · simp only [Option.map_eq_some_iff] at h
      obtain ⟨k', h1, rfl⟩ := h
      obtain ⟨y, hy, he⟩ := ih h1
      exact ⟨y, by simpa using hy, he⟩

theorem findIdx_none {eq : α → α → Bool} {a : α} {o : List α} :
    findIdx eq a o = none ↔ ∀ x ∈ o, eq x a = false := by
  induction o with
  | nil => simp [findIdx]
  | cons x o ih =>
    unfold findIdx
    split
    · rename_i h; simp [h]
    · rename_i h; simp [ih, h]

theorem findIdx_of_distinct {eq : α → α → Bool} (hrefl : ∀ x, eq x x = true) {o : List α}
    (hd : o.Pairwise (fun x y => eq x y = false)) {k : Nat} {a : α} (hk : o[k]? = some a) :
    findIdx eq a o = some k := by
  induction o generalizing k with
  | nil => simp at hk
  | cons x o ih =>
    rw [List.pairwise_cons] at hd
    cases k with
    | zero => simp at hk; subst hk; simp [findIdx, hrefl]
    | succ k =>
      simp at hk
      have hxa := hd.1 a (List.mem_of_getElem? hk)
      simp [findIdx, hxa, ih hd.2 hk]

theorem findLoop_get {eq : α → α → Bool} (hrefl : ∀ x, eq x x = true) {os : List (List α)}
    (hne : ∀ o ∈ os, o ≠ []) (hd : ∀ o ∈ os, o.Pairwise (fun x y => eq x y = false)) :
    ∀ (i acc : Nat) (c : List α), (cartesian os)[i]? = some c →
      findLoop eq os (groupSizes os) c acc = .ok (acc + i) := by
  induction os with
  | nil =>
    intro i acc c hc
    cases i with
    | zero => simp [cartesian] at hc; subst hc; simp [findLoop]
    | succ i => simp [cartesian] at hc
  | cons o os ih =>
    intro i acc c hc
    have hne' : ∀ o' ∈ os, o' ≠ [] := fun o' ho' => hne o' (by simp [ho'])
    have hG := count_pos hne'
    rw [cartesian_cons_getElem? _ _ _ hG] at hc
    rw [Option.bind_eq_some_iff] at hc
    obtain ⟨a, ha, hc⟩ := hc
    rw [Option.map_eq_some_iff] at hc
    obtain ⟨r, hr, rfl⟩ := hc
    rw [groupSizes_cons, findLoop, findIdx_of_distinct hrefl (hd o (by simp)) ha]
    simp only
    rw [ih hne' (fun o' ho' => hd o' (by simp [ho'])) _ _ _ hr]
    congr 1
    have := Nat.div_add_mod i (count os)
    omega

theorem findLoop_ok {eq : α → α → Bool} {os : List (List α)} (hne : ∀ o ∈ os, o ≠ []) :
    ∀ (c : List α) (acc : Nat), c.length = os.length →
      (∀ n, findLoop eq os (groupSizes os) c acc = .ok n →
        ∃ i d, n = acc + i ∧ (cartesian os)[i]? = some d ∧ List.Forall₂ (fun x a => eq x a = true) d c) ∧
      (List.Forall₂ (fun a o => ∃ x ∈ o, eq x a = true) c os →
        ∃ n, findLoop eq os (groupSizes os) c acc = .ok n) ∧
      (¬ List.Forall₂ (fun a o => ∃ x ∈ o, eq x a = true) c os →
        findLoop eq os (groupSizes os) c acc = .exc .outOfRange) := by
  induction os with
  | nil =>
    intro c acc hl
    have : c = [] := by simpa using hl
    subst this
    refine ⟨fun n hn => ?_, fun _ => ⟨acc, by simp [findLoop]⟩, fun h => absurd List.Forall₂.nil h⟩
    simp [findLoop] at hn
    exact ⟨0, [], by omega, by simp [cartesian], List.Forall₂.nil⟩
  | cons o os ih =>
    intro c acc hl
    have hne' : ∀ o' ∈ os, o' ≠ [] := fun o' ho' => hne o' (by simp [ho'])
    have hG := count_pos hne'
    cases c with
    | nil => simp at hl
    | cons a c =>
      have hl' : c.length = os.length := by simpa using hl
      rw [groupSizes_cons, findLoop]
      cases hf : findIdx eq a o with
      | none =>
        rw [findIdx_none] at hf
        refine ⟨fun n hn => by simp at hn, fun h => ?_, fun _ => rfl⟩
        rw [List.forall₂_cons] at h
        obtain ⟨⟨x, hx, he⟩, _⟩ := h
        simp [hf x hx] at he
      | some k =>
        obtain ⟨x, hx, he⟩ := findIdx_some hf
        obtain ⟨h1, h2, h3⟩ := ih hne' c (acc + count os * k) hl'
        have hxm : x ∈ o := List.mem_of_getElem? hx
        refine ⟨fun n hn => ?_, fun h => ?_, fun h => ?_⟩
        · obtain ⟨i, d, hn', hd, hF⟩ := h1 n hn
          have hi : i < count os := by
            have := (List.getElem?_eq_some_iff.1 hd).1; rwa [length_cartesian] at this
          refine ⟨count os * k + i, x :: d, by omega, ?_, List.Forall₂.cons he hF⟩
          rw [cartesian_cons_getElem? _ _ _ hG, Nat.mul_add_div hG, Nat.div_eq_of_lt hi,
            Nat.mul_add_mod, Nat.mod_eq_of_lt hi]
          simp [hx, hd]
        · rw [List.forall₂_cons] at h
          exact h2 h.2
        · apply h3
          intro h'
          exact h (List.Forall₂.cons ⟨x, hxm, he⟩ h')

end Comb
end Symbolic
