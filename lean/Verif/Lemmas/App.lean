import Verif.Spec.App

/-!
# Lemmas: the command line program
-/

namespace Symbolic

/-! ## Numbers -/

theorem digitOf_eq (c : Char) : digitOf c = if c ∈ n!"0123456789" then some (c.toNat - 48) else none := by
  unfold digitOf
  have h : ('0' ≤ c ∧ c ≤ '9') ↔ c ∈ n!"0123456789" := by
    constructor
    · rintro ⟨h1, h2⟩
      have h1 : 48 ≤ c.toNat := h1
      have h2 : c.toNat ≤ 57 := h2
      have hc : c = Char.ofNat c.toNat := (Char.ofNat_toNat c).symm
      generalize c.toNat = k at *
      subst hc
      have : k = 48 ∨ k = 49 ∨ k = 50 ∨ k = 51 ∨ k = 52 ∨ k = 53 ∨ k = 54 ∨ k = 55 ∨ k = 56 ∨ k = 57 := by omega
      rcases this with rfl | rfl | rfl | rfl | rfl | rfl | rfl | rfl | rfl | rfl <;> decide
    · intro h
      simp only [List.mem_cons, List.not_mem_nil, or_false] at h
      rcases h with rfl | rfl | rfl | rfl | rfl | rfl | rfl | rfl | rfl | rfl <;> decide
  by_cases hc : c ∈ n!"0123456789"
  · rw [if_pos (h.2 hc), if_pos hc]; rfl
  · rw [if_neg (fun e => hc (h.1 e)), if_neg hc]

theorem digitsFrom_append {rest : List Char} (hr : ∀ c, rest.head? = some c → ¬ IsDigit c) : ∀ (ds : List Char) (acc : Nat),
    (∀ c ∈ ds, IsDigit c) → digitsFrom acc (ds ++ rest) = ds.foldl (fun v c => 10 * v + (c.toNat - 48)) acc
  | [], acc, _ => by
    cases rest with
    | nil => rfl
    | cons c cs =>
      have h1 : ¬ c ∈ n!"0123456789" := hr c rfl
      simp only [List.nil_append, digitsFrom, digitOf_eq, if_neg h1, List.foldl_nil]
  | d :: ds, acc, hd => by
    have h1 : d ∈ n!"0123456789" := hd d (by simp)
    simp only [List.cons_append, digitsFrom, digitOf_eq, if_pos h1, List.foldl_cons]
    exact digitsFrom_append hr ds _ (fun c hc => hd c (by simp [hc]))

theorem leadingNat_append {ds rest : List Char} (hne : ds ≠ []) (hd : ∀ c ∈ ds, IsDigit c)
    (hr : ∀ c, rest.head? = some c → ¬ IsDigit c) : leadingNat (ds ++ rest) = some (decimalValue ds) := by
  cases ds with
  | nil => exact absurd rfl hne
  | cons d ds =>
    have h1 : d ∈ n!"0123456789" := hd d (by simp)
    simp only [List.cons_append, leadingNat, digitOf_eq, if_pos h1, Option.some.injEq]
    rw [digitsFrom_append hr ds _ (fun c hc => hd c (by simp [hc]))]
    simp [decimalValue]

theorem leadingNat_some {s : List Char} {n : Nat} (h : leadingNat s = some n) : ∃ ds rest, s = ds ++ rest ∧ ds ≠ [] ∧
    (∀ c ∈ ds, IsDigit c) ∧ (∀ c, rest.head? = some c → ¬ IsDigit c) ∧ n = decimalValue ds := by
  have key : ∀ s : List Char, ∃ ds rest, s = ds ++ rest ∧ (∀ c ∈ ds, IsDigit c) ∧
      ∀ c, rest.head? = some c → ¬ IsDigit c := by
    intro s
    induction s with
    | nil => exact ⟨[], [], rfl, by simp, by simp⟩
    | cons c cs ih =>
      by_cases hc : IsDigit c
      · obtain ⟨ds, rest, rfl, h1, h2⟩ := ih
        exact ⟨c :: ds, rest, rfl, by simpa using ⟨hc, h1⟩, h2⟩
      · exact ⟨[], c :: cs, rfl, by simp, by simpa using hc⟩
  obtain ⟨ds, rest, rfl, h1, h2⟩ := key s
  have hne : ds ≠ [] := by
    rintro rfl
    cases rest with
    | nil => simp [leadingNat] at h
    | cons c cs =>
      have h1 : ¬ c ∈ n!"0123456789" := h2 c rfl
      simp only [List.nil_append, leadingNat, digitOf_eq, if_neg h1] at h
      simp at h
  rw [leadingNat_append hne h1 h2] at h
  exact ⟨ds, rest, rfl, hne, h1, h2, (Option.some.inj h).symm⟩

theorem isCSpace_iff {c : Char} : isCSpace c = true ↔ c ∈ n!" \t\n\x0b\x0c\r" := by
  simp only [isCSpace, Bool.or_eq_true, decide_eq_true_eq, List.mem_cons, List.not_mem_nil, or_false, or_assoc]

theorem dropWhile_space {ws s : List Char} (hw : ∀ c ∈ ws, c ∈ n!" \t\n\x0b\x0c\r")
    (hs : ∀ c, s.head? = some c → isCSpace c = false) : (ws ++ s).dropWhile isCSpace = s := by
  induction ws with
  | nil =>
    cases s with
    | nil => rfl
    | cons c cs => simp only [List.nil_append, List.dropWhile_cons, hs c rfl, Bool.false_eq_true, if_false]
  | cons w ws ih =>
    rw [List.cons_append, List.dropWhile_cons, if_pos (isCSpace_iff.2 (hw w (by simp)))]
    exact ih (fun c hc => hw c (by simp [hc]))

theorem digit_facts {c : Char} (h : IsDigit c) : isCSpace c = false ∧ c ≠ '-' ∧ c ≠ '+' := by
  unfold IsDigit at h
  simp only [List.mem_cons, List.not_mem_nil, or_false] at h
  rcases h with rfl | rfl | rfl | rfl | rfl | rfl | rfl | rfl | rfl | rfl <;> decide

theorem strtol_iff {s : List Char} {z : Int} : strtol s = some z ↔ StartsWithNumber s z := by
  constructor
  · intro h
    have hsplit : s = s.takeWhile isCSpace ++ s.dropWhile isCSpace := (List.takeWhile_append_dropWhile).symm
    have hws : ∀ c ∈ s.takeWhile isCSpace, c ∈ n!" \t\n\x0b\x0c\r" := fun c hc =>
      isCSpace_iff.1 (List.mem_takeWhile_imp hc)
    unfold strtol at h
    generalize s.dropWhile isCSpace = t at h hsplit
    split at h
    · rename_i cs
      rw [Option.map_eq_some_iff] at h
      obtain ⟨n, h1, rfl⟩ := h
      obtain ⟨ds, rest, rfl, h2, h3, h4, rfl⟩ := leadingNat_some h1
      exact ⟨_, n!"-", ds, rest, by simpa using hsplit, hws, h2, h3, h4, Or.inl ⟨rfl, rfl⟩⟩
    · rename_i cs
      rw [Option.map_eq_some_iff] at h
      obtain ⟨n, h1, rfl⟩ := h
      obtain ⟨ds, rest, rfl, h2, h3, h4, rfl⟩ := leadingNat_some h1
      exact ⟨_, n!"+", ds, rest, by simpa using hsplit, hws, h2, h3, h4, Or.inr ⟨Or.inl rfl, rfl⟩⟩
    · rw [Option.map_eq_some_iff] at h
      obtain ⟨n, h1, rfl⟩ := h
      obtain ⟨ds, rest, rfl, h2, h3, h4, rfl⟩ := leadingNat_some h1
      exact ⟨_, [], ds, rest, by simpa using hsplit, hws, h2, h3, h4, Or.inr ⟨Or.inr rfl, rfl⟩⟩
  · rintro ⟨ws, sign, ds, rest, rfl, h1, h2, h3, h4, h⟩
    have hl := leadingNat_append h2 h3 h4
    rw [show ws ++ sign ++ ds ++ rest = ws ++ (sign ++ (ds ++ rest)) by simp]
    unfold strtol
    rcases h with ⟨rfl, rfl⟩ | ⟨rfl | rfl, rfl⟩
    · rw [dropWhile_space h1 (by intro c hc; simp at hc; subst hc; decide)]
      show Option.map _ (leadingNat (ds ++ rest)) = _
      rw [hl]; rfl
    · rw [dropWhile_space h1 (by intro c hc; simp at hc; subst hc; decide)]
      show Option.map _ (leadingNat (ds ++ rest)) = _
      rw [hl]; rfl
    · cases ds with
      | nil => exact absurd rfl h2
      | cons d ds =>
        obtain ⟨e1, e2, e3⟩ := digit_facts (h3 d (by simp))
        rw [dropWhile_space h1 (by intro c hc; simp at hc; subst hc; exact e1)]
        simp only [List.nil_append, List.cons_append] at hl ⊢
        split
        · rename_i heq; cases heq; exact absurd rfl e2
        · rename_i heq; cases heq; exact absurd rfl e3
        · rw [hl]; rfl

theorem stoi_ok {s : List Char} {z : Int} : stoi s = .ok z ↔ StartsWithNumber s z ∧ -2 ^ 31 ≤ z ∧ z < 2 ^ 31 := by
  rw [← strtol_iff]
  unfold stoi
  cases strtol s with
  | none => simp
  | some x =>
    simp only [Option.some.injEq]
    split
    · rename_i h
      constructor
      · intro e; cases e; exact ⟨rfl, h⟩
      · rintro ⟨rfl, -⟩; rfl
    · rename_i h
      constructor
      · intro e; cases e
      · rintro ⟨rfl, h'⟩; exact absurd h' h

theorem argLoop_ok : ∀ {rest : List Name} {a b : Args}, argLoop a rest = .ok b ↔
    b.domain = a.domain ∧ b.problem = a.problem ∧ Options (a.depth, a.verbose) rest (b.depth, b.verbose)
  | [], a, b => by
    constructor
    · intro h; cases h; exact ⟨rfl, rfl, .done _⟩
    · rintro ⟨h1, h2, h3⟩
      obtain ⟨d, p, n, v⟩ := b
      simp only at h1 h2 h3
      cases h3
      subst h1 h2
      rfl
  | arg :: rest, a, b => by
    unfold argLoop
    by_cases h1 : arg = n!"--depth"
    · subst h1
      rw [if_pos rfl]
      cases rest with
      | nil =>
        refine ⟨fun h => by simp at h, fun h => ?_⟩
        obtain ⟨-, -, h⟩ := h
        cases h
      | cons value rest =>
        simp only [Res.bind_eq_ok]
        constructor
        · rintro ⟨z, hz, h⟩
          obtain ⟨g1, g2, g3⟩ := stoi_ok.1 hz
          obtain ⟨e1, e2, e3⟩ := argLoop_ok.1 h
          refine ⟨e1, e2, ?_⟩
          simp only at e3
          by_cases hneg : 0 ≤ z
          · refine .depth (n := z.toNat) (by rw [Int.toNat_of_nonneg hneg]; exact g1) (by omega) ?_
            have e : (z % 2 ^ 64).toNat = z.toNat := by omega
            rwa [e] at e3
          · refine .negative (n := (-z).toNat) (by rw [Int.toNat_of_nonneg (by omega), Int.neg_neg]; exact g1)
              (by omega) (by omega) ?_
            have e : (z % 2 ^ 64).toNat = 2 ^ 64 - (-z).toNat := by omega
            rwa [e] at e3
        · rintro ⟨e1, e2, h⟩
          cases h with
          | @depth _ _ _ _ _ n hn hlt h =>
            refine ⟨n, stoi_ok.2 ⟨hn, by omega, by omega⟩, argLoop_ok.2 ⟨e1, e2, ?_⟩⟩
            simp only
            have e : ((n : Int) % 2 ^ 64).toNat = n := by omega
            rwa [e]
          | @negative _ _ _ _ _ n hn h0 hle h =>
            refine ⟨-(n : Int), stoi_ok.2 ⟨hn, by omega, by omega⟩, argLoop_ok.2 ⟨e1, e2, ?_⟩⟩
            simp only
            have e : (-(n : Int) % 2 ^ 64).toNat = 2 ^ 64 - n := by omega
            rwa [e]
    · rw [if_neg h1]
      by_cases h2 : arg = n!"--verbose"
      · subst h2
        rw [if_pos rfl, argLoop_ok]
        constructor
        · rintro ⟨e1, e2, h⟩; exact ⟨e1, e2, .verbose h⟩
        · rintro ⟨e1, e2, h⟩
          cases h with
          | verbose h => exact ⟨e1, e2, h⟩
      · rw [if_neg h2]
        refine ⟨fun h => by simp at h, fun h => ?_⟩
        obtain ⟨-, -, h⟩ := h
        cases h with
        | verbose _ => exact absurd rfl h2
        | depth _ _ _ => exact absurd rfl h1
        | negative _ _ _ _ => exact absurd rfl h1

/-! ## Output -/

section
variable {N : Type} {sp : Space N} {print : N → Name} {D : Nat}

/-- Printing does not influence the search. -/
theorem Bfs.nextOut_snd (v : Bool) : ∀ (fuel depth k : Nat) (it : Bfs.It N),
    (Bfs.nextOut sp print D v fuel depth it).2 = Bfs.next sp D (fun _ => false) fuel k it
  | 0, _, _, _ => rfl
  | fuel + 1, depth, k, it => by
    unfold Bfs.nextOut Bfs.next
    cases hq : it.queue with
    | nil => rfl
    | cons e queue =>
      obtain ⟨node, anc⟩ := e
      simp only [Bool.false_eq_true, if_false]
      cases hg : sp.goal node with
      | ok b =>
        cases b with
        | true => rfl
        | false =>
          simp only [Res.bind_ok, Bool.false_eq_true, if_false]
          by_cases hd : (anc ++ [node]).length > D
          · simp only [if_pos hd]
            exact Bfs.nextOut_snd v fuel _ _ _
          · simp only [if_neg hd]
            cases he : sp.expand node with
            | ok cs => simp only [Res.bind_ok]; exact Bfs.nextOut_snd v fuel _ _ _
            | exc e => rfl
            | ub => rfl
            | fuel => rfl
      | exc e => rfl
      | ub => rfl
      | fuel => rfl

/-- Without `verbose` the search prints nothing. -/
theorem Bfs.nextOut_quiet : ∀ (fuel depth : Nat) (it : Bfs.It N), (Bfs.nextOut sp print D false fuel depth it).1 = []
  | 0, _, _ => rfl
  | fuel + 1, depth, it => by
    unfold Bfs.nextOut
    cases hq : it.queue with
    | nil => rfl
    | cons e queue =>
      obtain ⟨node, anc⟩ := e
      simp only [Bool.false_and, Bool.false_eq_true, if_false, List.nil_append]
      cases hg : sp.goal node with
      | ok b =>
        cases b with
        | true => rfl
        | false =>
          dsimp only
          by_cases hd : (anc ++ [node]).length > D
          · simp only [if_pos hd]
            exact Bfs.nextOut_quiet fuel _ _
          · simp only [if_neg hd]
            cases he : sp.expand node with
            | ok cs => simp only; exact Bfs.nextOut_quiet fuel _ _
            | exc e => rfl
            | ub => rfl
            | fuel => rfl
      | exc e => rfl
      | ub => rfl
      | fuel => rfl

theorem planLoop_quiet {fuel : Nat} : ∀ (steps i count : Nat) (it : Bfs.It N) (l : List (List N)),
    Bfs.collect sp D (fun _ _ => false) fuel steps i it = .ok l →
    planLoop sp print D false fuel steps count it = (l.flatMap (planLines print) ++ [.found (count + l.length)], .ok ())
  | 0, _, _, _, _, h => by cases h
  | steps + 1, i, count, it, l, h => by
    unfold Bfs.collect at h
    unfold planLoop
    split at h
    · rename_i hf
      cases h
      rw [if_pos hf]
      rfl
    · rename_i hf
      rw [if_neg hf]
      split at h
      · cases h
      · rename_i path hc
        simp only [Res.bind_eq_ok, Res.pure_eq, Res.ok.injEq] at h
        obtain ⟨it', h1, rest, h2, rfl⟩ := h
        have e1 := Bfs.nextOut_snd (sp := sp) (print := print) (D := D) false fuel 0 0 it
        have e2 := Bfs.nextOut_quiet (sp := sp) (print := print) (D := D) fuel 0 it
        rw [h1] at e1
        simp only [hc]
        generalize Bfs.nextOut sp print D false fuel 0 it = r at e1 e2 ⊢
        obtain ⟨out, r⟩ := r
        simp only at e1 e2
        subst e1 e2
        simp only
        rw [planLoop_quiet steps (i + 1) (count + 1) it' rest h2]
        simp only [List.append_nil, List.flatMap_cons, List.append_assoc, List.length_cons]
        rw [show count + 1 + rest.length = count + (rest.length + 1) by omega]

theorem planAll_quiet {fuel : Nat} {root : N} {l : List (List N)}
    (h : Bfs.run sp D (fun _ _ => false) fuel root = .ok l) :
    planAll sp print D false fuel root = (l.flatMap (planLines print) ++ [.found l.length], .ok ()) := by
  unfold Bfs.run Bfs.begin at h
  rw [Res.bind_eq_ok] at h
  obtain ⟨it, h1, h2⟩ := h
  have e1 := Bfs.nextOut_snd (sp := sp) (print := print) (D := D) false fuel 0 0 (Bfs.start root)
  have e2 := Bfs.nextOut_quiet (sp := sp) (print := print) (D := D) fuel 0 (Bfs.start root)
  rw [h1] at e1
  unfold planAll
  generalize Bfs.nextOut sp print D false fuel 0 (Bfs.start root) = r at e1 e2 ⊢
  obtain ⟨out, r⟩ := r
  simp only at e1 e2
  subst e1 e2
  simp only [planLoop_quiet fuel 1 0 it l h2, List.nil_append, Nat.zero_add]

theorem planLoop_verbose {fuel : Nat} : ∀ (steps count : Nat) (it : Bfs.It N),
    (planLoop sp print D true fuel steps count it).2 = (planLoop sp print D false fuel steps count it).2 ∧
    (planLoop sp print D false fuel steps count it).1.Sublist (planLoop sp print D true fuel steps count it).1
  | 0, _, _ => ⟨rfl, .slnil⟩
  | steps + 1, count, it => by
    unfold planLoop
    split
    · exact ⟨rfl, List.Sublist.refl _⟩
    · split
      · exact ⟨rfl, List.Sublist.refl _⟩
      · rename_i path hc
        have e1 := Bfs.nextOut_snd (sp := sp) (print := print) (D := D) false fuel 0 0 it
        have e2 := Bfs.nextOut_quiet (sp := sp) (print := print) (D := D) fuel 0 it
        have e3 := Bfs.nextOut_snd (sp := sp) (print := print) (D := D) true fuel 0 0 it
        generalize Bfs.nextOut sp print D false fuel 0 it = r at e1 e2 ⊢
        generalize Bfs.nextOut sp print D true fuel 0 it = r' at e3 ⊢
        obtain ⟨out, r⟩ := r
        obtain ⟨out', r'⟩ := r'
        simp only at e1 e2 e3
        rw [← e3] at e1
        subst e1 e2
        cases r with
        | ok it' =>
          obtain ⟨h1, h2⟩ := planLoop_verbose (fuel := fuel) steps (count + 1) it'
          refine ⟨h1, ?_⟩
          simp only [List.append_nil, List.append_assoc]
          exact (h2.trans (List.sublist_append_right _ _)).append_left _
        | exc e => exact ⟨rfl, by simp⟩
        | ub => exact ⟨rfl, by simp⟩
        | fuel => exact ⟨rfl, by simp⟩

theorem planAll_verbose {fuel : Nat} {root : N} :
    (planAll sp print D true fuel root).2 = (planAll sp print D false fuel root).2 ∧
    (planAll sp print D false fuel root).1.Sublist (planAll sp print D true fuel root).1 := by
  unfold planAll
  have e1 := Bfs.nextOut_snd (sp := sp) (print := print) (D := D) false fuel 0 0 (Bfs.start root)
  have e2 := Bfs.nextOut_quiet (sp := sp) (print := print) (D := D) fuel 0 (Bfs.start root)
  have e3 := Bfs.nextOut_snd (sp := sp) (print := print) (D := D) true fuel 0 0 (Bfs.start root)
  generalize Bfs.nextOut sp print D false fuel 0 (Bfs.start root) = r at e1 e2 ⊢
  generalize Bfs.nextOut sp print D true fuel 0 (Bfs.start root) = r' at e3 ⊢
  obtain ⟨out, r⟩ := r
  obtain ⟨out', r'⟩ := r'
  simp only at e1 e2 e3
  rw [← e3] at e1
  subst e1 e2
  cases r with
  | ok it' =>
    obtain ⟨h1, h2⟩ := planLoop_verbose (sp := sp) (print := print) (D := D) (fuel := fuel) fuel 0 it'
    refine ⟨h1, ?_⟩
    simp only [List.nil_append]
    exact h2.trans (List.sublist_append_right _ _)
  | exc e => exact ⟨rfl, by simp⟩
  | ub => exact ⟨rfl, by simp⟩
  | fuel => exact ⟨rfl, by simp⟩

/-- A verbose search prints its visits. -/
theorem Bfs.nextOut_visits : ∀ (fuel depth : Nat) (it it' : Bfs.It N) (out : List OutLine),
    Bfs.nextOut sp print D true fuel depth it = (out, .ok it') →
    ∃ vs, Explores sp D it.queue vs it'.queue it'.cur ∧ out = visitLines print depth vs
  | 0, _, _, _, _, h => by simp [Bfs.nextOut] at h
  | fuel + 1, depth, it, it', out, h => by
    unfold Bfs.nextOut at h
    cases hq : it.queue with
    | nil =>
      rw [hq] at h
      simp only [Prod.mk.injEq, Res.ok.injEq] at h
      obtain ⟨rfl, rfl⟩ := h
      exact ⟨[], .done, rfl⟩
    | cons e queue =>
      obtain ⟨node, anc⟩ := e
      rw [hq] at h
      simp only [Bool.true_and, decide_eq_true_eq, if_true] at h
      have hmax : (if (anc ++ [node]).length > depth then (anc ++ [node]).length else depth) = max depth (anc ++ [node]).length := by
        split <;> omega
      rw [hmax] at h
      cases hg : sp.goal node with
      | ok b =>
        rw [hg] at h
        cases b with
        | true =>
          simp only [Prod.mk.injEq, Res.ok.injEq] at h
          obtain ⟨rfl, rfl⟩ := h
          exact ⟨_, .goal hg, by simp [visitLines]⟩
        | false =>
          simp only at h
          by_cases hd : (anc ++ [node]).length > D
          · simp only [if_pos hd, Prod.mk.injEq] at h
            obtain ⟨rfl, h⟩ := h
            generalize hr : Bfs.nextOut sp print D true fuel (max depth (anc ++ [node]).length) ⟨queue, some (anc ++ [node])⟩ = r at h ⊢
            obtain ⟨o, r⟩ := r
            simp only at h
            subst h
            obtain ⟨vs, h1, h2⟩ := Bfs.nextOut_visits fuel _ _ _ _ hr
            refine ⟨_, .deep hg (by simp at hd; omega) h1, ?_⟩
            rw [h2]
            simp only [visitLines, List.append_nil]
          · simp only [if_neg hd] at h
            cases he : sp.expand node with
            | ok cs =>
              rw [he] at h
              simp only [Prod.mk.injEq] at h
              obtain ⟨rfl, h⟩ := h
              generalize hr : Bfs.nextOut sp print D true fuel (max depth (anc ++ [node]).length)
                ⟨queue ++ cs.map (fun c => (c, anc ++ [node])), some (anc ++ [node])⟩ = r at h ⊢
              obtain ⟨o, r⟩ := r
              simp only at h
              subst h
              obtain ⟨vs, h1, h2⟩ := Bfs.nextOut_visits fuel _ _ _ _ hr
              refine ⟨_, .inner hg (by simp at hd; omega) he h1, ?_⟩
              rw [h2]
              simp only [visitLines, List.append_assoc]
            | exc e => rw [he] at h; simp at h
            | ub => rw [he] at h; simp at h
            | fuel => rw [he] at h; simp at h
      | exc e => rw [hg] at h; simp at h
      | ub => rw [hg] at h; simp at h
      | fuel => rw [hg] at h; simp at h

theorem planLoop_visits {fuel : Nat} : ∀ (steps count : Nat) (it : Bfs.It N) (out : List OutLine),
    planLoop sp print D true fuel steps count it = (out, .ok ()) → ∃ rounds, Rounds sp D it.queue it.cur rounds ∧
      out = rounds.flatMap (fun r => planLines print r.1 ++ visitLines print 0 r.2) ++ [.found (count + rounds.length)]
  | 0, _, _, _, h => by simp [planLoop] at h
  | steps + 1, count, it, out, h => by
    unfold planLoop at h
    split at h
    · rename_i hf
      simp only [Prod.mk.injEq, and_true] at h
      obtain ⟨q, c⟩ := it
      simp only [Bfs.It.finished, Bool.and_eq_true, List.isEmpty_iff, Option.isNone_iff_eq_none] at hf
      obtain ⟨rfl, rfl⟩ := hf
      exact ⟨[], .stop, h.symm⟩
    · split at h
      · simp at h
      · rename_i path hc
        split at h
        · rename_i out' it' hn
          simp only [Prod.mk.injEq] at h
          obtain ⟨rfl, h⟩ := h
          obtain ⟨vs, h1, rfl⟩ := Bfs.nextOut_visits _ _ _ _ _ hn
          generalize hr : planLoop sp print D true fuel steps (count + 1) it' = r at h ⊢
          obtain ⟨o, r⟩ := r
          simp only at h
          subst h
          obtain ⟨rounds, h2, h3⟩ := planLoop_visits steps (count + 1) it' _ hr
          refine ⟨(path, vs) :: rounds, by rw [hc]; exact .plan h1 h2, ?_⟩
          rw [h3]
          simp only [List.flatMap_cons, List.append_assoc, List.length_cons]
          rw [show count + 1 + rounds.length = count + (rounds.length + 1) by omega]
        · simp at h
        · simp at h
        · simp at h

end
end Symbolic
