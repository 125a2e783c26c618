import Verif.Lemmas.App
import Verif.Props.Complete
import Verif.Examples.Demo

/-!
# C84: the command line program
-/

namespace Symbolic

/-! ## Arguments -/

/-- **C84.** The program accepts exactly the command lines `domain problem (--verbose | --depth INT)*`; the files are the
first two arguments, the depth is 5 unless given, the last one given counts. -/
theorem C84_arguments_partial (argv : List Name) (args : Args) : parseArgs argv = .ok args ↔
    ∃ rest, argv = args.domain :: args.problem :: rest ∧ Options (5, false) rest (args.depth, args.verbose) := by
  match argv with
  | [] => exact ⟨fun h => by simp [parseArgs] at h, fun ⟨_, h, _⟩ => by simp at h⟩
  | [x] => exact ⟨fun h => by simp [parseArgs] at h, fun ⟨_, h, _⟩ => by simp at h⟩
  | d :: p :: rest =>
    rw [parseArgs, argLoop_ok]
    constructor
    · rintro ⟨h1, h2, h3⟩
      simp only at h1 h2 h3
      exact ⟨rest, by rw [h1, h2], h3⟩
    · rintro ⟨rest', h, h3⟩
      simp only [List.cons.injEq] at h
      obtain ⟨rfl, rfl, rfl⟩ := h
      exact ⟨rfl, rfl, h3⟩

/-- **C84.** A command line is accepted in at most one way. -/
theorem C84_arguments_unique (rest : List Name) (o o' : Nat × Bool) (h : Options (5, false) rest o)
    (h' : Options (5, false) rest o') : o = o' := by
  have h1 := (C84_arguments_partial (n!"d" :: n!"p" :: rest) ⟨n!"d", n!"p", o.1, o.2⟩).2 ⟨rest, rfl, h⟩
  have h2 := (C84_arguments_partial (n!"d" :: n!"p" :: rest) ⟨n!"d", n!"p", o'.1, o'.2⟩).2 ⟨rest, rfl, h'⟩
  rw [h1] at h2
  simp only [Res.ok.injEq, Args.mk.injEq, true_and] at h2
  exact Prod.ext h2.1 h2.2

/-- **C84.** Every depth from 0 to 2^31 - 1 is taken as it is, however it is written. -/
theorem C84_depth (d p s : Name) (n : Nat) (hs : StartsWithNumber s n) (hn : n < 2 ^ 31) :
    parseArgs [d, p, n!"--depth", s] = .ok ⟨d, p, n, false⟩ :=
  (C84_arguments_partial _ _).2 ⟨_, rfl, .depth hs hn (.done _)⟩

/-- **C84, refuted for negative depths:** `--depth -n` is accepted and means 2^64 - n. -/
theorem C84_negative_refuted (d p s : Name) (n : Nat) (hs : StartsWithNumber s (-(n : Int))) (h0 : 0 < n)
    (hn : n ≤ 2 ^ 31) : parseArgs [d, p, n!"--depth", s] = .ok ⟨d, p, 2 ^ 64 - n, false⟩ :=
  (C84_arguments_partial _ _).2 ⟨_, rfl, .negative hs h0 hn (.done _)⟩

/-- **C84, refuted for text after the number:** it is ignored. -/
theorem C84_trailing_refuted (d p s rest : Name) (n : Nat) (hs : s ≠ []) (hd : ∀ c ∈ s, IsDigit c)
    (hn : decimalValue s = n) (hlt : n < 2 ^ 31) (hr : ∀ c, rest.head? = some c → ¬ IsDigit c) :
    parseArgs [d, p, n!"--depth", s ++ rest] = .ok ⟨d, p, n, false⟩ := by
  subst hn
  exact C84_depth d p _ _ ⟨[], [], s, rest, by simp, by simp, hs, hd, hr, Or.inr ⟨Or.inr rfl, rfl⟩⟩ hlt

/-- **C84, refuted for a depth that is not a number or too large:** the program ends with an exception of another type, and
does not print how to use it. -/
theorem C84_not_a_number_refuted [StrHash] (load : Name → Name → Res Pddl) (report : Pddl → List OutLine)
    (fuel steps : Nat) (d p s : Name) (rest : List Name) :
    ((∀ z, ¬ StartsWithNumber s z) →
      appMain load report fuel steps (d :: p :: n!"--depth" :: s :: rest) = ([], .exc .invalidArgument)) ∧
    (∀ z, StartsWithNumber s z → (z < -2 ^ 31 ∨ 2 ^ 31 ≤ z) →
      appMain load report fuel steps (d :: p :: n!"--depth" :: s :: rest) = ([], .exc .outOfRange)) := by
  constructor
  · intro h
    have : strtol s = none := by
      cases hs : strtol s with
      | none => rfl
      | some z => exact absurd (strtol_iff.1 hs) (h z)
    have h1 : stoi s = .exc .invalidArgument := by unfold stoi; rw [this]
    have h2 : parseArgs (d :: p :: n!"--depth" :: s :: rest) = .exc .invalidArgument := by
      unfold parseArgs argLoop
      simp only [if_true, h1]
      rfl
    unfold appMain
    rw [h2]
    rfl
  · intro z hz hr
    have h1 : stoi s = .exc .outOfRange := by
      unfold stoi
      rw [strtol_iff.2 hz]
      exact if_neg (by omega)
    have h2 : parseArgs (d :: p :: n!"--depth" :: s :: rest) = .exc .outOfRange := by
      unfold parseArgs argLoop
      simp only [if_true, h1]
      rfl
    unfold appMain
    rw [h2]
    rfl

/-- The arguments are fine up to one that is neither an option nor belongs to one. -/
def Misused (argv : List Name) : Prop :=
  argv.length < 2 ∨ ∃ d p rest o x tail, argv = d :: p :: (rest ++ x :: tail) ∧ Options (5, false) rest o ∧
    ((x = n!"--depth" ∧ tail = []) ∨ (x ≠ n!"--depth" ∧ x ≠ n!"--verbose"))

theorem argLoop_misused : ∀ (rest : List Name) (a : Args), argLoop a rest = .exc .runtimeError ↔
    ∃ pre x tail, rest = pre ++ x :: tail ∧ (∃ b, argLoop a pre = .ok b) ∧
      ((x = n!"--depth" ∧ tail = []) ∨ (x ≠ n!"--depth" ∧ x ≠ n!"--verbose"))
  | [], a => by
    refine ⟨fun h => by simp [argLoop] at h, fun h => ?_⟩
    obtain ⟨pre, x, tail, h, -⟩ := h
    simp at h
  | [arg], a => by
    constructor
    · intro h
      refine ⟨[], arg, [], rfl, ⟨a, rfl⟩, ?_⟩
      by_cases h1 : arg = n!"--depth"
      · exact Or.inl ⟨h1, rfl⟩
      · refine Or.inr ⟨h1, fun h2 => ?_⟩
        subst h2
        simp [argLoop] at h
    · rintro ⟨pre, x, tail, h, ⟨b, hb⟩, hx⟩
      obtain ⟨rfl, rfl, rfl⟩ : pre = [] ∧ arg = x ∧ tail = [] := by
        cases pre with
        | nil => simp at h; exact ⟨rfl, h.1, h.2⟩
        | cons y ys => simp at h
      unfold argLoop
      by_cases h1 : arg = n!"--depth"
      · rw [if_pos h1]
      · rw [if_neg h1]
        rcases hx with ⟨h2, -⟩ | ⟨-, h2⟩
        · exact absurd h2 h1
        · rw [if_neg h2]
  | arg :: value :: rest, a => by
    by_cases h1 : arg = n!"--depth"
    · subst h1
      have e : ∀ tail, argLoop a (n!"--depth" :: value :: tail) = (do
          let z ← stoi value
          argLoop { a with depth := (z % 2 ^ 64).toNat } tail) := by
        intro tail
        rw [argLoop.eq_def]
        simp
      have split : ∀ {pre : List Name} {x : Name} {tail : List Name},
          n!"--depth" :: value :: rest = pre ++ x :: tail → (∃ b, argLoop a pre = .ok b) →
          ((x = n!"--depth" ∧ tail = []) ∨ (x ≠ n!"--depth" ∧ x ≠ n!"--verbose")) →
          ∃ pre', pre = n!"--depth" :: value :: pre' ∧ rest = pre' ++ x :: tail := by
        intro pre x tail h hb hx
        match pre with
        | [] =>
          simp only [List.nil_append, List.cons.injEq] at h
          obtain ⟨rfl, rfl⟩ := h
          simp at hx
        | [y] =>
          simp only [List.cons_append, List.nil_append, List.cons.injEq] at h
          obtain ⟨rfl, -⟩ := h
          simp [argLoop] at hb
        | y :: w :: pre' =>
          simp only [List.cons_append, List.cons.injEq] at h
          obtain ⟨rfl, rfl, h⟩ := h
          exact ⟨pre', rfl, h⟩
      rw [e]
      cases hz : stoi value with
      | ok z =>
        rw [Res.bind_ok, argLoop_misused rest]
        constructor
        · rintro ⟨pre, x, tail, rfl, hb, hx⟩
          exact ⟨n!"--depth" :: value :: pre, x, tail, rfl, by rw [e, hz, Res.bind_ok]; exact hb, hx⟩
        · rintro ⟨pre, x, tail, h, hb, hx⟩
          obtain ⟨pre', rfl, h'⟩ := split h hb hx
          rw [e, hz, Res.bind_ok] at hb
          exact ⟨pre', x, tail, h', hb, hx⟩
      | exc x =>
        constructor
        · intro h
          have h : Res.exc x = .exc .runtimeError := h
          cases h
          unfold stoi at hz
          split at hz
          · cases hz
          · split at hz <;> cases hz
        · rintro ⟨pre, x, tail, h, hb, hx⟩
          obtain ⟨pre', rfl, h'⟩ := split h hb hx
          rw [e, hz] at hb
          obtain ⟨b, hb⟩ := hb
          cases hb
      | ub =>
        exfalso
        unfold stoi at hz
        split at hz
        · cases hz
        · split at hz <;> cases hz
      | fuel =>
        exfalso
        unfold stoi at hz
        split at hz
        · cases hz
        · split at hz <;> cases hz
    · by_cases h2 : arg = n!"--verbose"
      · subst h2
        have e : ∀ tail, argLoop a (n!"--verbose" :: tail) = argLoop { a with verbose := true } tail := by
          intro tail
          rw [argLoop.eq_def]
          simp
        rw [e, argLoop_misused (value :: rest)]
        constructor
        · rintro ⟨pre, x, tail, h, hb, hx⟩
          exact ⟨n!"--verbose" :: pre, x, tail, by rw [h]; rfl, by rw [e]; exact hb, hx⟩
        · rintro ⟨pre, x, tail, h, hb, hx⟩
          cases pre with
          | nil =>
            simp only [List.nil_append, List.cons.injEq] at h
            obtain ⟨rfl, rfl⟩ := h
            simp at hx
          | cons y pre =>
            simp only [List.cons_append, List.cons.injEq] at h
            obtain ⟨rfl, h⟩ := h
            exact ⟨pre, x, tail, h, by rw [e] at hb; exact hb, hx⟩
      · refine ⟨fun _ => ⟨[], arg, value :: rest, rfl, ⟨a, rfl⟩, Or.inr ⟨h1, h2⟩⟩, fun _ => ?_⟩
        rw [argLoop.eq_def]
        simp only [if_neg h1, if_neg h2]

/-- **C84.** The usage is printed, and nothing else, iff there are less than two arguments, or an argument is unknown, or
`--depth` is the last one. -/
theorem C84_usage [StrHash] (load : Name → Name → Res Pddl) (report : Pddl → List OutLine) (fuel steps : Nat)
    (argv : List Name) :
    (Misused argv → appMain load report fuel steps argv = ([.text n!"Usage:",
      .text n!"\t./pddl domain.pddl problem.pddl [--depth INT (default 5)] [--verbose]"], .exc .runtimeError)) ∧
    (.text n!"Usage:" ∈ (appMain load report fuel steps argv).1.head? → Misused argv) := by
  have key : parseArgs argv = .exc .runtimeError ↔ Misused argv := by
    match argv with
    | [] => exact ⟨fun _ => Or.inl (by simp), fun _ => rfl⟩
    | [x] => exact ⟨fun _ => Or.inl (by simp), fun _ => rfl⟩
    | d :: p :: rest =>
      rw [parseArgs, argLoop_misused]
      constructor
      · rintro ⟨pre, x, tail, rfl, ⟨b, hb⟩, hx⟩
        exact Or.inr ⟨d, p, pre, _, x, tail, rfl, (argLoop_ok.1 hb).2.2, hx⟩
      · rintro (h | ⟨d', p', pre, o, x, tail, h, ho, hx⟩)
        · simp only [List.length_cons] at h; omega
        · simp only [List.cons.injEq] at h
          obtain ⟨rfl, rfl, rfl⟩ := h
          exact ⟨pre, x, tail, rfl, ⟨⟨d, p, o.1, o.2⟩, argLoop_ok.2 ⟨rfl, rfl, ho⟩⟩, hx⟩
  constructor
  · intro h
    unfold appMain
    rw [key.2 h]
    rfl
  · intro h
    rw [← key]
    unfold appMain at h
    cases hp : parseArgs argv with
    | ok args =>
      exfalso
      rw [hp] at h
      simp only at h
      cases hl : load args.domain args.problem with
      | ok P =>
        rw [hl] at h
        simp only at h
        cases hr : P.plannerRoot fuel P.initial <;> rw [hr] at h <;> simp [header] at h
      | _ => rw [hl] at h; simp [header] at h
    | exc e =>
      rw [hp] at h
      cases e <;> first | rfl | simp [usage] at h
    | ub => rw [hp] at h; simp at h
    | fuel => rw [hp] at h; simp at h

/-! ## Plans -/

theorem Options.append_verbose {o o' : Nat × Bool} {rest : List Name} (h : Options o rest o') :
    Options o (rest ++ [n!"--verbose"]) (o'.1, true) := by
  induction h with
  | done o => exact .verbose (.done _)
  | verbose _ ih => exact .verbose ih
  | depth h1 h2 _ ih => exact .depth h1 h2 ih
  | negative h1 h2 h3 _ ih => exact .negative h1 h2 h3 ih

/-- **C84.** `--verbose` adds lines and changes nothing else: the lines without it are still there, in the same order, and
the program ends in the same way. -/
theorem C84_verbose [StrHash] (load : Name → Name → Res Pddl) (report : Pddl → List OutLine) (fuel steps : Nat)
    (argv : List Name) (args : Args) (h : parseArgs argv = .ok args) :
    (appMain load report fuel steps (argv ++ [n!"--verbose"])).2 = (appMain load report fuel steps argv).2 ∧
    (appMain load report fuel steps argv).1.Sublist (appMain load report fuel steps (argv ++ [n!"--verbose"])).1 := by
  have h' : parseArgs (argv ++ [n!"--verbose"]) = .ok { args with verbose := true } := by
    obtain ⟨rest, rfl, ho⟩ := (C84_arguments_partial _ _).1 h
    exact (C84_arguments_partial _ _).2 ⟨_, rfl, ho.append_verbose⟩
  obtain ⟨d, p, n, v⟩ := args
  simp only at h'
  cases v with
  | true =>
    have : ∀ a b, parseArgs a = parseArgs b → appMain load report fuel steps a = appMain load report fuel steps b := by
      intro a b e
      unfold appMain
      rw [e]
    rw [this _ argv (by rw [h', h])]
    exact ⟨rfl, List.Sublist.refl _⟩
  | false =>
    unfold appMain
    rw [h, h']
    simp only
    have hh : header ⟨d, p, n, true⟩ = header ⟨d, p, n, false⟩ := rfl
    rw [hh]
    cases load d p with
    | ok P =>
      simp only
      cases P.plannerRoot fuel P.initial with
      | ok root =>
        obtain ⟨h1, h2⟩ := planAll_verbose (sp := P.space fuel) (print := PNode.print) (D := n) (fuel := steps) (root := root)
        exact ⟨h1, h2.append_left _⟩
      | _ => exact ⟨rfl, List.Sublist.refl _⟩
    | _ => exact ⟨rfl, List.Sublist.refl _⟩

/-- The last digit and the others. -/
theorem natText_step {n : Nat} (h : 10 ≤ n) : natText n = natText (n / 10) ++ [(n % 10).digitChar] := by
  unfold natText
  rw [Nat.toDigits_of_base_le (by decide) h]

theorem digitChar_digit {d : Nat} (h : d < 10) : IsDigit d.digitChar ∧ d.digitChar.toNat - 48 = d ∧ (d.digitChar = '0' → d = 0) := by
  revert d
  unfold IsDigit
  decide

/-- **C84, numbers.** Depths are printed in decimal digits, without leading zeros. -/
theorem C84_numbers (n : Nat) : (∀ c ∈ natText n, IsDigit c) ∧ decimalValue (natText n) = n ∧
    (natText n = n!"0" ∨ ∃ c cs, natText n = c :: cs ∧ c ≠ '0') := by
  induction n using Nat.strongRecOn with
  | ind n ih =>
    by_cases h : n < 10
    · have e : natText n = [n.digitChar] := by
        unfold natText
        rw [Nat.toDigits_of_lt_base h]
      obtain ⟨h1, h2, h3⟩ := digitChar_digit h
      rw [e]
      refine ⟨by simpa using h1, by simpa [decimalValue] using h2, ?_⟩
      by_cases h0 : n.digitChar = '0'
      · exact .inl (by rw [h0])
      · exact .inr ⟨_, _, rfl, h0⟩
    · obtain ⟨h1, h2, h3⟩ := ih (n / 10) (by omega)
      obtain ⟨g1, g2, -⟩ := digitChar_digit (Nat.mod_lt n (show 0 < 10 by decide))
      rw [natText_step (by omega)]
      refine ⟨?_, ?_, .inr ?_⟩
      · intro c hc
        rcases List.mem_append.mp hc with hc | hc
        · exact h1 c hc
        · rw [List.mem_singleton.mp hc]
          exact g1
      · have : decimalValue (natText (n / 10) ++ [(n % 10).digitChar]) =
            10 * decimalValue (natText (n / 10)) + ((n % 10).digitChar.toNat - 48) := by
          simp only [decimalValue, List.foldl_append, List.foldl_cons, List.foldl_nil]
        rw [this, h2, g2]
        omega
      · rcases h3 with h3 | ⟨c, cs, h3, hc⟩
        · rw [h3] at h2
          have : n / 10 = 0 := by rw [← h2]; decide
          omega
        · exact ⟨c, cs ++ [(n % 10).digitChar], by rw [h3]; rfl, hc⟩

/-- A printed depth that is passed again is read as the same depth. -/
theorem C84_depth_again (n : Nat) : StartsWithNumber (natText n) n := by
  obtain ⟨h1, h2, h3⟩ := C84_numbers n
  refine ⟨[], [], natText n, [], by simp, by simp, ?_, h1, by simp, .inr ⟨.inr rfl, by rw [h2]⟩⟩
  rcases h3 with h3 | ⟨c, cs, h3, -⟩ <;> simp [h3]

example : natText 250 = n!"250" := by decide

/-- **C84.** What is printed with `--verbose` when the program ends normally: the visits of the search on the way to the first
plan, then for each plan its block of lines and the visits on the way to the next one. -/
theorem C84_verbose_lines [StrHash] (load : Name → Name → Res Pddl) (report : Pddl → List OutLine) (fuel steps : Nat)
    (argv : List Name) (args : Args) (h : parseArgs argv = .ok args) (hv : args.verbose = true) (out : List OutLine)
    (hout : appMain load report fuel steps argv = (out, .ok ())) :
    ∃ P root vs q plan rounds, load args.domain args.problem = .ok P ∧ P.plannerRoot fuel P.initial = .ok root ∧
      Explores (P.space fuel) args.depth [(root, [])] vs q plan ∧ Rounds (P.space fuel) args.depth q plan rounds ∧
      out = [.text (n!"Domain: " ++ args.domain), .text (n!"Problem: " ++ args.problem),
          .text (n!"Depth: " ++ natText args.depth), .text []] ++ report P ++ [.text n!"Planning:"] ++
          visitLines PNode.print 0 vs ++
          rounds.flatMap (fun r => [.time] ++ r.1.map (fun n => .text n.print) ++ [.text []] ++ visitLines PNode.print 0 r.2) ++
          [.found rounds.length] := by
  unfold appMain at hout
  rw [h] at hout
  simp only at hout
  split at hout
  · rename_i P hP
    split at hout
    · rename_i root hr
      simp only [Prod.mk.injEq, hv] at hout
      obtain ⟨rfl, hout⟩ := hout
      unfold planAll at hout ⊢
      generalize hn : Bfs.nextOut (P.space fuel) PNode.print args.depth true steps 0 (Bfs.start root) = x at hout ⊢
      obtain ⟨o, x⟩ := x
      cases x with
      | ok it =>
        simp only at hout ⊢
        obtain ⟨vs, h1, rfl⟩ := Bfs.nextOut_visits _ _ _ _ _ hn
        generalize hl : planLoop (P.space fuel) PNode.print args.depth true steps steps 0 it = y at hout ⊢
        obtain ⟨o', y⟩ := y
        simp only at hout
        subst hout
        obtain ⟨rounds, h2, h3⟩ := planLoop_visits _ _ _ _ hl
        refine ⟨P, root, vs, _, _, rounds, hP, hr, h1, h2, ?_⟩
        rw [h3]
        simp only [header, planLines, List.append_assoc, Nat.zero_add, List.cons_append, List.nil_append]
      | exc e => simp at hout
      | ub => simp at hout
      | fuel => simp at hout
    · simp at hout
    · simp at hout
    · simp at hout
  · simp at hout
  · simp at hout
  · simp at hout

/-- **C84.** If the files cannot be loaded, or no consistent initial state is found, the exception is not caught; what was
printed before is the arguments, and what `IsValid` prints if it was called. -/
theorem C84_exceptions [StrHash] (load : Name → Name → Res Pddl) (report : Pddl → List OutLine) (fuel steps : Nat)
    (argv : List Name) (args : Args) (h : parseArgs argv = .ok args) (e : Exc) :
    (load args.domain args.problem = .exc e → appMain load report fuel steps argv =
      ([.text (n!"Domain: " ++ args.domain), .text (n!"Problem: " ++ args.problem),
          .text (n!"Depth: " ++ natText args.depth), .text []], .exc e)) ∧
    ∀ P, load args.domain args.problem = .ok P → P.consistentState fuel P.initial = .exc e →
      appMain load report fuel steps argv =
        ([.text (n!"Domain: " ++ args.domain), .text (n!"Problem: " ++ args.problem),
          .text (n!"Depth: " ++ natText args.depth), .text []] ++ report P, .exc e) := by
  constructor
  · intro hl
    unfold appMain
    rw [h]
    simp only [hl]
    rfl
  · intro P hl hc
    have hr : P.plannerRoot fuel P.initial = .exc e := by
      unfold Pddl.plannerRoot
      rw [hc]; rfl
    unfold appMain
    rw [h]
    simp only [hl, hr]
    rfl

section
variable [StrHash] (t : Ptree) (k : Nat) (P : Pddl) (hP : Pddl.make t true k = .ok P)
  (hw : t.WellFormed) (hl : t.NoLoops) (hops : Callable t)
  (hclean : ∀ o ∈ t.constants ++ t.objects, CleanArg o.name)
include hP hw hl hops hclean

/-- **C84.** In a well-formed domain without loops whose actions all have parameters, the program ends normally. It prints
the arguments, what `IsValid` prints, and then blocks of lines, one for each plan, and their number. The steps of each block
are a plan that `IsValidPlan` accepts, with at most as many actions as the depth allows; the blocks are ordered by length, the
first one is a shortest plan; the number is 0 iff there is no plan of that length. -/
theorem C84_program_partial (hact : P.actions ≠ []) (hpar : ∀ op ∈ t.ops, op.isAxiom = false → op.params ≠ [])
    (argv : List Name) (args : Args) (hargs : parseArgs argv = .ok args) (hq : args.verbose = false)
    (load : Name → Name → Res Pddl) (hload : load args.domain args.problem = .ok P) (report : Pddl → List OutLine) :
    ∃ F, ∀ fuel ≥ F, ∃ F', ∀ steps ≥ F', ∃ plans : List (List PNode),
      appMain load report fuel steps argv =
        ([.text (n!"Domain: " ++ args.domain), .text (n!"Problem: " ++ args.problem),
          .text (n!"Depth: " ++ natText args.depth), .text []] ++ report P ++ [.text n!"Planning:"] ++
          plans.flatMap (fun plan => [.time] ++ plan.map (fun n => .text n.print) ++ [.text []]) ++
          [.found plans.length], .ok ()) ∧
      (∀ q ∈ plans, P.isValidPlan fuel (q.tail.map PNode.action) = .ok true ∧ q.tail.length ≤ args.depth ∧
        ∀ c ∈ q.tail.map PNode.action, CallsAction P t c) ∧
      plans.Pairwise (fun p q => p.length ≤ q.length) ∧
      (plans = [] ↔ ∀ plan, (∀ c ∈ plan, CallsAction P t c) → plan.length ≤ args.depth →
        P.isValidPlan fuel plan = .ok false) ∧
      ∀ q rest, plans = q :: rest → ∀ plan, (∀ c ∈ plan, CallsAction P t c) → P.isValidPlan fuel plan = .ok true →
        q.tail.length ≤ plan.length := by
  have hinit := C57_initial_valid t true k P hP rfl
  obtain ⟨F1, h1⟩ := C57_planner_decides_partial t true k P hP hw hl hops hclean hact hpar k hinit args.depth
  obtain ⟨F2, h2⟩ := space_returns t true k P hP hw hl hops hclean hact
  refine ⟨F1 + F2 + k + 1, fun fuel hf => ?_⟩
  obtain ⟨root, hroot, F', h3⟩ := h1 fuel (by omega)
  have hr : root = .root P.initial := by
    simp only [Pddl.plannerRoot, C31_valid_state_is_consistent P k _ hinit fuel (by omega), Res.bind_ok, Res.pure_eq,
      Res.ok.injEq] at hroot
    exact hroot.symm
  have hret := h2 fuel (by omega)
  choose g hg using fun n => (hret n).1
  choose ch hch using fun n => (hret n).2
  have ht : (P.space fuel).Total root g ch := ⟨fun n _ _ _ => hg n, fun n _ _ _ => hch n⟩
  obtain ⟨F'', h4⟩ := C45_bfs_complete (P.space fuel) args.depth root g ch ht
  refine ⟨F' + F'', fun steps hs => ?_⟩
  obtain ⟨l, e1, e2, e3⟩ := h3 steps (by omega)
  obtain ⟨l', e1', e4, e5, -⟩ := h4 steps (by omega)
  rw [e1] at e1'
  cases e1'
  refine ⟨l, ?_, ?_, e5, e2, fun q rest h => (e3 q rest h).2.2.2⟩
  · have hall := planAll_quiet (print := PNode.print) e1
    unfold appMain
    simp only [hargs, hload, hroot, hq, hall]
    simp only [header, List.append_assoc]
    rfl
  · intro q hq
    have hq := (e4 q).1 hq
    subst hr
    refine ⟨C44_planner_plans_valid t true k P hP hw.names hops hclean fuel args.depth _ rfl q hq, ?_,
      path_calls t true k P hP hw hops hclean hq.path⟩
    have := hq.length
    rw [List.length_tail]
    omega

end

/-! ## Examples -/

/-- A number may have spaces and a sign in front. -/
example : parseArgs [n!"d", n!"p", n!"--verbose", n!"--depth", n!"7", n!"--depth", n!" +12"] = .ok ⟨n!"d", n!"p", 12, true⟩ := by
  decide

example : parseArgs [n!"d", n!"p", n!"--depth", n!"-1"] = .ok ⟨n!"d", n!"p", 18446744073709551615, false⟩ :=
  C84_negative_refuted _ _ _ 1 ⟨[], n!"-", n!"1", [], rfl, by simp, by simp, by simp [IsDigit], by simp,
    Or.inl ⟨rfl, rfl⟩⟩ (by decide) (by decide)

example : parseArgs [n!"d", n!"p", n!"--depth", n!"3" ++ n!".9"] = .ok ⟨n!"d", n!"p", 3, false⟩ :=
  C84_trailing_refuted _ _ _ _ 3 (by decide) (by simp [IsDigit]) rfl (by decide) (by simp [IsDigit])

/-- `abc` is no number, 2147483648 is too large. -/
example : (∀ z, ¬ StartsWithNumber n!"abc" z) ∧ StartsWithNumber n!"2147483648" (2 ^ 31) := by
  constructor
  · intro z hz
    have := strtol_iff.2 hz
    simp [strtol, isCSpace, leadingNat, digitOf] at this
  · exact strtol_iff.1 (by decide)

/-- The usage is printed for an unknown option, and for a depth that is missing. -/
example : Misused [n!"d", n!"p", n!"--verbose", n!"-v"] ∧ Misused [n!"d", n!"p", n!"--depth"] ∧ Misused [n!"d"] :=
  ⟨Or.inr ⟨_, _, [n!"--verbose"], _, n!"-v", [], rfl, .verbose (.done _), Or.inr ⟨by decide, by decide⟩⟩,
    Or.inr ⟨_, _, [], _, n!"--depth", [], rfl, .done _, Or.inl ⟨rfl, rfl⟩⟩, Or.inl (by decide)⟩

section
open Demo
attribute [local instance] lenHash

/-- The hypotheses of `C84_verbose_lines`, and the first lines that are printed. -/
example : (appMain (fun _ _ => .ok P) (fun _ => []) 5 50 [n!"d", n!"p", n!"--depth", n!"1", n!"--verbose"]).2 = .ok () ∧
    ((appMain (fun _ _ => .ok P) (fun _ => []) 5 50 [n!"d", n!"p", n!"--depth", n!"1", n!"--verbose"]).1.drop 4).head? =
      some (.text n!"Planning:") ∧
    (appMain (fun _ _ => .ok P) (fun _ => []) 5 50 [n!"d", n!"p", n!"--depth", n!"1", n!"--verbose"]).1[5]? =
      some (.text n!"BFS depth: 0") := by
  refine ⟨?_, ?_, ?_⟩ <;> decide +kernel

/-- The demo domain meets the hypotheses of `C84_program_partial`. -/
example (report : Pddl → List OutLine) : ∃ F, ∀ fuel ≥ F, ∃ F', ∀ steps ≥ F', ∃ plans : List (List PNode),
    (appMain (fun _ _ => .ok P) report fuel steps [n!"d.pddl", n!"p.pddl", n!"--depth", n!"3"]).2 = .ok () ∧
    .found plans.length ∈ (appMain (fun _ _ => .ok P) report fuel steps [n!"d.pddl", n!"p.pddl", n!"--depth", n!"3"]).1 := by
  have hc : Callable tree := by
    intro op hop ha
    simp only [tree, List.mem_cons, List.not_mem_nil, or_false] at hop
    rcases hop with rfl | rfl | rfl
    · exact ⟨⟨[], _, rfl, rfl, by simp⟩, by simp [CleanHead, pick]⟩
    · exact ⟨⟨[pick], _, rfl, rfl, by simp [pick, place]⟩, by simp [CleanHead, place]⟩
    · simp [held] at ha
  have ho : ∀ o ∈ tree.constants ++ tree.objects, CleanArg o.name := by
    intro o ho
    simp only [tree, List.cons_append, List.nil_append, List.mem_cons, List.not_mem_nil, or_false] at ho
    rcases ho with rfl | rfl | rfl <;> exact ⟨by decide, by simp [IsSep, Demo.a, Demo.b, table]⟩
  obtain ⟨F, hF⟩ := C84_program_partial tree 5 P P_made demo_wellFormed demo_noLoops hc ho (by decide +kernel) (by decide)
    [n!"d.pddl", n!"p.pddl", n!"--depth", n!"3"] ⟨n!"d.pddl", n!"p.pddl", 3, false⟩ (by decide) rfl (fun _ _ => .ok P) rfl report
  refine ⟨F, fun fuel hf => ?_⟩
  obtain ⟨F', h⟩ := hF fuel hf
  refine ⟨F', fun steps hs => ?_⟩
  obtain ⟨plans, h1, -⟩ := h steps hs
  exact ⟨plans, by rw [h1], by rw [h1]; simp⟩

/-- What the program prints for the demo domain. -/
example : appMain (fun _ _ => .ok P) (fun _ => []) 9 100 [n!"d.pddl", n!"p.pddl", n!"--depth", n!"1"] =
    ([.text n!"Domain: d.pddl", .text n!"Problem: p.pddl", .text n!"Depth: 1", .text [], .text n!"Planning:", .found 0],
      .ok ()) := by decide +kernel

end

end Symbolic
