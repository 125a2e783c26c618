import Verif.Model.Load
import Verif.Model.Print

/-!
# The command line program

Transcription of apps/pddl.cc, and of what `BreadthFirstSearch` prints with `verbose`
(breadth_first_search.h:83-141; there is no timeout here). The clock readings that are printed are left out. If the loop
over the children of a node throws, the lines printed for the children before that are left out. What
`Pddl::IsValid(true)` prints is a parameter.
-/

namespace Symbolic

/-! ## Arguments -/

/-- `isspace` in the C locale. -/
def isCSpace (c : Char) : Bool := c = ' ' || c = '\t' || c = '\n' || c = '\x0b' || c = '\x0c' || c = '\r'

/-- The value of a decimal digit. -/
def digitOf (c : Char) : Option Nat := if '0' ≤ c ∧ c ≤ '9' then some (c.toNat - '0'.toNat) else none

/-- The digits at the front of a string, from the value `acc` on. -/
def digitsFrom (acc : Nat) : List Char → Nat
  | [] => acc
  | c :: cs => match digitOf c with
    | some d => digitsFrom (10 * acc + d) cs
    | none => acc

/-- The number at the front of a string without spaces and sign; `none` if there is no digit. -/
def leadingNat : List Char → Option Nat
  | [] => none
  | c :: cs => match digitOf c with
    | some d => some (digitsFrom d cs)
    | none => none

/-- `strtol` in base 10: what is after the number is ignored. -/
def strtol (s : List Char) : Option Int :=
  match s.dropWhile isCSpace with
  | '-' :: cs => Option.map (fun n : Nat => -(n : Int)) (leadingNat cs)
  | '+' :: cs => Option.map (fun n : Nat => (n : Int)) (leadingNat cs)
  | cs => Option.map (fun n : Nat => (n : Int)) (leadingNat cs)

/-- `std::stoi`. -/
def stoi (s : List Char) : Res Int :=
  match strtol s with
  | none => .exc .invalidArgument
  | some z => if -2 ^ 31 ≤ z ∧ z < 2 ^ 31 then .ok z else .exc .outOfRange

/-- apps/pddl.cc:26-31. -/
structure Args where
  domain : Name
  problem : Name
  depth : Nat
  verbose : Bool
  deriving DecidableEq

/-- The loop apps/pddl.cc:46-59. An `int` becomes a `size_t` modulo 2^64. -/
def argLoop (args : Args) : List Name → Res Args
  | [] => .ok args
  | arg :: rest =>
    if arg = n!"--depth" then
      match rest with
      | value :: rest' => do
        let z ← stoi value
        argLoop { args with depth := (z % 2 ^ 64).toNat } rest'
      | [] => .exc .runtimeError
    else if arg = n!"--verbose" then argLoop { args with verbose := true } rest
    else .exc .runtimeError

/-- apps/pddl.cc:34-67: `ParseArgs` for the arguments after the name of the program. -/
def parseArgs : List Name → Res Args
  | domain :: problem :: rest => argLoop ⟨domain, problem, 5, false⟩ rest
  | _ => .exc .runtimeError

/-! ## Output -/

/-- The lines of the output. -/
inductive OutLine where
  | text (l : Name)
  /-- apps/pddl.cc:88-91: the time since the start -/
  | time
  /-- apps/pddl.cc:99-103: the number of plans, and the time -/
  | found (plans : Nat)
  deriving DecidableEq

/-- A number as `operator<<` prints it. -/
def natText (n : Nat) : Name := Nat.toDigits 10 n

/-- apps/pddl.cc:60-65: what `ParseArgs` prints. Only `std::runtime_error` is caught. -/
def usage (r : Res Args) : List OutLine :=
  match r with
  | .exc .runtimeError =>
    [.text n!"Usage:", .text n!"\t./pddl domain.pddl problem.pddl [--depth INT (default 5)] [--verbose]"]
  | _ => []

variable {N : Type}

/-- breadth_first_search.h:83-141 without a timeout: `operator++` with what it prints. `depth` is the local variable. -/
def Bfs.nextOut (sp : Space N) (print : N → Name) (maxDepth : Nat) (verbose : Bool) :
    Nat → Nat → Bfs.It N → List OutLine × Res (Bfs.It N)
  | 0, _, _ => ([], .fuel)
  | fuel + 1, depth, it =>
    match it.queue with
    | [] => ([], .ok ⟨[], none⟩)
    | (node, ancestors) :: queue =>
      let path := ancestors ++ [node]
      let deeper := verbose && decide (path.length > depth)
      let depth' := if deeper then path.length else depth
      let head := if deeper then [OutLine.text (n!"BFS depth: " ++ natText (path.length - 1))] else []
      match sp.goal node with
      | .ok true =>
        (head ++ (if verbose then [.text (n!"Goal state reached: " ++ print node)] else []), .ok ⟨queue, some path⟩)
      | .ok false =>
        if path.length > maxDepth then
          let r := nextOut sp print maxDepth verbose fuel depth' ⟨queue, some path⟩
          (head ++ r.1, r.2)
        else
          let shown := if verbose then path.map (fun n => OutLine.text (print n)) ++ [.text n!"===================="] else []
          match sp.expand node with
          | .ok children =>
            let each := if verbose then children.flatMap (fun n => [OutLine.text (print n), .text []]) else []
            let r := nextOut sp print maxDepth verbose fuel depth'
              ⟨queue ++ children.map (fun c => (c, path)), some path⟩
            (head ++ shown ++ each ++ r.1, r.2)
          | .exc e => (head ++ shown, .exc e)
          | .ub => (head ++ shown, .ub)
          | .fuel => (head ++ shown, .fuel)
      | .exc e => (head, .exc e)
      | .ub => (head, .ub)
      | .fuel => (head, .fuel)

/-- The lines for one plan, apps/pddl.cc:88-95. -/
def planLines (print : N → Name) (plan : List N) : List OutLine :=
  .time :: plan.map (fun n => .text (print n)) ++ [.text []]

/-- The loop apps/pddl.cc:87-97 from `it`, with `count` plans so far, and the last line 99-103. -/
def planLoop (sp : Space N) (print : N → Name) (maxDepth : Nat) (verbose : Bool) (fuel : Nat) :
    Nat → Nat → Bfs.It N → List OutLine × Res Unit
  | 0, _, _ => ([], .fuel)
  | steps + 1, count, it =>
    if it.finished then ([.found count], .ok ())
    else match it.cur with
      | none => ([], .ub)
      | some path =>
        match Bfs.nextOut sp print maxDepth verbose fuel 0 it with
        | (out, .ok it') =>
          let r := planLoop sp print maxDepth verbose fuel steps (count + 1) it'
          (planLines print path ++ out ++ r.1, r.2)
        | (out, .exc e) => (planLines print path ++ out, .exc e)
        | (out, .ub) => (planLines print path ++ out, .ub)
        | (out, .fuel) => (planLines print path ++ out, .fuel)

/-- apps/pddl.cc:85-103: the search and its results. -/
def planAll (sp : Space N) (print : N → Name) (maxDepth : Nat) (verbose : Bool) (fuel : Nat) (root : N) :
    List OutLine × Res Unit :=
  match Bfs.nextOut sp print maxDepth verbose fuel 0 (Bfs.start root) with
  | (out, .ok it) =>
    let r := planLoop sp print maxDepth verbose fuel fuel 0 it
    (out ++ r.1, r.2)
  | (out, .exc e) => (out, .exc e)
  | (out, .ub) => (out, .ub)
  | (out, .fuel) => (out, .fuel)

/-- apps/pddl.cc:73-76. -/
def header (args : Args) : List OutLine :=
  [.text (n!"Domain: " ++ args.domain), .text (n!"Problem: " ++ args.problem), .text (n!"Depth: " ++ natText args.depth),
    .text []]

section
variable [StrHash]

/-- apps/pddl.cc:71-103: `main`: the lines printed and how it ends. `load` is the constructor of `Pddl` (`Pddl.load` on the
contents of the files), `report` what `IsValid` prints; its result is not used. -/
def appMain (load : Name → Name → Res Pddl) (report : Pddl → List OutLine) (fuel steps : Nat) (argv : List Name) :
    List OutLine × Res Unit :=
  match parseArgs argv with
  | .ok args =>
    match load args.domain args.problem with
    | .ok P =>
      match P.plannerRoot fuel P.initial with
      | .ok root =>
        let r := planAll (P.space fuel) PNode.print args.depth args.verbose steps root
        (header args ++ report P ++ [.text n!"Planning:"] ++ r.1, r.2)
      | .exc e => (header args ++ report P, .exc e)
      | .ub => (header args ++ report P, .ub)
      | .fuel => (header args ++ report P, .fuel)
    | .exc e => (header args, .exc e)
    | .ub => (header args, .ub)
    | .fuel => (header args, .fuel)
  | .exc e => (usage (.exc e), .exc e)
  | .ub => ([], .ub)
  | .fuel => ([], .fuel)

end
end Symbolic
