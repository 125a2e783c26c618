import Verif.Model.App

/-!
# Specification: command line arguments
-/

namespace Symbolic

/-- The value of a string of decimal digits. -/
def decimalValue (ds : List Char) : Nat := ds.foldl (fun v c => 10 * v + (c.toNat - 48)) 0

/-- A decimal digit. -/
def IsDigit (c : Char) : Prop := c ∈ n!"0123456789"

/-- The string starts with the number `z`: white space, a sign, digits. Something else may follow. -/
def StartsWithNumber (s : List Char) (z : Int) : Prop :=
  ∃ ws sign ds rest, s = ws ++ sign ++ ds ++ rest ∧ (∀ c ∈ ws, c ∈ n!" \t\n\x0b\x0c\r") ∧
    ds ≠ [] ∧ (∀ c ∈ ds, IsDigit c) ∧ (∀ c, rest.head? = some c → ¬ IsDigit c) ∧
    ((sign = n!"-" ∧ z = -(decimalValue ds : Int)) ∨ ((sign = n!"+" ∨ sign = []) ∧ z = decimalValue ds))

/-- The options after the two files: the depth and the flag before, and after. -/
inductive Options : Nat × Bool → List Name → Nat × Bool → Prop
  | done (o) : Options o [] o
  | verbose {d v rest o} : Options (d, true) rest o → Options (d, v) (n!"--verbose" :: rest) o
  /-- a depth is taken as it is -/
  | depth {d v s rest o} {n : Nat} : StartsWithNumber s n → n < 2 ^ 31 → Options (n, v) rest o →
    Options (d, v) (n!"--depth" :: s :: rest) o
  /-- a negative depth is taken modulo 2^64 -/
  | negative {d v s rest o} {n : Nat} : StartsWithNumber s (-(n : Int)) → 0 < n → n ≤ 2 ^ 31 →
    Options (2 ^ 64 - n, v) rest o → Options (d, v) (n!"--depth" :: s :: rest) o

/-! ## What a verbose search prints -/

/-- A visit of a breadth-first search: the path to the node, whether it is a goal, and its children if it was expanded. -/
structure Visit (N : Type) where
  path : List N
  goal : Bool
  kids : Option (List N)

/-- The search for the next plan from a queue of nodes with their ancestors: the visits, the queue afterwards and the plan. -/
inductive Explores {N : Type} (sp : Space N) (D : Nat) :
    List (N × List N) → List (Visit N) → List (N × List N) → Option (List N) → Prop
  | done : Explores sp D [] [] [] none
  | goal {n anc q} : sp.goal n = .ok true → Explores sp D ((n, anc) :: q) [⟨anc ++ [n], true, none⟩] q (some (anc ++ [n]))
  | deep {n anc q vs q' f} : sp.goal n = .ok false → D ≤ anc.length → Explores sp D q vs q' f →
    Explores sp D ((n, anc) :: q) (⟨anc ++ [n], false, none⟩ :: vs) q' f
  | inner {n anc q cs vs q' f} : sp.goal n = .ok false → anc.length < D → sp.expand n = .ok cs →
    Explores sp D (q ++ cs.map fun c => (c, anc ++ [n])) vs q' f →
    Explores sp D ((n, anc) :: q) (⟨anc ++ [n], false, some cs⟩ :: vs) q' f

/-- The plans, each with the visits on the way to the next one. -/
inductive Rounds {N : Type} (sp : Space N) (D : Nat) :
    List (N × List N) → Option (List N) → List (List N × List (Visit N)) → Prop
  | stop : Rounds sp D [] none []
  | plan {q p vs q' f rest} : Explores sp D q vs q' f → Rounds sp D q' f rest → Rounds sp D q (some p) ((p, vs) :: rest)

/-- The lines for visits: the depth if it is larger than before, then the goal, or the path and the children. -/
def visitLines {N : Type} (print : N → Name) : Nat → List (Visit N) → List OutLine
  | _, [] => []
  | deepest, v :: vs =>
    (if deepest < v.path.length then [.text (n!"BFS depth: " ++ natText (v.path.length - 1))] else []) ++
    (match v.goal, v.kids with
      | true, _ => v.path.getLast?.toList.map fun n => .text (n!"Goal state reached: " ++ print n)
      | false, none => []
      | false, some cs => v.path.map (fun n => .text (print n)) ++ [.text n!"===================="] ++
        cs.flatMap fun c => [.text (print c), .text []]) ++
    visitLines print (max deepest v.path.length) vs

end Symbolic
