import Verif.Spec.Search

/-!
# Specification: the order in which breadth-first search finds plans
-/

namespace Symbolic

variable {N : Type}

/-- The plans from a node with exactly `k` steps: those through its first child first. -/
def Space.plansAt (sp : Space N) : Nat → N → List (List N)
  | 0, n => match sp.goal n with
    | .ok true => [[n]]
    | _ => []
  | k + 1, n => match sp.goal n, sp.expand n with
    | .ok false, .ok children => children.flatMap fun c => (sp.plansAt k c).map (n :: ·)
    | _, _ => []

end Symbolic
