import Verif.Model.Search

/-!
# Specification: plans of a search

A path starts at the root and goes from each node to one of its children. A plan is a path of at most `maxDepth` steps
whose last node satisfies the goal and no earlier one does.
-/

namespace Symbolic

variable {N : Type}

/-- `p` is a path from `root`. -/
inductive IsPath (child : N → N → Prop) : N → List N → Prop
  | single (root : N) : IsPath child root [root]
  | cons {root c : N} {p : List N} : child root c → IsPath child c p → IsPath child root (root :: p)

/-- `p` is a plan from `root` with at most `maxDepth` actions. -/
structure PlanPath (child : N → N → Prop) (goal : N → Prop) (maxDepth : Nat) (root : N) (p : List N) : Prop where
  path : IsPath child root p
  reached : ∃ n, p.getLast? = some n ∧ goal n
  first : ∀ n ∈ p.dropLast, ¬ goal n
  length : p.length ≤ maxDepth + 1

/-- The children `expand` returns. -/
def Space.Child (sp : Space N) (n c : N) : Prop := ∃ l, sp.expand n = .ok l ∧ c ∈ l

/-- The goal test returns true. -/
def Space.Goal (sp : Space N) (n : N) : Prop := sp.goal n = .ok true

/-- From `root` on, the goal test and the expansion of nodes return. -/
structure Space.Total (sp : Space N) (root : N) (g : N → Bool) (ch : N → List N) : Prop where
  goal : ∀ n p, IsPath sp.Child root p → p.getLast? = some n → sp.goal n = .ok (g n)
  expand : ∀ n p, IsPath sp.Child root p → p.getLast? = some n → sp.expand n = .ok (ch n)

/-- What `std::priority_queue` promises about its top for the comparison `worse`: it is an element of the queue, and no
element has a higher priority. -/
structure PickOk (worse : N × List N → N × List N → Bool) (pick : Nat → List (N × List N) → Nat) : Prop where
  bound : ∀ t q, q ≠ [] → pick t q < q.length
  top : ∀ t q e, q[pick t q]? = some e → ∀ e' ∈ q, worse e e' = false

/-- The comparison orders by priority, and a child never has a higher priority than its parent. -/
structure MonotoneOrder (worse : N × List N → N × List N → Bool) : Prop where
  trans : ∀ a b c, worse a b = false → worse b c = false → worse a c = false
  child : ∀ n c anc, worse (n, anc) (c, anc ++ [n]) = false

/-- The comparison orders by priority, and no plan has a higher priority than what leads to it. -/
structure AdmissibleOrder (plan : List N → Prop) (worse : N × List N → N × List N → Bool) : Prop where
  trans : ∀ a b c, worse a b = false → worse b c = false → worse a c = false
  ahead : ∀ n a m b, plan (b ++ [m]) → a ++ [n] <+: b → worse (n, a) (m, b) = false

/-- Plan `p` has a lower priority than plan `q`. -/
def WorsePlan (worse : N × List N → N × List N → Bool) (p q : List N) : Prop :=
  ∃ n a m b, p = a ++ [n] ∧ q = b ++ [m] ∧ worse (n, a) (m, b) = true

/-- The iterators a program can obtain from `begin()` and `++`, whatever the clock does. -/
inductive Bfs.Reached (sp : Space N) (maxDepth : Nat) (root : N) : Bfs.It N → Prop
  | begin {late fuel it} : Bfs.begin sp maxDepth late fuel root = .ok it → Bfs.Reached sp maxDepth root it
  | next {late fuel it it'} : Bfs.Reached sp maxDepth root it → Bfs.next sp maxDepth late fuel 0 it = .ok it' →
      Bfs.Reached sp maxDepth root it'

inductive Dfs.Reached (sp : Space N) (maxDepth : Nat) (root : N) : Dfs.It N → Prop
  | begin {fuel it} : Dfs.begin sp maxDepth fuel root = .ok it → Dfs.Reached sp maxDepth root it
  | next {fuel it it'} : Dfs.Reached sp maxDepth root it → Dfs.next sp maxDepth fuel it = .ok it' →
      Dfs.Reached sp maxDepth root it'

inductive Astar.Reached (sp : Space N) (maxDepth : Nat) (pick : Nat → List (N × List N) → Nat) (root : N) :
    Astar.It N → Prop
  | begin {fuel it} : Astar.begin sp maxDepth pick fuel root = .ok it → Astar.Reached sp maxDepth pick root it
  | next {fuel it it'} : Astar.Reached sp maxDepth pick root it → Astar.next sp maxDepth pick fuel it = .ok it' →
      Astar.Reached sp maxDepth pick root it'

end Symbolic
