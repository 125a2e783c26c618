/-!
# Specification: Cartesian product
-/

namespace Symbolic

/-- The Cartesian product of lists, in lexicographic order of positions (last component fastest). -/
def cartesian : List (List α) → List (List α)
  | [] => [[]]
  | o :: os => o.flatMap (fun a => (cartesian os).map (fun rest => a :: rest))

end Symbolic
