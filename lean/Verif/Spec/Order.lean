/-!
# Specification: strict total orders
-/

namespace Symbolic

/-- `lt` is a strict total order: irreflexive, transitive, and total on distinct elements. -/
structure StrictTotal (lt : α → α → Bool) : Prop where
  irrefl : ∀ a, lt a a = false
  trans : ∀ a b c, lt a b = true → lt b c = true → lt a c = true
  total : ∀ a b, lt a b = true ∨ a = b ∨ lt b a = true

end Symbolic
