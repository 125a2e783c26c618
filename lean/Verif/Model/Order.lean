import Verif.Model.Prelude

/-!
# Comparison functions used by the containers
-/

namespace Symbolic

/-- `std::lexicographical_compare` as used by `operator<` of `std::vector` and `std::string`. -/
def lexLt (lt : α → α → Bool) : List α → List α → Bool
  | [], [] => false
  | [], _ :: _ => true
  | _ :: _, [] => false
  | a :: as, b :: bs => lt a b || (!lt b a && lexLt lt as bs)

/-- `operator<` of a `std::tie` of two components (proposition.h:40-44, state.h operator< of PartialState). -/
def pairLt (lt₁ : α → α → Bool) (lt₂ : β → β → Bool) (x y : α × β) : Bool :=
  lt₁ x.1 y.1 || (!lt₁ y.1 x.1 && lt₂ x.2 y.2)

/-- `operator<` of characters (as unsigned code units). -/
def charLt (a b : Char) : Bool := a.toNat < b.toNat

/-- `operator<` of `std::string`. -/
def nameLt : Name → Name → Bool := lexLt charLt

end Symbolic
