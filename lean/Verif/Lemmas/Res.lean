import Verif.Model.Prelude

namespace Symbolic.Res

@[simp] theorem pure_eq (a : α) : (pure a : Res α) = ok a := rfl
@[simp] theorem bind_ok (a : α) (f : α → Res β) : (ok a >>= f) = f a := rfl
@[simp] theorem bind_exc (e : Exc) (f : α → Res β) : ((exc e : Res α) >>= f) = exc e := rfl
@[simp] theorem bind_ub (f : α → Res β) : ((ub : Res α) >>= f) = ub := rfl
@[simp] theorem bind_fuel (f : α → Res β) : ((fuel : Res α) >>= f) = fuel := rfl
@[simp] theorem map_ok (a : α) (f : α → β) : (f <$> (ok a : Res α)) = ok (f a) := rfl

theorem bind_eq_ok {x : Res α} {f : α → Res β} {b : β} :
    (x >>= f) = ok b ↔ ∃ a, x = ok a ∧ f a = ok b := by
  cases x <;> simp

theorem bind_eq_fuel {x : Res α} {f : α → Res β} :
    (x >>= f) = fuel ↔ x = fuel ∨ ∃ a, x = ok a ∧ f a = fuel := by
  cases x <;> simp

@[simp] theorem bind_pure' (x : Res α) : (x >>= fun a => ok a) = x := by cases x <;> rfl

theorem bind_assoc' (x : Res α) (f : α → Res β) (g : β → Res γ) :
    ((x >>= f) >>= g) = x >>= fun a => f a >>= g := by cases x <;> rfl

theorem index_eq_ok {v : List α} {i : Nat} {a : α} : index v i = ok a ↔ v[i]? = some a := by
  unfold index; cases v[i]? <;> simp

theorem index_lt {v : List α} {i : Nat} (h : i < v.length) : index v i = ok v[i] := by
  simp [index, List.getElem?_eq_getElem h]

end Symbolic.Res
