import Verif.Props.Values

/-!
`poly::divide` takes leading coefficients without expanding its arguments, and `cancel` discards the
remainder. A numerator that is not expanded can therefore be cancelled to zero.
-/

set_option autoImplicit false

namespace Tsym

open Expr

namespace ValueEx

open ExprEx SymEx

/-- a^2 + a*(a*b - a), which is a^2*b. -/
def unexpandedNum : Expr Hyb := sum [pow a (int 2), prod [a, sum [prod [int (-1), a], prod [a, b]]]]

/-- (a^2 + a*(a*b - a))/(a*b), which is a. -/
def unexpanded : Expr Hyb := prod [pow a (int (-1)), pow b (int (-1)), unexpandedNum]

/-- The creators leave this expression as it is. -/
theorem unexpanded_created :
    (∃ cs, lib.sumCreate [prod [a, b], prod [int (-1), a]] =
      .ok (sum [prod [int (-1), a], prod [a, b]], cs)) ∧
    (∃ cs, lib.prodCreate [a, sum [prod [int (-1), a], prod [a, b]]] =
      .ok (prod [a, sum [prod [int (-1), a], prod [a, b]]], cs)) ∧
    (∃ cs, lib.sumCreate [pow a (int 2), prod [a, sum [prod [int (-1), a], prod [a, b]]]] =
      .ok (unexpandedNum, cs)) ∧
    (∃ cs, lib.prodCreate [unexpandedNum, pow a (int (-1)), pow b (int (-1))] = .ok (unexpanded, cs)) :=
  ⟨M.val_some (by krfl), M.val_some (by krfl), M.val_some (by krfl), M.val_some (by krfl)⟩

theorem den_unexpanded {x : ℝ} (hx : x ≠ 0) : den (all x) unexpanded = some x := by
  have h1 : Spec.pow x (-1 : ℝ) = some x⁻¹ := Spec.pow_neg_one hx
  have h2 : Spec.pow x (2 : ℝ) = some (x ^ 2) := Spec.pow_two' x
  simp only [unexpanded, unexpandedNum, den_prod, denProd, denSum, den, den_a, den_b, den_int, all,
    Option.bind_some]
  push_cast
  rw [h1, h2]
  simp only [Option.bind_some, Option.some.injEq]
  field_simp
  ring

/-- C09 is false in a second way, without any root: the normal form of (a^2 + a*(a*b - a))/(a*b) is
zero, and so is the result of simplify. The expression is a, wherever a and b are not zero; they are all that is
cancelled. -/
theorem C09_false_zero :
    (∃ cs, lib.normal unexpanded = .ok (int 0, cs)) ∧
    (∃ cs, Api.simplify lib unexpanded = .ok (int 0, cs)) ∧
    ∀ x : ℝ, x ≠ 0 → den (all x) unexpanded = some x :=
  ⟨M.val_some (by krfl), M.val_some (by krfl), fun _ => den_unexpanded⟩

/-- C43 is false: the numerator of the same expression is zero, its denominator is one. -/
theorem C43_false :
    (∃ cs, Api.numerator lib unexpanded = .ok (int 0, cs)) ∧
    (∃ cs, Api.denominator lib unexpanded = .ok (int 1, cs)) ∧
    ∀ x : ℝ, x ≠ 0 → den (all x) unexpanded = some x :=
  ⟨M.val_some (by krfl), M.val_some (by krfl), fun _ => den_unexpanded⟩

end ValueEx

end Tsym
