import Verif.Props.Values

set_option autoImplicit false

/-!
# C16: the shape of results; C31: commutativity; another case of C02
-/

namespace Tsym

open Expr

namespace ShapeEx

open ExprEx SymEx ValueEx

/-- The symbol d. -/
def d : Expr Hyb := sym ⟨.named ⟨['d'], [], []⟩, false⟩

/-- (a*b)^c -/
def p1 : Expr Hyb := pow (prod [a, b]) c

/-- (a*b)^(1 - c) -/
def p2 : Expr Hyb := pow (prod [a, b]) (sum [int 1, prod [int (-1), c]])

/-- These are results of the library. -/
example : (∃ cs, Api.pow lib (prod [a, b]) c = .ok (p1, cs)) ∧
    (∃ cs, Api.sub lib (int 1) c = .ok (sum [int 1, prod [int (-1), c]], cs)) ∧
    (∃ cs, Api.pow lib (prod [a, b]) (sum [int 1, prod [int (-1), c]]) = .ok (p2, cs)) ∧
    (∃ cs, Api.mul lib p1 a = .ok (prod [a, p1], cs)) ∧ (∃ cs, Api.mul lib p1 d = .ok (prod [p1, d], cs)) :=
  ⟨M.val_some (by krfl), M.val_some (by krfl), M.val_some (by krfl), M.val_some (by krfl), M.val_some (by krfl)⟩

/-- C16 is false: the product of a*(a*b)^c and (a*b)^(1 - c) has a product among its operands. -/
theorem C16_false_nested : ∃ cs, Api.mul lib (prod [a, p1]) p2 = .ok (prod [a, prod [a, b]], cs) :=
  M.val_some (by krfl)

/-- C02 is false: (a*b)^c * d multiplied by (a*b)^(1 - c) gives 1. With 1 for a, b and c and 3 for d both
factors have a value, and the product is 3. -/
theorem C02_false_merge : (∃ cs, Api.mul lib (prod [p1, d]) p2 = .ok (int 1, cs)) ∧
    ∃ σ : Asg, den σ (prod [p1, d]) = some 3 ∧ den σ p2 = some 1 ∧ den σ (int 1 : Expr Hyb) = some 1 := by
  refine ⟨M.val_some (by krfl), fun s => if s = ⟨.named ⟨['d'], [], []⟩, false⟩ then 3 else 1, ?_, ?_, ?_⟩
  · simp [p1, d, a, b, c, denProd, den, Spec.pow]
  · simp [p2, a, b, c, denProd, denSum, den, Spec.pow]
  · simp

/-- 2^(2/5)*3^(4/5), the operands side by side -/
def u : Expr Hyb := prod [pow (int 2) (ratE (2 / 5)), pow (int 3) (ratE (4 / 5))]

/-- This is a result of the library: 2^(2/5)*3^c multiplied by 3^(4/5 - c). -/
theorem u_created :
    (∃ cs, Api.mul lib (pow (int 2) (ratE (2 / 5))) (pow (int 3) c) =
      .ok (prod [pow (int 2) (ratE (2 / 5)), pow (int 3) c], cs)) ∧
    (∃ cs, Api.mul lib (prod [pow (int 2) (ratE (2 / 5)), pow (int 3) c])
      (pow (int 3) (sum [ratE (4 / 5), prod [int (-1), c]])) = .ok (u, cs)) :=
  ⟨M.val_some (by krfl), M.val_some (by krfl)⟩

/-- C01 is false: 2^(2/5)*3^(4/5) added to itself gives 2*6^(2/5). -/
theorem C01_false (σ : Asg) :
    (∃ cs, Api.add lib u u = .ok (prod [int 2, pow (int 6) (ratE (2 / 5))], cs)) ∧
    ∃ x y : ℝ, den σ u = some x ∧ den σ (prod [int 2, pow (int 6) (ratE (2 / 5))] : Expr Hyb) = some y ∧ y ≠ x + x := by
  refine ⟨M.val_some (by krfl), (2 : ℝ) ^ (2 / 5 : ℝ) * (3 : ℝ) ^ (4 / 5 : ℝ), 2 * (6 : ℝ) ^ (2 / 5 : ℝ), ?_, ?_, ?_⟩
  · simp [u, denProd, den, Spec.pow]
  · simp [denProd, den, Spec.pow]
  · intro h
    exact C02_false.2 (by linarith)

/-- atan2(c, a) and atan2(c, b) -/
def ta : Expr Hyb := atan2 c a
/-- atan2(c, b) -/
def tb : Expr Hyb := atan2 c b

/-- C31 is false: sums and products with both of these are different expressions, depending on the order
of the operands. -/
theorem C31_false :
    (∃ cs, Api.add lib ta tb = .ok (sum [ta, tb], cs)) ∧ (∃ cs, Api.add lib tb ta = .ok (sum [tb, ta], cs)) ∧
    isEqual (sum [ta, tb]) (sum [tb, ta]) = false ∧
    (∃ cs, Api.mul lib ta tb = .ok (prod [ta, tb], cs)) ∧ (∃ cs, Api.mul lib tb ta = .ok (prod [tb, ta], cs)) ∧
    isEqual (prod [ta, tb]) (prod [tb, ta]) = false :=
  ⟨M.val_some (by krfl), M.val_some (by krfl), by krfl, M.val_some (by krfl), M.val_some (by krfl), by krfl⟩

end ShapeEx

end Tsym
