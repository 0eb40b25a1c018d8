import Verif.Expr
import Verif.Lawful

set_option autoImplicit false

/-!
# Specification: what an expression means

The value of an expression under an assignment of real numbers to symbols. It is a partial function:
division by zero, the logarithm of a negative number and so on have no value, and neither has
Undefined. Nothing here refers to the simplification code.
-/

namespace Tsym

namespace Spec

/-- The functions of one argument. -/
noncomputable def fn : Fn → ℝ → Option ℝ
  | .log, x => log x
  | .sin, x => some (Real.sin x)
  | .cos, x => some (Real.cos x)
  | .tan, x => tan x
  | .asin, x => asin x
  | .acos, x => acos x
  | .atan, x => some (Real.arctan x)

/-- The values of the constants (constant.cpp:45-55). -/
noncomputable def cst : Cst → ℝ
  | .pi => Real.pi
  | .e => Real.exp 1

end Spec

/-- An assignment of real numbers to symbols. -/
abbrev Asg := Sym → ℝ

/-- Positive symbols have values that are not negative. -/
def Asg.Respects (σ : Asg) : Prop := ∀ s : Sym, s.positive = true → 0 ≤ σ s

variable {D : Type} [Flt D] [LawfulFlt D]

mutual
/-- The value of an expression. -/
noncomputable def den (σ : Asg) : Expr D → Option ℝ
  | .num n => some n.val
  | .sym s => some (σ s)
  | .cst c => some (Spec.cst c)
  | .undef => none
  | .sum l => denSum σ l
  | .prod l => denProd σ l
  | .pow b e => (den σ b).bind fun x => (den σ e).bind fun y => Spec.pow x y
  | .fn f a => (den σ a).bind fun x => Spec.fn f x
  | .atan2 y x => (den σ y).bind fun v => (den σ x).bind fun u => Spec.atan2 v u
/-- The sum of the values of all operands. -/
noncomputable def denSum (σ : Asg) : List (Expr D) → Option ℝ
  | [] => some 0
  | a :: l => (den σ a).bind fun x => (denSum σ l).bind fun y => some (x + y)
/-- The product of the values of all operands. -/
noncomputable def denProd (σ : Asg) : List (Expr D) → Option ℝ
  | [] => some 1
  | a :: l => (den σ a).bind fun x => (denProd σ l).bind fun y => some (x * y)
end

end Tsym
