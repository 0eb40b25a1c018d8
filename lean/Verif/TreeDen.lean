import Verif.Grammar
import Verif.Den

set_option autoImplicit false

/-!
# Specification: what a text means

The mathematical value of a syntax tree, when the symbols have real values. It is a partial function, as
the value of expressions (Verif/Den.lean). Nothing here refers to the code.
-/

namespace Tsym

variable {D : Type} [Flt D] [LawfulFlt D]

open Classical in
/-- The value of a function. -/
noncomputable def PFct.den : PFct → ℝ → Option ℝ
  | sin, x => Spec.fn .sin x
  | cos, x => Spec.fn .cos x
  | tan, x => Spec.fn .tan x
  | asin, x => Spec.fn .asin x
  | acos, x => Spec.fn .acos x
  | atan, x => Spec.fn .atan x
  | log, x => Spec.fn .log x
  | sqrt, x => if 0 ≤ x then some (Real.sqrt x) else none

open Classical in
/-- The value of a tree, for values of the names. -/
noncomputable def Tree.den (ρ : Name → ℝ) : Tree D → Option ℝ
  | pi => some Real.pi
  | e => some (Real.exp 1)
  | sym n => some (ρ n)
  | dbl d => some (LawfulFlt.val d)
  | int s => some (decVal s)
  | fn f a => (a.den ρ).bind f.den
  | atan2 y x => (y.den ρ).bind fun v => (x.den ρ).bind fun u => Spec.atan2 v u
  | pow a b => (a.den ρ).bind fun x => (b.den ρ).bind fun y => Spec.pow x y
  | neg a => (a.den ρ).bind fun x => some (-x)
  | mul a b => (a.den ρ).bind fun x => (b.den ρ).bind fun y => some (x * y)
  | div a b => (a.den ρ).bind fun x => (b.den ρ).bind fun y => if y = 0 then none else some (x / y)
  | add a b => (a.den ρ).bind fun x => (b.den ρ).bind fun y => some (x + y)
  | sub a b => (a.den ρ).bind fun x => (b.den ρ).bind fun y => some (x - y)

end Tsym
