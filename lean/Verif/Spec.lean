import Mathlib.Analysis.SpecialFunctions.Pow.Real
import Mathlib.Analysis.SpecialFunctions.Trigonometric.Inverse
import Mathlib.Analysis.SpecialFunctions.Trigonometric.Arctan
import Mathlib.Analysis.SpecialFunctions.Complex.Arg

/-!
# Specification: real functions with their domains

What the operations of the library are supposed to mean. Nothing here refers to the model.
-/

namespace Tsym.Spec

open Classical in
/-- The real power: defined for positive base, for base zero with positive exponent, and for
negative base with integer exponent. -/
noncomputable def pow (x y : ℝ) : Option ℝ :=
  if 0 < x ∨ (x = 0 ∧ 0 < y) ∨ (x < 0 ∧ ∃ n : ℤ, y = n) then some (x ^ y) else none

open Classical in
/-- The natural logarithm of a positive number. -/
noncomputable def log (x : ℝ) : Option ℝ := if 0 < x then some (Real.log x) else none

open Classical in
/-- The tangent where the cosine is not zero. -/
noncomputable def tan (x : ℝ) : Option ℝ := if Real.cos x ≠ 0 then some (Real.tan x) else none

open Classical in
/-- The arc sine on [-1, 1]. -/
noncomputable def asin (x : ℝ) : Option ℝ :=
  if -1 ≤ x ∧ x ≤ 1 then some (Real.arcsin x) else none

open Classical in
/-- The arc cosine on [-1, 1]. -/
noncomputable def acos (x : ℝ) : Option ℝ :=
  if -1 ≤ x ∧ x ≤ 1 then some (Real.arccos x) else none

open Classical in
/-- Angle of the point (x, y) in (-π, π], undefined at the origin. -/
noncomputable def atan2 (y x : ℝ) : Option ℝ :=
  if x = 0 ∧ y = 0 then none else some (Complex.arg ⟨x, y⟩)

end Tsym.Spec
