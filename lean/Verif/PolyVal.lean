import Verif.Holds
import Verif.ExprThm
import Mathlib.Algebra.MvPolynomial.Eval
import Mathlib.Algebra.MvPolynomial.CommRing

set_option autoImplicit false
set_option linter.unusedSectionVars false
set_option linter.unusedSimpArgs false

/-!
# Expressions that are polynomials

Specification: the polynomial an expression without functions, constants, doubles and
Undefined stands for. Nothing here refers to the simplification code.
-/

namespace Tsym

open Expr

variable {D : Type} [Flt D]

mutual
/-- Rational numbers, symbols, sums, products, and powers with an exponent 1, 2, 3, ... -/
def isPolyE : Expr D → Bool
  | .num (.rat _) => true
  | .sym _ => true
  | .sum l => isPolyL l
  | .prod l => isPolyL l
  | .pow b (.num (.rat q)) => isPolyE b && decide (q.den = 1 ∧ 1 ≤ q.num)
  | _ => false
/-- All elements are polynomials. -/
def isPolyL : List (Expr D) → Bool
  | [] => true
  | a :: l => isPolyE a && isPolyL l
end

open MvPolynomial in
mutual
/-- The polynomial. -/
noncomputable def poly : Expr D → MvPolynomial Sym ℚ
  | .num (.rat q) => C q
  | .sym s => X s
  | .sum l => polySum l
  | .prod l => polyProd l
  | .pow b (.num (.rat q)) => poly b ^ q.num.toNat
  | _ => 0
/-- The sum of the polynomials. -/
noncomputable def polySum : List (Expr D) → MvPolynomial Sym ℚ
  | [] => 0
  | a :: l => poly a + polySum l
/-- The product of the polynomials. -/
noncomputable def polyProd : List (Expr D) → MvPolynomial Sym ℚ
  | [] => 1
  | a :: l => poly a * polyProd l
end

theorem polySum_eq (l : List (Expr D)) : polySum l = (l.map poly).sum := by
  induction l with
  | nil => simp [polySum]
  | cons a l ih => simp [polySum, ih]

theorem polyProd_eq (l : List (Expr D)) : polyProd l = (l.map poly).prod := by
  induction l with
  | nil => simp [polyProd]
  | cons a l ih => simp [polyProd, ih]

theorem isPolyL_iff {l : List (Expr D)} : isPolyL l = true ↔ ∀ e ∈ l, isPolyE e = true := by
  induction l with
  | nil => simp [isPolyL]
  | cons a l ih => simp [isPolyL, ih]

/-- The value of a polynomial. -/
noncomputable def pval (σ : Asg) (p : MvPolynomial Sym ℚ) : ℝ := MvPolynomial.aeval σ p

section den

variable [LawfulFlt D] {σ : Asg}

mutual
/-- The value of an expression is the value of its polynomial. -/
theorem den_poly (e : Expr D) (h : isPolyE e = true) : den σ e = some (pval σ (poly e)) := by
  match e, h with
  | .num (.rat q), _ => simp [den, poly, pval]
  | .sym s, _ => simp [den, poly, pval]
  | .sum l, h =>
    rw [den, poly]
    exact denSum_poly l (by simpa [isPolyE] using h)
  | .prod l, h =>
    rw [den, poly]
    exact denProd_poly l (by simpa [isPolyE] using h)
  | .pow b (.num (.rat q)), h =>
    simp only [isPolyE, Bool.and_eq_true, decide_eq_true_eq] at h
    obtain ⟨h1, h2, h3⟩ := h
    rw [den, poly, den_poly b h1]
    have hq : q = ((q.num.toNat : ℕ) : ℚ) := by
      have e1 : ((q.num.toNat : ℕ) : ℤ) = q.num := Int.toNat_of_nonneg (by omega)
      have e2 : ((q.num : ℤ) : ℚ) = q := Rat.coe_int_num_of_den_eq_one h2
      rw [← Int.cast_natCast, e1, e2]
    have hk : 1 ≤ q.num.toNat := by omega
    generalize q.num.toNat = k at hq hk
    subst hq
    simp only [den, Option.bind_some, Number.val]
    have hv : (((k : ℚ) : ℝ)) = (k : ℝ) := by simp
    rw [hv]
    unfold Spec.pow
    rw [if_pos, Real.rpow_natCast]
    · simp [pval]
    · rcases lt_trichotomy (pval σ (poly b)) 0 with h | h | h
      · exact .inr (.inr ⟨h, k, by simp⟩)
      · exact .inr (.inl ⟨h, by exact_mod_cast hk⟩)
      · exact .inl h
theorem denSum_poly (l : List (Expr D)) (h : isPolyL l = true) : denSum σ l = some (pval σ (polySum l)) := by
  match l, h with
  | [], _ => simp [denSum, polySum, pval]
  | a :: l, h =>
    simp only [isPolyL, Bool.and_eq_true] at h
    rw [denSum, polySum, den_poly a h.1, denSum_poly l h.2]
    simp [pval]
theorem denProd_poly (l : List (Expr D)) (h : isPolyL l = true) : denProd σ l = some (pval σ (polyProd l)) := by
  match l, h with
  | [], _ => simp [denProd, polyProd, pval]
  | a :: l, h =>
    simp only [isPolyL, Bool.and_eq_true] at h
    rw [denProd, polyProd, den_poly a h.1, denProd_poly l h.2]
    simp [pval]
end

end den

end Tsym
