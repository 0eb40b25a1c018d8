import Verif.Diverge
import Verif.Props.Poly
import Verif.Props.PolyOps

set_option autoImplicit false
set_option linter.unusedSectionVars false
set_option linter.unusedSimpArgs false
set_option linter.unusedVariables false

/-!
# C41, continued: division of polynomials with the coefficient 324
-/

namespace Tsym

open Expr

namespace PolyDivEx

open ExprEx SymEx ValueEx PolyEx2

/-- C41 is false: 324 divided by 324 gives the quotient 9 and the remainder 0. -/
theorem C41_false_quotient : (∃ cs, polyDivide lib (int 324) (int 324) = .ok ((int 9, zero), cs)) ∧
    den (all 3) (int 324 : Expr Hyb) = some 324 ∧ den (all 3) (int 9 : Expr Hyb) = some 9 ∧ (324 : ℝ) ≠ 9 * 324 + 0 := by
  refine ⟨M.val_some (by krfl), ?_, ?_, by norm_num⟩
  · simp [int]
  · simp [int]

/-- Neither does a division always end: for a divided by 324*a the recursion is used up with any bound. -/
theorem C41_false_endless (n : ℕ) : polyDivide (eng (Cfg.std 1000) n) a (prod [int 324, a]) = .error .fuel := by
  have hs : sa.id.Ok := by simp only [sa, SymId.Ok, Name.value]; decide
  have h1 : ∃ cs, (eng (Cfg.std (D := Hyb) 1000) 30).oneOver (int 324) = .ok (.num (.rat (1 / 36)), cs) := M.val_some (by krfl)
  obtain ⟨cs, h1⟩ := h1
  have hm : Lean.Order.monotone fun E : Eng Hyb => E.oneOver (int 324) := apiPow_mono _ _
  exact polyDivide_diverges (D := Hyb) (Cfg.std_ok 1000) sa hs (w := 324) (i := 1 / 36) (by norm_num) (by norm_num) (by norm_num)
    (ret_of_val hm h1) n

end PolyDivEx

end Tsym
