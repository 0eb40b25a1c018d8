import Verif.SurdSubst

set_option autoImplicit false
set_option linter.unusedSectionVars false
set_option linter.unusedSimpArgs false

/-!
# C96: sums of square roots are constants

Substituting a symbol takes the sum apart and builds it again, with the same result. The derivative is zero, although the logarithms of the numbers
below the roots are made on the way.
-/

namespace Tsym

section

open Expr Surds

variable {D : Type} [Flt D] [LawfulFlt D] {cfg : Cfg D}

/-! ## C96 -/

/-- C96. Substituting anything for a symbol gives the same sum; this includes the numbers below the roots above the limit for primes. -/
theorem C96_subst (hc : cfg.Ok) (L : List (ℚ × ℕ)) (hL : Ok L) (s : Sym) (r : Expr D) :
    Gives cfg (fun E => Api.subst E (expr L) (.sym s) r) (expr L : Expr D) :=
  (Sd.subst_sum hc s r hL).gives (Api.subst_mono _ _ _ id Lean.Order.monotone_id)

/-- C96. The derivative is zero, not only an expression with the value zero. -/
theorem C96_diff (hc : cfg.Ok) (L : List (ℚ × ℕ)) (hL : Ok L) (s : Sym) :
    Gives cfg (fun E => Api.diff E (expr L) (.sym s)) (num (.rat 0) : Expr D) :=
  (Sd.diff_sum hc s hL).gives (Api.diff_mono _ _ id Lean.Order.monotone_id)

/-- C96. The same for the results of computations as in C92. -/
theorem C96_run (hc : cfg.Ok) (hub : cfg.strictUb = false) (P : ℕ) (hP0 : 0 < P) (hmax : ((P * P : ℕ) : ℤ) ≤ cfg.maxPrime) (t : Surds.Tree)
    (ht : t.Below P) (s : Sym) (r : Expr D) :
    ∃ a : Expr D, Gives cfg (fun E => t.run E) a ∧ Gives cfg (fun E => Api.subst E a (.sym s) r) a ∧ Gives cfg (fun E => Api.diff E a (.sym s)) (num (.rat 0)) := by
  obtain ⟨R, hR, _, _, _, g⟩ := C92_run (D := D) hc hub P hP0 hmax t ht
  exact ⟨_, g, C96_subst hc R hR.ok s r, C96_diff hc R hR.ok s⟩

end

/-! ## Examples -/

/-- -3/4 - √3 + 5*√7, with the condition of the theorems. -/
example : Surds.Ok [(-3 / 4, 1), (-1, 3), (5, 7)] := by
  have h3 : Squarefree 3 := Nat.prime_three.squarefree
  have h7 : Squarefree 7 := (by decide : Nat.Prime 7).squarefree
  refine ⟨?_, ?_, ?_, ?_⟩
  · norm_num
  · simp [h3, h7]
  · simp
  · simp

example : Api.subst (eng (Cfg.std 1000) 60 : Eng Hyb) (Surds.expr [(-3 / 4, 1), (-1, 3), (5, 7)]) (.sym ⟨.named ⟨"x".toList, [], []⟩, false⟩) .undef =
    .ok (Surds.expr [(-3 / 4, 1), (-1, 3), (5, 7)], []) := by krfl

example : Api.diff (eng (Cfg.std 1000) 60 : Eng Hyb) (Surds.expr [(-3 / 4, 1), (-1, 3), (5, 7)]) (.sym ⟨.named ⟨"x".toList, [], []⟩, false⟩) = .ok (.num (.rat 0), []) := by krfl

end Tsym
