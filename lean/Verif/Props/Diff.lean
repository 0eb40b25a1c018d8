import Verif.SoundDiff
import Verif.Props.Values

set_option autoImplicit false
set_option linter.unusedSectionVars false

/-!
# Derivatives: C12, C13
-/

namespace Tsym

open Expr

variable {D : Type} [Flt D]

/-- C13. The derivative of an expression with respect to a symbol that does not occur in it is the
number zero, or Undefined; for every floating point unit. -/
theorem C13_absent_symbol (cfg : Cfg D) (hcfg : cfg.Ok) (n : Nat) (a : Expr D) (x : Sym)
    (hx : has (.sym x) a = false) (r : Expr D) (cs : List (Cond D))
    (hr : Api.diff (eng cfg n) a (.sym x) = .ok (r, cs)) (hd : r ≠ .undef) : r = .num 0 := by
  rw [Bool.eq_false_iff, ne_eq, has_sym_iff] at hx
  have h : Within (fun s => s ≠ x) a := by
    rintro s hs rfl
    exact hx hs
  exact (diff_zu hcfg n h r cs hr (C := fun _ => True) fun _ _ => trivial).resolve_right hd

open ExprEx SymEx in
example : ∃ cs, Api.diff lib (sum [fn .sin b, prod [int 2, pow b (int 3)]]) a = .ok (num 0, cs) :=
  M.val_some (by krfl)

/-- C12. Where the expression is put together from differentiable functions (`Smooth`), and the recorded
conditions hold, the result is Undefined or its value is the derivative. Missing: points at which a
base is zero (see `C12_limit`), atan2 of arguments that contain the symbol (see `C12_atan2`); the conditions (see `C12_false`). -/
theorem C12_diff_partial [LawfulFlt D] (cfg : Cfg D) (hcfg : cfg.Ok) (n : Nat) (σ : Asg)
    (hσ : σ.Respects) (a : Expr D) (x : Sym) (ha : Smooth σ x a) (r : Expr D) (cs : List (Cond D))
    (hr : Api.diff (eng cfg n) a (.sym x) = .ok (r, cs)) (hc : ∀ c ∈ cs, c.holds σ)
    (hd : r ≠ .undef) : ∃ d, den σ r = some d ∧ Derives σ x a d :=
  (diff_ok hcfg n hσ ha r cs hr hc).resolve_left hd

namespace DiffEx

open ExprEx SymEx ValueEx

/-- The symbol a. -/
def sa : Sym := ⟨.named ⟨['a'], [], []⟩, false⟩

/-- C12 on an example: the derivative of a^3*sin(2*a). -/
example : Smooth (all 2) sa (prod [pow a (int 3), fn .sin (prod [int 2, a])]) := by
  refine .prod fun y hy => ?_
  simp only [List.mem_cons, List.not_mem_nil, or_false] at hy
  rcases hy with rfl | rfl
  · exact .powInt (v := 2) (n := 3) .sym (by rw [← has_sym_iff]; decide) (by simp) rfl (by norm_num)
  · refine .sin (.prod fun z hz => ?_)
    simp only [List.mem_cons, List.not_mem_nil, or_false] at hz
    rcases hz with rfl | rfl
    · exact .const (v := 2) (by rw [← has_sym_iff]; decide) (by simp)
    · exact .sym

example : ∃ cs, Api.diff lib (prod [pow a (int 3), fn .sin (prod [int 2, a])]) a = .ok (sum [
    prod [int 2, pow a (int 3), fn .cos (prod [int 2, a])],
    prod [int 3, pow a (int 2), fn .sin (prod [int 2, a])]], cs) := M.val_some (by krfl)

/-- C12 is false: the derivative of log(324*a) is given as 9/a. -/
theorem C12_false :
    (∃ cs, Api.log lib (prod [int 324, a]) = .ok (fn .log (prod [int 324, a]), cs)) ∧
    (∃ cs, Api.diff lib (fn .log (prod [int 324, a])) a =
      .ok (prod [int 9, pow a (int (-1))], cs)) ∧
    den (all 1) (prod [int 9, pow a (int (-1))]) = some 9 ∧
    Derives (all 1) sa (fn .log (prod [int 324, a])) 1 := by
  refine ⟨M.val_some (by krfl), M.val_some (by krfl), ?_, ?_⟩
  · simp [denProd, den, all, Spec.pow]
  · refine ⟨fun t => Real.log (324 * t), ?_, ?_⟩
    · filter_upwards [lt_mem_nhds (show (0 : ℝ) < all 1 sa by simp [all])] with t ht
      refine den_fn.2 ⟨324 * t, denProd_two (by simp) (by simp [sa]), ?_⟩
      simp [Spec.fn, Spec.log, ht]
    · have h := ((hasDerivAt_id (1 : ℝ)).const_mul 324).log (by norm_num)
      simpa [all] using h

/-- The derivative of (-a-b)^3, with a and b known to be positive, is given as Undefined. -/
theorem C12_undefined :
    let p : Expr Hyb := sym ⟨.named ⟨['a'], [], []⟩, true⟩
    let q : Expr Hyb := sym ⟨.named ⟨['b'], [], []⟩, true⟩
    ∃ cs, Api.diff lib (pow (sum [prod [int (-1), p], prod [int (-1), q]]) (int 3)) p =
      .ok (.undef, cs) := M.val_some (by krfl)

end DiffEx

end Tsym
