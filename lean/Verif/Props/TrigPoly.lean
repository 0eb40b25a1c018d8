import Verif.TrigInv
import Verif.Props.QuotNormal

/-!
# C70: trigonometric functions, logarithm and exponential function of polynomials
-/

set_option autoImplicit false
set_option linter.unusedSectionVars false

namespace Tsym

open Expr

/-! ## Specification -/

/-- All coefficients are negative. -/
def AllNegative (p : MvPolynomial Sym ℚ) : Prop := ∀ d : Sym →₀ ℕ, p.coeff d ≠ 0 → p.coeff d < 0

/-- The polynomial is not a number. -/
def NotConstant (p : MvPolynomial Sym ℚ) : Prop := ∀ c : ℚ, p ≠ MvPolynomial.C c

/-- Odd functions. -/
def Fn.Odd (f : Fn) : Prop := f = .sin ∨ f = .tan ∨ f = .asin ∨ f = .atan

/-! ## Proofs -/

section

variable {D : Type} [Flt D] [LawfulFlt D] {cfg : Cfg D}

theorem allNegative_iff (p : MvPolynomial Sym ℚ) : AllNegative p ↔ AllNeg p := by
  unfold AllNegative AllNeg
  simp only [MvPolynomial.mem_support_iff]

theorem QTree.nc (hc : cfg.Ok) {t : QTree} (ht : t.Ok cfg.maxPrime) {r : Expr D} (hr : Gives cfg (fun E => t.expanded E) r)
    (hn : NotConstant t.poly) : NC r := by
  obtain ⟨er, pr⟩ := QTree.ep hc ht hr
  exact ⟨er, by rw [pr]; exact hn⟩

theorem QTree.neg_ep (hc : cfg.Ok) {t : QTree} (ht : t.Ok cfg.maxPrime) {r r' : Expr D} (hr : Gives cfg (fun E => t.expanded E) r)
    (hr' : Gives cfg (fun E => (QTree.neg t).expanded E) r') : EP r' ∧ Tsym.poly r' = - Tsym.poly r := by
  obtain ⟨er, pr⟩ := QTree.ep hc ht hr
  obtain ⟨er', pr'⟩ := QTree.ep hc (t := QTree.neg t) ht hr'
  exact ⟨er', by rw [pr', pr]; rfl⟩

/-! ## C70: the functions -/

/-- C70. A trigonometric function of a polynomial that is not a number, and that has a coefficient that is not negative, is that
function of the expression. -/
theorem C70_plain (hc : cfg.Ok) (t : QTree) (ht : t.Ok cfg.maxPrime) (r : Expr D) (hr : Gives cfg (fun E => t.expanded E) r)
    (hn : NotConstant t.poly) (hs : ¬ AllNegative t.poly) (f : Fn) (_ : f ≠ .log) : Yields cfg (fun E => Api.trig E f r) (.fn f r) := by
  refine Tot.yields (tot_trig ((QTree.nc hc ht hr hn).tot_trig hc ?_ f)) (Api.trig_mono f r id fun _ _ h => h)
  rw [← allNegative_iff, (QTree.ep hc ht hr).2]; exact hs

/-- C70. If all coefficients are negative, the sign is taken out: the cosine is that of the negated polynomial, the arc cosine is
π minus that of the negated polynomial, and the others are the negative functions of the negated polynomial. -/
theorem C70_symmetry (hc : cfg.Ok) (t : QTree) (ht : t.Ok cfg.maxPrime) (r r' : Expr D) (hr : Gives cfg (fun E => t.expanded E) r)
    (hr' : Gives cfg (fun E => (QTree.neg t).expanded E) r') (hn : NotConstant t.poly) (hs : AllNegative t.poly) :
    Yields cfg (fun E => Api.trig E .cos r) (.fn .cos r') ∧
    Yields cfg (fun E => Api.trig E .acos r) (.sum [.cst .pi, .prod [.int (-1), .fn .acos r']]) ∧
    ∀ f : Fn, f.Odd → Yields cfg (fun E => Api.trig E f r) (.prod [.int (-1), .fn f r']) := by
  obtain ⟨e', p'⟩ := QTree.neg_ep hc ht hr hr'
  have h := fun f => Tot.yields (tot_trig ((QTree.nc hc ht hr hn).tot_trig_neg hc e' p' (by rw [← allNegative_iff, (QTree.ep hc ht hr).2]; exact hs) f))
    (Api.trig_mono f r id fun _ _ h => h)
  refine ⟨h .cos, h .acos, fun f hf => ?_⟩
  rcases hf with rfl | rfl | rfl | rfl
  · exact h .sin
  · exact h .tan
  · exact h .asin
  · exact h .atan

/-- Apply a function and change the sign of the result. -/
def negOfTrig {D : Type} [Flt D] (E : Eng D) (f : Fn) (r : Expr D) : M D (Expr D) := do
  let x ← Api.trig E f r
  Api.neg E x

/-- Change the sign and apply a function to the result. -/
def trigOfNeg {D : Type} [Flt D] (E : Eng D) (f : Fn) (r : Expr D) : M D (Expr D) := do
  let x ← Api.neg E r
  Api.trig E f x

/-- Apply two functions. -/
def trigOfTrig {D : Type} [Flt D] (E : Eng D) (f g : Fn) (r : Expr D) : M D (Expr D) := do
  let x ← Api.trig E g r
  Api.trig E f x

/-- The sum of the squares of two functions. -/
def sumOfSquares {D : Type} [Flt D] (E : Eng D) (f g : Fn) (r : Expr D) : M D (Expr D) := do
  let x ← Api.trig E f r
  let y ← Api.trig E g r
  let x2 ← Api.pow E x (.int 2)
  let y2 ← Api.pow E y (.int 2)
  Api.add E x2 y2

/-- The logarithm of the exponential function. -/
def logOfExp {D : Type} [Flt D] (E : Eng D) (r : Expr D) : M D (Expr D) := do
  let x ← Api.pow E (.cst .e) r
  Api.log E x

/-- The exponential function of the logarithm. -/
def expOfLog {D : Type} [Flt D] (E : Eng D) (r : Expr D) : M D (Expr D) := do
  let x ← Api.log E r
  Api.pow E (.cst .e) x

theorem negOfTrig_mono (f : Fn) (r : Expr D) : Lean.Order.monotone fun E : Eng D => negOfTrig E f r := by
  unfold negOfTrig Api.neg Api.trig; repeat' mono_step
theorem trigOfNeg_mono (f : Fn) (r : Expr D) : Lean.Order.monotone fun E : Eng D => trigOfNeg E f r := by
  unfold trigOfNeg Api.neg Api.trig; repeat' mono_step
theorem trigOfTrig_mono (f g : Fn) (r : Expr D) : Lean.Order.monotone fun E : Eng D => trigOfTrig E f g r := by
  unfold trigOfTrig Api.trig; repeat' mono_step
theorem sumOfSquares_mono (f g : Fn) (r : Expr D) : Lean.Order.monotone fun E : Eng D => sumOfSquares E f g r := by
  unfold sumOfSquares Api.trig Api.pow Api.add; repeat' mono_step
theorem logOfExp_mono (r : Expr D) : Lean.Order.monotone fun E : Eng D => logOfExp E r := by
  unfold logOfExp Api.log Api.pow; repeat' mono_step
theorem expOfLog_mono (r : Expr D) : Lean.Order.monotone fun E : Eng D => expOfLog E r := by
  unfold expOfLog Api.log Api.pow; repeat' mono_step

/-! ## C70: odd and even functions -/

/-- C70. If the coefficients of the polynomial are all negative or all positive, the odd functions of the negated polynomial are
the negated functions, as expressions. -/
theorem C70_odd (hc : cfg.Ok) (t : QTree) (ht : t.Ok cfg.maxPrime) (r : Expr D) (hr : Gives cfg (fun E => t.expanded E) r)
    (hn : NotConstant t.poly) (hs : AllNegative t.poly ∨ AllNegative (-t.poly)) (f : Fn) (hf : f.Odd) :
    ∃ x : Expr D, Yields cfg (fun E => negOfTrig E f r) x ∧ Yields cfg (fun E => trigOfNeg E f r) x := by
  have h := QTree.nc hc ht hr hn
  obtain ⟨r', hr', -⟩ := C52_expanded (D := D) hc (QTree.neg t) ht
  obtain ⟨e', p'⟩ := QTree.neg_ep hc ht hr hr'
  have pr := (QTree.ep hc ht hr).2
  have n' := h.neg e' p'
  have hm := h.tot_minus hc (cfg := cfg) e' p'
  rw [allNegative_iff, allNegative_iff, ← pr] at hs
  rcases hs with hs | hs
  · refine ⟨.fn f r', Tot.yields ?_ (negOfTrig_mono f r), Tot.yields ?_ (trigOfNeg_mono f r)⟩
    · have t1 : Tot cfg (fun E => trigCreate E f r) (.prod [mOne, .fn f r']) := by
        have := h.tot_trig_neg hc (cfg := cfg) e' p' hs f
        rcases hf with rfl | rfl | rfl | rfl <;> exact this
      exact tot_bind (tot_trig t1) (tot_minus_minus_fn n'.exact hc)
    · exact tot_bind hm (tot_trig (n'.tot_trig hc (by rw [p']; exact h.not_both hs) f))
  · have hs' : ¬ AllNeg (Tsym.poly r) := fun h1 => h.not_both h1 hs
    refine ⟨.prod [mOne, .fn f r], Tot.yields ?_ (negOfTrig_mono f r), Tot.yields ?_ (trigOfNeg_mono f r)⟩
    · exact tot_bind (tot_trig (h.tot_trig hc hs' f)) (tot_minus_fn h.exact)
    · have t1 : Tot cfg (fun E => trigCreate E f r') (.prod [mOne, .fn f r]) := by
        have := n'.tot_trig_neg hc (cfg := cfg) (r' := r) h.ep (by rw [p', neg_neg]) (by rw [p']; exact hs) f
        rcases hf with rfl | rfl | rfl | rfl <;> exact this
      exact tot_bind hm (tot_trig t1)

/-- C70. Then the cosine of the negated polynomial is the cosine of the polynomial, as an expression. -/
theorem C70_even (hc : cfg.Ok) (t : QTree) (ht : t.Ok cfg.maxPrime) (r : Expr D) (hr : Gives cfg (fun E => t.expanded E) r)
    (hn : NotConstant t.poly) (hs : AllNegative t.poly ∨ AllNegative (-t.poly)) :
    ∃ x : Expr D, Yields cfg (fun E => Api.trig E .cos r) x ∧ Yields cfg (fun E => trigOfNeg E .cos r) x := by
  have h := QTree.nc hc ht hr hn
  obtain ⟨r', hr', -⟩ := C52_expanded (D := D) hc (QTree.neg t) ht
  obtain ⟨e', p'⟩ := QTree.neg_ep hc ht hr hr'
  have pr := (QTree.ep hc ht hr).2
  have n' := h.neg e' p'
  have hm := h.tot_minus hc (cfg := cfg) e' p'
  rw [allNegative_iff, allNegative_iff, ← pr] at hs
  rcases hs with hs | hs
  · refine ⟨.fn .cos r', Tot.yields ?_ (Api.trig_mono .cos r id fun _ _ h => h), Tot.yields ?_ (trigOfNeg_mono .cos r)⟩
    · exact tot_trig (h.tot_trig_neg hc (cfg := cfg) e' p' hs .cos)
    · exact tot_bind hm (tot_trig (n'.tot_trig hc (by rw [p']; exact h.not_both hs) .cos))
  · have hs' : ¬ AllNeg (Tsym.poly r) := fun h1 => h.not_both h1 hs
    refine ⟨.fn .cos r, Tot.yields ?_ (Api.trig_mono .cos r id fun _ _ h => h), Tot.yields ?_ (trigOfNeg_mono .cos r)⟩
    · exact tot_trig (h.tot_trig hc hs' .cos)
    · exact tot_bind hm (tot_trig (n'.tot_trig_neg hc (cfg := cfg) (r' := r) h.ep (by rw [p', neg_neg]) (by rw [p']; exact hs) .cos))

/-! ## C70: inverse functions -/

/-- C70. The sine of the arc sine and the tangent of the arc tangent of a polynomial that is not a number are this polynomial. -/
theorem C70_inverse (hc : cfg.Ok) (t : QTree) (ht : t.Ok cfg.maxPrime) (r : Expr D) (hr : Gives cfg (fun E => t.expanded E) r)
    (hn : NotConstant t.poly) : Yields cfg (fun E => trigOfTrig E .sin .asin r) r ∧ Yields cfg (fun E => trigOfTrig E .tan .atan r) r := by
  have h := QTree.nc hc ht hr hn
  obtain ⟨r', hr', -⟩ := C52_expanded (D := D) hc (QTree.neg t) ht
  obtain ⟨e', p'⟩ := QTree.neg_ep hc ht hr hr'
  by_cases hs : AllNeg (Tsym.poly r)
  · exact ⟨Tot.yields (tot_bind (tot_trig (h.tot_trig_neg hc e' p' hs .asin)) (tot_trig (tot_inverse_neg hc h e' p' (by simp) rfl (by simp))))
        (trigOfTrig_mono _ _ r),
      Tot.yields (tot_bind (tot_trig (h.tot_trig_neg hc e' p' hs .atan)) (tot_trig (tot_inverse_neg hc h e' p' (by simp) rfl (by simp))))
        (trigOfTrig_mono _ _ r)⟩
  · exact ⟨Tot.yields (tot_bind (tot_trig (h.tot_trig hc hs .asin)) (tot_trig (by simp only [trigCreate_inverse _ .sin .asin (by simp) rfl]; exact tot_pure _)))
        (trigOfTrig_mono _ _ r),
      Tot.yields (tot_bind (tot_trig (h.tot_trig hc hs .atan)) (tot_trig (by simp only [trigCreate_inverse _ .tan .atan (by simp) rfl]; exact tot_pure _)))
        (trigOfTrig_mono _ _ r)⟩

/-- C70. The cosine of the arc cosine of a polynomial is this polynomial, unless all coefficients are negative. -/
theorem C70_cos_acos (hc : cfg.Ok) (t : QTree) (ht : t.Ok cfg.maxPrime) (r : Expr D) (hr : Gives cfg (fun E => t.expanded E) r)
    (hn : NotConstant t.poly) (hs : ¬ AllNegative t.poly) : Yields cfg (fun E => trigOfTrig E .cos .acos r) r := by
  have h := QTree.nc hc ht hr hn
  rw [allNegative_iff, ← (QTree.ep hc ht hr).2] at hs
  exact Tot.yields (tot_bind (tot_trig (h.tot_trig hc hs .acos)) (tot_trig (by simp only [trigCreate_inverse _ .cos .acos (by simp) rfl]; exact tot_pure _)))
    (trigOfTrig_mono _ _ r)

/-- C70. If all coefficients are negative, the cosine of the arc cosine is not simplified: the result is the cosine of π minus the
arc cosine of the negated polynomial. -/
theorem C70_cos_acos_neg (hc : cfg.Ok) (t : QTree) (ht : t.Ok cfg.maxPrime) (r r' : Expr D) (hr : Gives cfg (fun E => t.expanded E) r)
    (hr' : Gives cfg (fun E => (QTree.neg t).expanded E) r') (hn : NotConstant t.poly) (hs : AllNegative t.poly) :
    Yields cfg (fun E => trigOfTrig E .cos .acos r) (.fn .cos (.sum [.cst .pi, .prod [.int (-1), .fn .acos r']])) := by
  have h := QTree.nc hc ht hr hn
  obtain ⟨e', p'⟩ := QTree.neg_ep hc ht hr hr'
  rw [allNegative_iff, ← (QTree.ep hc ht hr).2] at hs
  exact Tot.yields (tot_bind (tot_trig (h.tot_trig_neg hc e' p' hs .acos)) (tot_trig (tot_cos_pi_acos (h.neg e' p').eval))) (trigOfTrig_mono _ _ r)

/-! ## C70: squares, logarithm -/

/-- C70. The squares of sine and cosine of a polynomial that is not a number add up to one. -/
theorem C70_squares (hc : cfg.Ok) (t : QTree) (ht : t.Ok cfg.maxPrime) (r : Expr D) (hr : Gives cfg (fun E => t.expanded E) r)
    (hn : NotConstant t.poly) : Yields cfg (fun E => sumOfSquares E .sin .cos r) (.int 1) ∧ Yields cfg (fun E => sumOfSquares E .cos .sin r) (.int 1) := by
  have h := QTree.nc hc ht hr hn
  obtain ⟨r', hr', -⟩ := C52_expanded (D := D) hc (QTree.neg t) ht
  obtain ⟨e', p'⟩ := QTree.neg_ep hc ht hr hr'
  have n' := h.neg e' p'
  by_cases hs : AllNeg (Tsym.poly r)
  · have h1 := tot_trig (h.tot_trig_neg hc (cfg := cfg) e' p' hs .sin)
    have h2 := tot_trig (h.tot_trig_neg hc (cfg := cfg) e' p' hs .cos)
    have q1 := tot_pow (tot_square_mfn (cfg := cfg) hc n'.eval (.inl rfl))
    have q2 := tot_pow (tot_square_fn (cfg := cfg) n'.eval (.inr rfl))
    exact ⟨Tot.yields (tot_bind h1 (tot_bind h2 (tot_bind q1 (tot_bind q2 (tot_sum (tot_sincos n'.exact (.inl ⟨rfl, rfl⟩))))))) (sumOfSquares_mono _ _ r),
      Tot.yields (tot_bind h2 (tot_bind h1 (tot_bind q2 (tot_bind q1 (tot_sum (tot_sincos n'.exact (.inr ⟨rfl, rfl⟩))))))) (sumOfSquares_mono _ _ r)⟩
  · have h1 := tot_trig (h.tot_trig hc (cfg := cfg) hs .sin)
    have h2 := tot_trig (h.tot_trig hc (cfg := cfg) hs .cos)
    have q1 := tot_pow (tot_square_fn (cfg := cfg) h.eval (f := .sin) (.inl rfl))
    have q2 := tot_pow (tot_square_fn (cfg := cfg) h.eval (f := .cos) (.inr rfl))
    exact ⟨Tot.yields (tot_bind h1 (tot_bind h2 (tot_bind q1 (tot_bind q2 (tot_sum (tot_sincos h.exact (.inl ⟨rfl, rfl⟩))))))) (sumOfSquares_mono _ _ r),
      Tot.yields (tot_bind h2 (tot_bind h1 (tot_bind q2 (tot_bind q1 (tot_sum (tot_sincos h.exact (.inr ⟨rfl, rfl⟩))))))) (sumOfSquares_mono _ _ r)⟩

/-- C70. The logarithm of e to the power of a polynomial that is not a number is this polynomial. The condition that is recorded
(e is positive) always holds. -/
theorem C70_log_exp (hc : cfg.Ok) (t : QTree) (ht : t.Ok cfg.maxPrime) (r : Expr D) (hr : Gives cfg (fun E => t.expanded E) r)
    (hn : NotConstant t.poly) : Returns cfg (fun E => logOfExp E r) r := by
  have h := QTree.nc hc ht hr hn
  have := Rs.returnsWhere (logOfExp_mono r) (rs_bind (S := fun _ => True) (Tot.rs (tot_pow (tot_exp (cfg := cfg) h)))
    (rs_succ (g := fun E => Api.log E (.pow (.cst .e) r)) (fun _ => rfl) (rs_log_exp hc h)))
  obtain ⟨N, cs, h1, h2⟩ := this
  exact ⟨N, cs, fun c hc σ => h1 c hc σ trivial, h2⟩

/-- C70. The other way round, for a polynomial with two or more monomials: e to the power of the logarithm is the polynomial if
isNegative does not answer yes, otherwise it is Undefined. -/
theorem C70_exp_log (hc : cfg.Ok) (t : QTree) (ht : t.Ok cfg.maxPrime) (r : Expr D) (hr : Gives cfg (fun E => t.expanded E) r)
    (h2 : ∀ d c, t.poly ≠ MvPolynomial.monomial d c) : 
    (¬ PlainlyPositive (-t.poly) → Yields cfg (fun E => expOfLog E r) r) ∧ (PlainlyPositive (-t.poly) → Yields cfg (fun E => expOfLog E r) .undef) := by
  have h := QTree.nc hc ht hr (fun c hc => h2 0 c (by rw [hc]; rfl))
  have hl := (C69_log hc t ht r hr h2).1
  refine ⟨fun hp => ?_, fun hp => ?_⟩
  · rw [if_neg hp] at hl
    exact Tot.yields (tot_bind (f := fun E => Api.log E r) hl (tot_pow (tot_exp_log h.exact h.eval hl))) (expOfLog_mono r)
  · rw [if_pos hp] at hl
    refine Tot.yields (tot_bind (f := fun E => Api.log E r) hl (tot_pow ?_)) (expOfLog_mono r)
    simp only [powCreate, Expr.isUndefined, Bool.true_or, if_true]
    exact tot_pure _

end

/-! ## Examples -/

namespace TrigPolyEx

open ExprEx PolySignEx

open PolyEx2 (sa sb)

theorem t2_nc : NotConstant t2.poly := by
  intro c h
  have h0 := congrArg (MvPolynomial.eval fun _ => (0 : ℚ)) h
  have h1 := congrArg (MvPolynomial.eval fun _ => (1 : ℚ)) h
  simp [t2_poly] at h0 h1
  norm_num [← h0] at h1

theorem t2_pos : PlainlyPositive t2.poly := by
  have h : Api.isPositive (eng (Cfg.std 323) 40) r2 = .ok (true, []) := by krfl
  have := (C69_signs (Cfg.std_ok 323) t2 t2_ok r2 t2_gives).1.2 40
  beta_reduce at this
  rw [h] at this
  rcases this with this | this
  · cases this
  · injection this with this
    exact @of_decide_eq_true _ (Classical.propDecidable _) (Prod.ext_iff.1 this).1.symm

/-- The negated polynomial, -(2 + a^2 + b^2 + p). -/
def t3 : QTree := .neg t2

theorem t3_neg : AllNegative t3.poly := by
  intro d hd
  have e : t3.poly.coeff d = - t2.poly.coeff d := by simp [t3, QTree.poly]
  rw [e] at hd ⊢
  have := (t2_pos.2 d (by simpa using hd)).1
  linarith

theorem t3_nc : NotConstant t3.poly := by
  intro c h
  refine t2_nc (-c) ?_
  rw [map_neg, ← h]
  simp [t3, QTree.poly]

/-- The expanded polynomial. -/
def r3 : Expr Hyb := sum [int (-2), prod [int (-1), pow a (int 2)], prod [int (-1), pow b (int 2)], prod [int (-1), .sym sp]]

theorem t3_expanded : t3.expanded (eng (Cfg.std 323) 40) = .ok (r3, []) := by krfl

theorem t3_gives : Gives (Cfg.std 323) (fun E => t3.expanded E) r3 := by
  obtain ⟨r, hr, -⟩ := C52_expanded (D := Hyb) (Cfg.std_ok 323) t3 t2_ok
  have e : r = r3 := by
    have h := t3_expanded.symm.trans (hr.2 40 |>.resolve_left fun h => by cases t3_expanded.symm.trans h)
    injection h with h
    exact (Prod.ext_iff.1 h).1.symm
  rw [← e]; exact hr

/-- The hypotheses of the theorems about all polynomials and about negative coefficients are met. -/
example : Yields (Cfg.std 323) (fun E => trigOfTrig E .sin .asin r3) r3 ∧ Yields (Cfg.std 323) (fun E => sumOfSquares E .sin .cos r3) (.int 1) ∧
    Returns (Cfg.std 323) (fun E => logOfExp E r3) r3 ∧ (∃ x, Yields (Cfg.std 323) (fun E => negOfTrig E .sin r3) x ∧ Yields (Cfg.std 323) (fun E => trigOfNeg E .sin r3) x) :=
  ⟨(C70_inverse (Cfg.std_ok 323) t3 t2_ok r3 t3_gives t3_nc).1, (C70_squares (Cfg.std_ok 323) t3 t2_ok r3 t3_gives t3_nc).1,
    C70_log_exp (Cfg.std_ok 323) t3 t2_ok r3 t3_gives t3_nc, C70_odd (Cfg.std_ok 323) t3 t2_ok r3 t3_gives t3_nc (.inl t3_neg) .sin (.inl rfl)⟩

/-- The results for this polynomial. -/
example : Api.trig (eng (Cfg.std 323) 40) .sin r3 = .ok (prod [int (-1), .fn .sin r2], []) ∧
    Api.trig (eng (Cfg.std 323) 40) .cos r3 = .ok (.fn .cos r2, []) ∧
    Api.trig (eng (Cfg.std 323) 40) .acos r3 = .ok (sum [.cst .pi, prod [int (-1), .fn .acos r2]], []) := by
  refine ⟨?_, ?_, ?_⟩ <;> krfl

/-- The hypotheses about other coefficients are met. -/
example : Yields (Cfg.std 323) (fun E => Api.trig E .tan r2) (.fn .tan r2) ∧ Yields (Cfg.std 323) (fun E => trigOfTrig E .cos .acos r2) r2 := by
  have : ¬ AllNegative t2.poly := by
    intro h
    obtain ⟨d, hd⟩ := MvPolynomial.ne_zero_iff.1 t2_pos.1
    have := (t2_pos.2 d hd).1
    have := h d hd
    linarith
  exact ⟨C70_plain (Cfg.std_ok 323) t2 t2_ok r2 t2_gives t2_nc this .tan (by simp), C70_cos_acos (Cfg.std_ok 323) t2 t2_ok r2 t2_gives t2_nc this⟩

/-- C70. With coefficients of both signs the odd functions are not seen to be odd: -sin(a - b) and sin(b - a) are different
expressions. -/
theorem C70_false_odd :
    negOfTrig (eng (Cfg.std 323) 40) .sin (sum [a, prod [int (-1), b]] : Expr Hyb) = .ok (prod [int (-1), .fn .sin (sum [a, prod [int (-1), b]])], []) ∧
    trigOfNeg (eng (Cfg.std 323) 40) .sin (sum [a, prod [int (-1), b]] : Expr Hyb) = .ok (.fn .sin (sum [prod [int (-1), a], b]), []) := by
  refine ⟨?_, ?_⟩ <;> krfl

end TrigPolyEx
end Tsym
