import Verif.SoundApi
import Verif.Props.Symbols
import Verif.Props.Numbers

set_option autoImplicit false
set_option linter.unusedSectionVars false

/-!
# Properties of values: C01 - C10, C17, C18, C41, C43, C44

`den σ e` is the value of the expression `e` when the symbols have the values `σ` (Verif/Den.lean); it
does not exist where a real function does not exist. Floating point arithmetic is exact here
(`LawfulFlt`).

The theorems speak about every call that returns a result `r` and the conditions `cs` which the
rules that were used need (Verif/Eng.lean). Where the conditions hold, the result has the value that it
should have. They are marked as partial since the claims in properties.jsonl have no such
conditions; those claims are false, and the witnesses are below.
-/

namespace Tsym

open Expr

variable {D : Type} [Flt D] [LawfulFlt D]

namespace ValueEx

open ExprEx SymEx

/-- Another symbol. -/
def c : Expr Hyb := sym ⟨.named ⟨['c'], [], []⟩, false⟩

/-- The assignment that gives every symbol the same value. -/
def all (x : ℝ) : Asg := fun _ => x

theorem all_respects {x : ℝ} (h : 0 ≤ x) : (all x).Respects := fun _ _ => h

@[simp] theorem den_a (σ : Asg) : den σ a = some (σ ⟨.named ⟨['a'], [], []⟩, false⟩) := rfl
@[simp] theorem den_b (σ : Asg) : den σ b = some (σ ⟨.named ⟨['b'], [], []⟩, false⟩) := rfl
@[simp] theorem den_c (σ : Asg) : den σ c = some (σ ⟨.named ⟨['c'], [], []⟩, false⟩) := rfl

end ValueEx

open ExprEx SymEx ValueEx in
/-- The settings of the library, an assignment and operands with values. -/
example : (Cfg.std 1000 : Cfg Hyb).Ok ∧ (all 3).Respects ∧ den (all 3) a = some 3 ∧
    den (all 3) (prod [int 2, pow a (int 2)]) = some 18 := by
  refine ⟨Cfg.std_ok 1000, all_respects (by norm_num), rfl, ?_⟩
  have : Spec.pow 3 (2 : ℝ) = some 9 := by
    rw [Spec.pow_two']; norm_num
  simp [denProd, den, all, this]
  norm_num

section

variable (cfg : Cfg D) (hcfg : cfg.Ok) (n : Nat) (σ : Asg) (hσ : σ.Respects)
include hcfg hσ

/-- C01 for a + b. -/
theorem C01_add_partial (a b : Expr D) (x y : ℝ) (ha : den σ a = some x) (hb : den σ b = some y)
    (r : Expr D) (cs : List (Cond D)) (hr : Api.add (eng cfg n) a b = .ok (r, cs))
    (hc : ∀ c ∈ cs, c.holds σ) : den σ r = some (x + y) :=
  (sound_eng hcfg n).sum hσ (denSum_two ha hb) r cs hr hc

omit hcfg hσ in
open ExprEx SymEx ValueEx in
example : Api.add lib (sum [int 2, a]) (prod [int 3, a]) = .ok (sum [int 2, prod [int 4, a]], []) := by
  krfl

/-- C01 for sums of any number of operands. -/
theorem C01_sum_partial (l : List (Expr D)) (xs : List ℝ)
    (hl : List.Forall₂ (fun a x => den σ a = some x) l xs)
    (r : Expr D) (cs : List (Cond D)) (hr : (eng cfg n).sumCreate l = .ok (r, cs))
    (hc : ∀ c ∈ cs, c.holds σ) : den σ r = some xs.sum := by
  refine (sound_eng hcfg n).sum hσ ?_ r cs hr hc
  clear hr
  induction hl with
  | nil => rfl
  | cons h _ ih => exact denSum_cons.2 ⟨_, _, h, ih, by simp⟩

omit hcfg hσ in
open ExprEx SymEx ValueEx in
example : lib.sumCreate [b, int 2, prod [int 2, b], a] = .ok (sum [int 2, a, prod [int 3, b]], []) := by
  krfl

/-- C01 for -a. -/
theorem C01_neg_partial (a : Expr D) (x : ℝ) (ha : den σ a = some x)
    (r : Expr D) (cs : List (Cond D)) (hr : Api.neg (eng cfg n) a = .ok (r, cs))
    (hc : ∀ c ∈ cs, c.holds σ) : den σ r = some (-x) :=
  minus_vl (sound_eng hcfg n) hσ ha r cs hr hc

omit hcfg hσ in
open ExprEx SymEx ValueEx in
example : Api.neg lib (sum [a, b]) = .ok (sum [prod [int (-1), a], prod [int (-1), b]], []) := by krfl

/-- C01 for a - b. -/
theorem C01_sub_partial (a b : Expr D) (x y : ℝ) (ha : den σ a = some x) (hb : den σ b = some y)
    (r : Expr D) (cs : List (Cond D)) (hr : Api.sub (eng cfg n) a b = .ok (r, cs))
    (hc : ∀ c ∈ cs, c.holds σ) : den σ r = some (x - y) := by
  have h : Vl σ (Api.sub (eng cfg n) a b) (x + -y) :=
    wp_bind (minus_vl (sound_eng hcfg n) hσ hb) fun m hm =>
      (sound_eng hcfg n).sum hσ (denSum_two ha hm)
  rw [sub_eq_add_neg]
  exact h r cs hr hc

omit hcfg hσ in
open ExprEx SymEx ValueEx in
example : Api.sub lib (sum [a, b]) b = .ok (a, []) := by krfl

/-- C02 for a * b. -/
theorem C02_mul_partial (a b : Expr D) (x y : ℝ) (ha : den σ a = some x) (hb : den σ b = some y)
    (r : Expr D) (cs : List (Cond D)) (hr : Api.mul (eng cfg n) a b = .ok (r, cs))
    (hc : ∀ c ∈ cs, c.holds σ) : den σ r = some (x * y) :=
  (sound_eng hcfg n).prod hσ (denProd_two ha hb) r cs hr hc

omit hcfg hσ in
open ExprEx SymEx ValueEx in
example : Api.mul lib (prod [int 2, a]) (pow a (int (-3))) = .ok (prod [int 2, pow a (int (-2))], []) := by
  krfl

/-- C02 for products of any number of operands. -/
theorem C02_prod_partial (l : List (Expr D)) (xs : List ℝ)
    (hl : List.Forall₂ (fun a x => den σ a = some x) l xs)
    (r : Expr D) (cs : List (Cond D)) (hr : (eng cfg n).prodCreate l = .ok (r, cs))
    (hc : ∀ c ∈ cs, c.holds σ) : den σ r = some xs.prod := by
  refine (sound_eng hcfg n).prod hσ ?_ r cs hr hc
  clear hr
  induction hl with
  | nil => rfl
  | cons h _ ih => exact denProd_cons.2 ⟨_, _, h, ih, by simp⟩

omit hcfg hσ in
open ExprEx SymEx ValueEx in
example : lib.prodCreate [b, int 2, pow b (int 2), a] = .ok (prod [int 2, a, pow b (int 3)], []) := by
  krfl

/-- C03 for a divisor that is not zero. -/
theorem C03_div_partial (a b : Expr D) (x y : ℝ) (ha : den σ a = some x) (hb : den σ b = some y)
    (hy : y ≠ 0) (r : Expr D) (cs : List (Cond D)) (hr : Api.div (eng cfg n) a b = .ok (r, cs))
    (hc : ∀ c ∈ cs, c.holds σ) : den σ r = some (x / y) := by
  have h : Vl σ (Api.div (eng cfg n) a b) (x * y⁻¹) :=
    wp_bind (oneOver_vl (sound_eng hcfg n) hσ hb hy) fun m hm =>
      (sound_eng hcfg n).prod hσ (denProd_two ha hm)
  rw [div_eq_mul_inv]
  exact h r cs hr hc

omit hcfg hσ in
open ExprEx SymEx ValueEx in
example : ∃ cs, Api.div lib a (prod [int 12, b]) = .ok (prod [ratE (1 / 12), a, pow b (int (-1))], cs) :=
  M.val_some (by krfl)

/-- C04 for pow. `Spec.pow x y` exists for x > 0; x = 0 and y > 0; x < 0 and an integer y. -/
theorem C04_pow_partial (b e : Expr D) (x y v : ℝ) (hb : den σ b = some x) (he : den σ e = some y)
    (hv : Spec.pow x y = some v) (r : Expr D) (cs : List (Cond D))
    (hr : Api.pow (eng cfg n) b e = .ok (r, cs)) (hc : ∀ c ∈ cs, c.holds σ) : den σ r = some v :=
  (sound_eng hcfg n).pow hσ hb he hv r cs hr hc

omit hcfg hσ in
open ExprEx SymEx ValueEx in
example : ∃ cs, Api.pow lib (prod [int 12, pow a (int 2)]) (int 2) = .ok (prod [int 144, pow a (int 4)], cs) :=
  M.val_some (by krfl)

/-- C04 for sqrt. -/
theorem C04_sqrt_partial (b : Expr D) (x : ℝ) (hb : den σ b = some x) (hx : 0 ≤ x)
    (r : Expr D) (cs : List (Cond D)) (hr : Api.sqrt (eng cfg n) b = .ok (r, cs))
    (hc : ∀ c ∈ cs, c.holds σ) : den σ r = some (Real.sqrt x) :=
  (sound_eng hcfg n).pow hσ hb den_half (Spec.pow_half hx) r cs hr hc

omit hcfg hσ in
open ExprEx SymEx ValueEx in
example : ∃ cs, Api.sqrt lib (int 12) = .ok (prod [int 2, pow (int 3) (ratE (1 / 2))], cs) :=
  M.val_some (by krfl)

/-- C05. -/
theorem C05_log_partial (a : Expr D) (x : ℝ) (ha : den σ a = some x) (hx : 0 < x)
    (r : Expr D) (cs : List (Cond D)) (hr : Api.log (eng cfg n) a = .ok (r, cs))
    (hc : ∀ c ∈ cs, c.holds σ) : den σ r = some (Real.log x) :=
  (sound_eng hcfg n).log hσ ha (by simp [Spec.log, hx]) r cs hr hc

omit hcfg hσ in
open ExprEx SymEx ValueEx in
example : ∃ cs, Api.log lib (pow a b) = .ok (prod [b, fn .log a], cs) ∧ ∀ c ∈ cs, c.holds (all 3) := by
  refine ⟨[.pos a], by krfl, ?_⟩
  simp [Cond.holds, all]

/-- C06. `Spec.fn f x` exists where the real function does, and is the principal value. -/
theorem C06_trig_partial (f : Fn) (hf : f ≠ .log) (a : Expr D) (x v : ℝ) (ha : den σ a = some x)
    (hv : Spec.fn f x = some v) (r : Expr D) (cs : List (Cond D))
    (hr : Api.trig (eng cfg n) f a = .ok (r, cs)) (hc : ∀ c ∈ cs, c.holds σ) : den σ r = some v :=
  (sound_eng hcfg n).trig hσ hf ha hv r cs hr hc

omit hcfg hσ in
open ExprEx SymEx ValueEx in
example : Api.trig lib .sin (fn .asin (sum [a, b])) = .ok (sum [a, b], []) := by krfl

/-- C07 for the principal value: the angle of the complex number x + i*y. -/
theorem C07_atan2_partial (b a : Expr D) (y x : ℝ) (hb : den σ b = some y) (ha : den σ a = some x)
    (h0 : ¬ (x = 0 ∧ y = 0)) (r : Expr D) (cs : List (Cond D))
    (hr : Api.atan2 (eng cfg n) b a = .ok (r, cs)) (hc : ∀ c ∈ cs, c.holds σ) :
    den σ r = some (Complex.arg ⟨x, y⟩) :=
  (sound_eng hcfg n).atan2 hσ hb ha (by simp [Spec.atan2, h0]) r cs hr hc

omit hcfg hσ in
open ExprEx SymEx ValueEx in
example : Api.atan2 lib a b = .ok (.atan2 a b, []) := by krfl

/-- C08. -/
theorem C08_expand_partial (a : Expr D) (x : ℝ) (ha : den σ a = some x)
    (r : Expr D) (cs : List (Cond D)) (hr : Api.expand (eng cfg n) a = .ok (r, cs))
    (hc : ∀ c ∈ cs, c.holds σ) : den σ r = some x :=
  (sound_eng hcfg n).expand hσ ha r cs hr hc

omit hcfg hσ in
open ExprEx SymEx ValueEx in
example : ∃ cs, Api.expand lib (pow (sum [a, b]) (int 2)) =
    .ok (sum [pow a (int 2), prod [int 2, a, b], pow b (int 2)], cs) := M.val_some (by krfl)

/-- C09 for the normal form. -/
theorem C09_normal_partial (a : Expr D) (x : ℝ) (ha : den σ a = some x)
    (r : Expr D) (cs : List (Cond D)) (hr : (eng cfg n).normal a = .ok (r, cs))
    (hc : ∀ c ∈ cs, c.holds σ) : den σ r = some x :=
  (sound_eng hcfg n).normal hσ ha r cs hr hc

omit hcfg hσ in
open ExprEx SymEx ValueEx in
example : ∃ cs, lib.normal (sum [pow a (int (-1)), pow b (int (-1))]) =
    .ok (prod [pow a (int (-1)), pow b (int (-1)), sum [a, b]], cs) := M.val_some (by krfl)

/-- C09 for simplify. -/
theorem C09_simplify_partial (a : Expr D) (x : ℝ) (ha : den σ a = some x)
    (r : Expr D) (cs : List (Cond D)) (hr : Api.simplify (eng cfg n) a = .ok (r, cs))
    (hc : ∀ c ∈ cs, c.holds σ) : den σ r = some x :=
  Api.simplify_vl (sound_eng hcfg n) hσ ha r cs hr hc

omit hcfg hσ in
open ExprEx SymEx ValueEx in
example : ∃ cs, Api.simplify lib (prod [pow (sum [int 1, a]) (int (-1)),
    sum [int 1, prod [int 2, a], pow a (int 2)]]) = .ok (sum [int 1, a], cs) := M.val_some (by krfl)

/-- C10. -/
theorem C10_subst_partial (a t : Expr D) (x : Sym) (v y : ℝ) (ht : den σ t = some v)
    (ha : den (Function.update σ x v) a = some y)
    (r : Expr D) (cs : List (Cond D)) (hr : Api.subst (eng cfg n) a (.sym x) t = .ok (r, cs))
    (hc : ∀ c ∈ cs, c.holds σ) : den σ r = some y := by
  refine (sound_eng hcfg n).subst hσ (σ' := Function.update σ x v) (fun z hz => ?_) (fun w hw => ?_) ha
    r cs hr hc
  · have : z ≠ x := by
      rintro rfl
      simp [isEqual] at hz
    simp [Function.update_of_ne this]
  · simp only [den_sym, Function.update_self] at hw
    rw [ht]; exact hw

omit hcfg hσ in
open ExprEx SymEx ValueEx in
example : ∃ cs, Api.subst lib (sum [a, pow a b]) a (int 2) = .ok (sum [int 2, pow (int 2) b], cs) :=
  M.val_some (by krfl)

/-- C10 for replacing any expression: where `x` and `t` have the same value, or `x` none, the value
stays. -/
theorem C10_subst_expression_partial (a x t : Expr D) (y : ℝ)
    (hx : ∀ w, den σ x = some w → den σ t = some w) (ha : den σ a = some y)
    (r : Expr D) (cs : List (Cond D)) (hr : Api.subst (eng cfg n) a x t = .ok (r, cs))
    (hc : ∀ c ∈ cs, c.holds σ) : den σ r = some y :=
  (sound_eng hcfg n).subst hσ (σ' := σ) (fun _ _ => rfl) hx ha r cs hr hc

omit hcfg hσ in
open ExprEx SymEx ValueEx in
example : ∃ cs, Api.subst lib (sum [a, fn .sin (pow a b)]) (pow a b) c = .ok (sum [a, fn .sin c], cs) :=
  M.val_some (by krfl)

/-- C17 for isPositive. -/
theorem C17_isPositive_partial (a : Expr D) (x : ℝ) (ha : den σ a = some x) (cs : List (Cond D))
    (hr : Api.isPositive (eng cfg n) a = .ok (true, cs)) (hc : ∀ c ∈ cs, c.holds σ) : 0 ≤ x :=
  (sound_eng hcfg n).isPos hσ ha true cs hr hc rfl

omit hcfg hσ in
open ExprEx SymEx ValueEx in
example : Api.isPositive lib (pow (sum [int 1, a]) (int 4)) = .ok (true, []) := by krfl

/-- C17 for isNegative. -/
theorem C17_isNegative_partial (a : Expr D) (x : ℝ) (ha : den σ a = some x) (cs : List (Cond D))
    (hr : Api.isNegative (eng cfg n) a = .ok (true, cs)) (hc : ∀ c ∈ cs, c.holds σ) : x ≤ 0 :=
  (sound_eng hcfg n).isNeg hσ ha true cs hr hc rfl

omit hcfg hσ in
open ExprEx SymEx ValueEx in
example : Api.isNegative lib (prod [int (-3), pow a (int 4)]) = .ok (true, []) := by krfl

/-- C41 for division: unless the input is no polynomial (the remainder is Undefined then), the
quotient and the remainder satisfy u = q*v + r. -/
theorem C41_divide_partial (u v : Expr D) (x y : ℝ) (hu : den σ u = some x) (hv : den σ v = some y)
    (q r : Expr D) (cs : List (Cond D)) (hr : polyDivide (eng cfg n) u v = .ok ((q, r), cs))
    (hc : ∀ c ∈ cs, c.holds σ) (hdef : r ≠ .undef) :
    ∃ a b, den σ q = some a ∧ den σ r = some b ∧ x = a * y + b :=
  (polyDivide_wp (sound_eng hcfg n) hσ hu hv (q, r) cs hr hc).resolve_left hdef

omit hcfg hσ in
open ExprEx SymEx ValueEx in
example : ∃ cs, polyDivide lib (sum [int 1, prod [int 2, a], pow a (int 2)]) (sum [int 1, a]) =
    .ok ((sum [int 1, a], int 0), cs) := M.val_some (by krfl)

/-- C43. Where the expression has a value, the numerator and the denominator have values, the one
of the denominator is not zero, and the quotient is the value of the expression. -/
theorem C43_fraction_partial (a : Expr D) (x : ℝ) (ha : den σ a = some x) (p q : Expr D)
    (cs ds : List (Cond D)) (hp : Api.numerator (eng cfg n) a = .ok (p, cs))
    (hq : Api.denominator (eng cfg n) a = .ok (q, ds)) (hc : ∀ c ∈ cs, c.holds σ) :
    ∃ y z, den σ p = some y ∧ den σ q = some z ∧ z ≠ 0 ∧ x = y / z := by
  obtain ⟨f, c1, c2, h1, h2, rfl⟩ := M.bind_ok.1 hp
  obtain ⟨g, d1, d2, h3, h4, rfl⟩ := M.bind_ok.1 hq
  cases h2
  cases h4
  rw [h1] at h3
  cases h3
  exact Api.normalToFraction_wp (sound_eng hcfg n) hσ ha f c1 h1 fun c h => hc c (by simp [h])

omit hcfg hσ in
open ExprEx SymEx ValueEx in
example : (∃ cs, Api.numerator lib (sum [a, pow b (int (-1))]) = .ok (sum [int 1, prod [a, b]], cs)) ∧
    ∃ cs, Api.denominator lib (sum [a, pow b (int (-1))]) = .ok (b, cs) :=
  ⟨M.val_some (by krfl), M.val_some (by krfl)⟩

end

/-! ## C44 -/

/-- `b` is the result of normalising `a` any number of times. -/
inductive Normalised (E : Eng D) : Expr D → Expr D → Prop where
  | refl (a : Expr D) : Normalised E a a
  | step {a b c : Expr D} {cs : List (Cond D)} : Normalised E a b → E.normal b = .ok (c, cs) →
      Normalised E a c

omit [LawfulFlt D] in
theorem normalLoop_normalised (E : Eng D) {a : Expr D} (k : Nat) {last next n : Expr D}
    {cs ds : List (Cond D)} (hl : Normalised E a last) (hn : E.normal last = .ok (next, ds))
    (h : M.loop k (fun s : Expr D × Expr D => if isEqual s.2 s.1 then pure (.inr s.2)
      else (do
        let n ← E.normal s.2
        pure (.inl (s.2, n)))) (last, next) = .ok (n, cs)) :
    ∃ l es, Normalised E a l ∧ E.normal l = .ok (n, es) ∧ isEqual n l = true := by
  induction k generalizing last next cs ds with
  | zero => cases h
  | succ k ih =>
    obtain ⟨r, c1, c2, h1, h2, rfl⟩ := M.bind_ok.1 h
    by_cases he : isEqual next last = true
    · simp only [he, if_true] at h1
      cases h1
      cases h2
      exact ⟨last, ds, hl, hn, he⟩
    · simp only [he] at h1
      obtain ⟨m, d1, d2, h3, h4, rfl⟩ := M.bind_ok.1 h1
      cases h4
      exact ih (hl.step hn) h3 h2

omit [LawfulFlt D] in
/-- C44. Unless the normal form is Undefined, simplify normalises until the result is equal to what was
normalised; the result is this normal form, the expansion of it or the expansion of the argument,
and none of the three has a smaller complexity. -/
theorem C44_simplify (E : Eng D) (a r : Expr D) (cs : List (Cond D))
    (h : Api.simplify E a = .ok (r, cs)) :
    (r = .undef ∧ ∃ ds, E.normal a = .ok (r, ds)) ∨
    ∃ x n y l, (∃ ds, E.expand a = .ok (x, ds)) ∧ Normalised E a l ∧
      (∃ ds, E.normal l = .ok (n, ds)) ∧ isEqual n l = true ∧ (∃ ds, E.expand n = .ok (y, ds)) ∧
      (r = x ∨ r = n ∨ r = y) ∧ Api.complexity r ≤ Api.complexity x ∧
      Api.complexity r ≤ Api.complexity n ∧ Api.complexity r ≤ Api.complexity y := by
  obtain ⟨x, c1, c2, h1, h2, rfl⟩ := M.bind_ok.1 h
  obtain ⟨n, c3, c4, h3, h4, rfl⟩ := M.bind_ok.1 h2
  by_cases hu : isUndefined n = true
  · simp only [hu, if_true] at h4
    cases h4
    refine .inl ⟨?_, _, h3⟩
    cases r <;> first | rfl | cases hu
  · simp only [hu] at h4
    obtain ⟨m, c5, c6, h5, h6, rfl⟩ := M.bind_ok.1 h4
    obtain ⟨y, c7, c8, h7, h8, rfl⟩ := M.bind_ok.1 h6
    cases h8
    obtain ⟨l, es, hl, hn, he⟩ := normalLoop_normalised E _ (.refl a) h3 h5
    refine .inr ⟨x, m, y, l, ⟨_, h1⟩, hl, ⟨_, hn⟩, he, ⟨_, h7⟩, ?_⟩
    unfold Api.simplest
    by_cases h1 : Api.complexity y < Api.complexity x <;> simp only [h1, if_true, if_false] <;>
      split <;> refine ⟨by simp, ?_, ?_, ?_⟩ <;> omega

open ExprEx SymEx in
example : ∃ cs, Api.simplify lib (sum [pow a (int (-1)), pow b (int (-1))]) =
    .ok (sum [pow a (int (-1)), pow b (int (-1))], cs) := M.val_some (by krfl)

/-! ## The claims without conditions are false -/

namespace ValueEx

open ExprEx SymEx

/-- C02 is false: 2^(2/5) * 3^(4/5) gives 6^(2/5). -/
theorem C02_false :
    (∃ cs, Api.mul lib (pow (int 2) (ratE (2 / 5))) (pow (int 3) (ratE (4 / 5))) =
      .ok (pow (int 6) (ratE (2 / 5)), cs)) ∧
    (2 : ℝ) ^ (2 / 5 : ℝ) * (3 : ℝ) ^ (4 / 5 : ℝ) ≠ (6 : ℝ) ^ (2 / 5 : ℝ) := by
  refine ⟨M.val_some (by krfl), fun h => ?_⟩
  have h2 := congrArg (fun x : ℝ => x ^ (5 : ℝ)) h
  rw [Real.mul_rpow (by positivity) (by positivity), ← Real.rpow_mul (by norm_num),
    ← Real.rpow_mul (by norm_num), ← Real.rpow_mul (by norm_num)] at h2
  norm_num at h2

/-- C02 is false: the product tan(a) * (1/tan(a)) takes the first element of an empty list. -/
theorem C02_undefined_behaviour :
    Api.mul lib (fn .tan a) (pow (fn .tan a) (int (-1))) = .error .ub := by krfl

/-- C03 is false: a/324 gives a/36. -/
theorem C03_false (σ : Asg) (h : σ ⟨.named ⟨['a'], [], []⟩, false⟩ = 1) :
    ∃ r cs, Api.div lib a (int 324) = .ok (r, cs) ∧ den σ r = some (1 / 36) := by
  obtain ⟨cs, hcs⟩ := M.val_some (m := Api.div lib a (int 324)) (r := prod [ratE (1 / 36), a]) (by krfl)
  refine ⟨_, cs, hcs, ?_⟩
  simp [denProd, h]

/-- C03 is false: cos(a)/sin(a) gives 1/tan(a), which has no value for a = π/2. -/
theorem C03_false_tan :
    (∃ cs, Api.div lib (fn .cos a) (fn .sin a) = .ok (pow (fn .tan a) (int (-1)), cs)) ∧
    den (all (Real.pi / 2)) (fn .cos a) = some 0 ∧ den (all (Real.pi / 2)) (fn .sin a) = some 1 ∧
    den (all (Real.pi / 2)) (pow (fn .tan a) (int (-1))) = none := by
  refine ⟨M.val_some (by krfl), ?_, ?_, ?_⟩
  · simp [den_fn, all, Spec.fn]
  · simp [den_fn, all, Spec.fn]
  · simp [den, all, Spec.fn, Spec.tan]

/-- C04 is false: 324^2 gives 1296. -/
theorem C04_false :
    (∃ cs, Api.pow lib (int 324) (int 2) = .ok (int 1296, cs)) ∧ (324 : ℝ) ^ (2 : ℝ) ≠ 1296 :=
  ⟨M.val_some (by krfl), by norm_num⟩

/-- C04 is false: sqrt(-a^2) gives Undefined, although the root exists for a = 0. -/
theorem C04_false_sqrt :
    (∃ cs, Api.sqrt lib (prod [int (-1), pow a (int 2)]) = .ok (.undef, cs)) ∧
    den (all 0) (prod [int (-1), pow a (int 2)]) = some 0 := by
  refine ⟨M.val_some (by krfl), ?_⟩
  have : Spec.pow 0 (2 : ℝ) = some 0 := by
    rw [Spec.pow_two']; simp
  simp [denProd, den, all, this]

/-- C05 is false: log(a^2) gives 2*log(a), which has no value for a = -1. -/
theorem C05_false :
    (∃ cs, Api.log lib (pow a (int 2)) = .ok (prod [int 2, fn .log a], cs)) ∧
    den (all (-1)) (pow a (int 2)) = some 1 ∧ den (all (-1)) (prod [int 2, fn .log a]) = none := by
  refine ⟨M.val_some (by krfl), ?_, ?_⟩
  · have : Spec.pow (-1) (2 : ℝ) = some 1 := by
      rw [Spec.pow_two']; simp
    simp [den, all, this]
  · simp [denProd, den, all, Spec.fn, Spec.log]

/-- C06 is false: the arcus tangent of the double -1/3 is by 2*pi too large. -/
theorem C06_false :
    ∃ r cs, Api.trig lib .atan (num (.dbl (.q (-1 / 3)))) = .ok (r, cs) ∧
      den (all 0) r = some (2 * Real.pi + Real.arctan (-1 / 3)) := by
  obtain ⟨cs, h⟩ := M.val_some (m := Api.trig lib .atan (num (.dbl (.q (-1 / 3)))))
    (r := num (.dbl (Flt.add (Flt.mul (Flt.ofRat 2) Flt.pi) (Flt.atan (.q (-1 / 3)))))) (by krfl)
  refine ⟨_, cs, h, ?_⟩
  simp [LawfulFlt.add, LawfulFlt.mul, LawfulFlt.ofRat, LawfulFlt.pi, LawfulFlt.atan]
  show ((-1 / 3 : ℚ) : ℝ) = -1 / 3
  norm_num

/-- C07 is false: atan2(2, -1) gives -atan(2), whose cosine is positive, while x is negative. -/
theorem C07_false :
    (∃ cs, Api.atan2 lib (int 2) (int (-1)) = .ok (prod [int (-1), fn .atan (int 2)], cs)) ∧
    ∃ v, den (all 0) (prod [int (-1), fn .atan (int 2)] : Expr Hyb) = some v ∧ 0 < Real.cos v := by
  refine ⟨M.val_some (by krfl), (-Real.arctan 2 : ℝ), ?_, ?_⟩
  · simp [denProd, den, Spec.fn]
  · rw [Real.cos_neg]
    exact Real.cos_arctan_pos 2

/-- (s-1)*(2+s)*(a+b)*c with s = 2^(1/2); Product::create leaves it as it is. -/
def nested : Expr Hyb :=
  prod [sum [int (-1), pow (int 2) (ratE (1 / 2))], sum [int 2, pow (int 2) (ratE (1 / 2))], sum [a, b], c]

/-- C08 is false: with s = 2^(1/2), the expansion of (s-1)*(2+s)*(a+b)*c is 5/2*a*c + 5/2*b*c, but
(s-1)*(2+s) is s. -/
theorem C08_false :
    (∃ cs, lib.prodCreate [sum [int (-1), pow (int 2) (ratE (1 / 2))],
      sum [int 2, pow (int 2) (ratE (1 / 2))], sum [a, b], c] = .ok (nested, cs)) ∧
    (∃ cs, Api.expand lib nested =
      .ok (sum [prod [ratE (5 / 2), a, c], prod [ratE (5 / 2), b, c]], cs)) ∧
    den (all 1) nested = some (2 * Real.sqrt 2) ∧
    den (all 1) (sum [prod [ratE (5 / 2), a, c], prod [ratE (5 / 2), b, c]]) = some 5 := by
  refine ⟨M.val_some (by krfl), M.val_some (by krfl), ?_, ?_⟩
  · have h : den (all 1) (pow (int 2) (ratE (1 / 2)) : Expr Hyb) = some (Real.sqrt 2) :=
      den_pow.2 ⟨2, 1 / 2, by simp, by simp, Spec.pow_half (by norm_num)⟩
    have h2 : Real.sqrt 2 * Real.sqrt 2 = 2 := Real.mul_self_sqrt (by norm_num)
    simp only [nested, den_prod, denProd, den_sum, denSum, h, den_int, den_a, den_b, den_c, all,
      Option.bind_some, Option.some.injEq]
    push_cast
    linear_combination 2 * h2
  · simp [denProd, denSum, all]

/-- C09 is false: the normal form of (a/b)^(1/2) is a^(1/2)*b^(-1/2). It has no value for a = b = -1,
although a/b is one there and nothing has been cancelled. -/
theorem C09_false :
    (∃ cs, lib.normal (pow (prod [a, pow b (int (-1))]) (ratE (1 / 2))) =
      .ok (prod [pow a (ratE (1 / 2)), pow b (ratE (-1 / 2))], cs)) ∧
    den (all (-1)) (pow (prod [a, pow b (int (-1))]) (ratE (1 / 2))) = some 1 ∧
    den (all (-1)) (prod [pow a (ratE (1 / 2)), pow b (ratE (-1 / 2))]) = none := by
  refine ⟨M.val_some (by krfl), ?_, ?_⟩
  · refine den_pow.2 ⟨1, 1 / 2, ?_, by simp, by rw [Spec.pow_half (by norm_num), Real.sqrt_one]⟩
    have : Spec.pow (-1) (-1 : ℝ) = some (-1) := by
      rw [Spec.pow_neg_one (by norm_num)]; norm_num
    simp [denProd, den, all, this]
  · have : ∀ n : ℤ, (1 / 2 : ℝ) ≠ n := by
      intro n h
      have h2 : ((1 : ℤ) : ℝ) = ((2 * n : ℤ) : ℝ) := by push_cast; linarith
      have : (1 : ℤ) = 2 * n := by exact_mod_cast h2
      omega
    have h : Spec.pow (-1) (1 / 2 : ℝ) = none := by
      unfold Spec.pow
      rw [if_neg]
      rintro (h | h | ⟨-, n, h⟩)
      · linarith
      · linarith [h.1]
      · exact this n h
    have h2 : den (all (-1)) (pow a (ratE (1 / 2)) : Expr Hyb) = none := by
      simp only [den, den_a, den_ratE, all, Option.bind_some]
      push_cast
      exact h
    simp only [den_prod, denProd, h2, Option.bind_none]

/-- C10 is false: replacing a in a^(1/5) by 324 gives 6^(2/5). -/
theorem C10_false :
    (∃ cs, Api.subst lib (pow a (ratE (1 / 5))) a (int 324) = .ok (pow (int 6) (ratE (2 / 5)), cs)) ∧
    (324 : ℝ) ^ (1 / 5 : ℝ) ≠ (6 : ℝ) ^ (2 / 5 : ℝ) :=
  ⟨M.val_some (by krfl), fun h => C19_false.2 (by rw [h, one_mul])⟩

/-- C18 is false: a^2 is called positive, but it is zero for a = 0. -/
theorem C18_false :
    Api.isPositive lib (pow a (int 2)) = .ok (true, []) ∧ den (all 0) (pow a (int 2)) = some 0 := by
  refine ⟨by krfl, ?_⟩
  have : Spec.pow 0 (2 : ℝ) = some 0 := by
    rw [Spec.pow_two']; simp
  simp [den, all, this]

end ValueEx

end Tsym
