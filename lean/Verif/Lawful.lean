import Verif.Number
import Verif.Spec

/-!
# Exact arithmetic as an idealisation of the floating point unit

`LawfulFlt D` says that the floating point operations are exact: doubles have a real value and the
operations compute with these values. Value theorems about the library assume it, so they say what
is true of the library apart from rounding. The instance for `ℝ` shows that the assumption can be
met.
-/

namespace Tsym

/-- The floating point unit computes exactly: every operation has the value of the real operation. -/
class LawfulFlt (D : Type) [Flt D] where
  val : D → ℝ
  ofRat : ∀ q, val (Flt.ofRat q) = q
  add : ∀ x y, val (Flt.add x y) = val x + val y
  mul : ∀ x y, val (Flt.mul x y) = val x * val y
  neg : ∀ x, val (Flt.neg x) = - val x
  pow : ∀ x y, 0 < val x → val (Flt.pow x y) = val x ^ val y
  recip : ∀ n : ℤ, 0 < n → val (Flt.recip n) = 1 / (n : ℝ)
  lt : ∀ x y, Flt.lt x y = true ↔ val x < val y
  near : ∀ x y, Flt.near x y = true ↔ val x = val y
  toFrac : ∀ x q, Flt.toFrac x = some q → val x = q
  sin : ∀ x, val (Flt.sin x) = Real.sin (val x)
  cos : ∀ x, val (Flt.cos x) = Real.cos (val x)
  tan : ∀ x, Real.cos (val x) ≠ 0 → val (Flt.tan x) = Real.tan (val x)
  asin : ∀ x, -1 ≤ val x → val x ≤ 1 → val (Flt.asin x) = Real.arcsin (val x)
  acos : ∀ x, -1 ≤ val x → val x ≤ 1 → val (Flt.acos x) = Real.arccos (val x)
  atan : ∀ x, val (Flt.atan x) = Real.arctan (val x)
  atan2 : ∀ y x, ¬ (val x = 0 ∧ val y = 0) → val (Flt.atan2 y x) = Complex.arg ⟨val x, val y⟩
  log : ∀ x, 0 < val x → val (Flt.log x) = Real.log (val x)
  pi : val Flt.pi = Real.pi
  e : val Flt.e = Real.exp 1

open Classical in
/-- The real numbers as an (ideal) floating point unit. -/
noncomputable instance realFlt : Flt ℝ where
  ofRat q := q
  add x y := x + y
  mul x y := x * y
  neg x := -x
  pow x y := x ^ y
  recip n := 1 / (n : ℝ)
  lt x y := decide (x < y)
  near x y := decide (x = y)
  toFrac x := if h : ∃ n : ℤ, x * 10000 = n then some (h.choose / 10000) else none
  rootGuess n d := some ⌊(n : ℝ) ^ (1 / (d : ℝ)) + 1 / 10⌋₊
  sin := Real.sin
  cos := Real.cos
  tan := Real.tan
  asin := Real.arcsin
  acos := Real.arccos
  atan := Real.arctan
  atan2 y x := Complex.arg ⟨x, y⟩
  log := Real.log
  pi := Real.pi
  e := Real.exp 1

noncomputable instance realLawful : LawfulFlt ℝ where
  val x := x
  ofRat _ := rfl
  add _ _ := rfl
  mul _ _ := rfl
  neg _ := rfl
  pow _ _ _ := rfl
  recip _ _ := rfl
  lt x y := by simp [Flt.lt]
  near x y := by simp [Flt.near]
  toFrac x q h := by
    simp only [Flt.toFrac] at h
    split at h
    · rename_i hx
      have := hx.choose_spec
      simp only [Option.some.injEq] at h
      subst h
      push_cast
      linarith
    · simp at h
  sin _ := rfl
  cos _ := rfl
  tan _ _ := rfl
  asin _ _ _ := rfl
  acos _ _ _ := rfl
  atan _ := rfl
  atan2 _ _ _ := rfl
  log _ _ := rfl
  pi := rfl
  e := rfl

namespace Number

variable {D : Type} [Flt D] [LawfulFlt D]

/-- The real value of a number. -/
noncomputable def val : Number D → ℝ
  | rat q => q
  | dbl d => LawfulFlt.val d

@[simp] theorem val_rat (q : ℚ) : (rat q : Number D).val = q := rfl

@[simp] theorem val_dbl (d : D) : (dbl d : Number D).val = LawfulFlt.val d := rfl

@[simp] theorem val_zero : (0 : Number D).val = 0 := by
  show ((Nat.cast 0 : ℚ) : ℝ) = 0; simp

@[simp] theorem val_one : (1 : Number D).val = 1 := by
  show ((Nat.cast 1 : ℚ) : ℝ) = 1; simp

@[simp] theorem val_ofNat (n : Nat) : (OfNat.ofNat n : Number D).val = n := by
  show ((Nat.cast n : ℚ) : ℝ) = n; simp

@[simp] theorem val_toDouble (n : Number D) : LawfulFlt.val n.toDouble = n.val := by
  cases n <;> simp [toDouble, val, LawfulFlt.ofRat]

@[simp] theorem val_ofDouble (d : D) : (ofDouble d).val = LawfulFlt.val d := by
  unfold ofDouble
  split
  · rename_i q h; simp [LawfulFlt.toFrac d q h]
  · rfl

@[simp] theorem val_add (a b : Number D) : (a.add b).val = a.val + b.val := by
  cases a <;> cases b <;> simp [add, LawfulFlt.add, toDouble, LawfulFlt.ofRat]

@[simp] theorem val_mul (a b : Number D) : (a.mul b).val = a.val * b.val := by
  cases a <;> cases b <;> simp [mul, LawfulFlt.mul, toDouble, LawfulFlt.ofRat]

@[simp] theorem val_neg (a : Number D) : a.neg.val = - a.val := by
  cases a <;> simp [neg, LawfulFlt.neg]

@[simp] theorem val_sub (a b : Number D) : (a.sub b).val = a.val - b.val := by
  simp [sub, sub_eq_add_neg]

theorem lt_iff (a b : Number D) : a.lt b = true ↔ a.val < b.val := by
  simp [lt, LawfulFlt.lt]

theorem eqv_iff (a b : Number D) : a.eqv b = true ↔ a.val = b.val := by
  cases a <;> cases b
  · simp only [eqv, Bool.and_eq_true, beq_iff_eq, val_rat, Rat.cast_inj]
    exact ⟨fun h => Rat.ext h.1 h.2, fun h => by simp [h]⟩
  all_goals simp [eqv, LawfulFlt.near, toDouble, LawfulFlt.ofRat, val]

theorem lt_false (a b : Number D) : a.lt b = false ↔ b.val ≤ a.val := by
  rw [← not_lt, ← lt_iff]; simp

theorem eqv_false (a b : Number D) : a.eqv b = false ↔ a.val ≠ b.val := by
  rw [Ne, ← eqv_iff]; simp

@[simp] theorem val_abs (a : Number D) : a.abs.val = |a.val| := by
  unfold abs
  split
  · rename_i h; rw [lt_iff] at h; simp at h; simp [abs_of_neg h]
  · rename_i h; rw [lt_iff] at h; simp at h; simp [abs_of_nonneg h]

theorem val_of_isInt (n : Number D) (h : n.isInt = true) : n.val = (n.numerator : ℤ) := by
  cases n with
  | rat q =>
    simp only [isInt, isRational, denominator, Bool.true_and, beq_iff_eq] at h
    have h1 : q.den = 1 := by exact_mod_cast h
    simp only [val_rat, numerator]
    conv_lhs => rw [← Rat.num_div_den q]
    simp [h1]
  | dbl d => simp [isInt, isRational] at h

end Number

end Tsym
