import Verif.Lawful
import Mathlib.Analysis.Real.Pi.Bounds
import Mathlib.Analysis.Complex.ExponentialBounds
import Mathlib.Analysis.SpecialFunctions.Trigonometric.Arctan

/-!
# A lawful floating point unit that the kernel can run

Same values as the instance for `ℝ`, but rational values are kept as rationals, and a real value may
carry rational bounds, so that the kernel can evaluate comparisons. Used in the examples that show
that hypotheses of theorems can be met and in the witnesses of wrong results.
-/

set_option autoImplicit false

namespace Tsym

/-- Rational bounds of a real number. -/
abbrev Bounds (x : ℝ) := {p : ℚ × ℚ // (p.1 : ℝ) ≤ x ∧ x ≤ p.2}

/-- A rational, or a real number. -/
inductive Hyb where
  | q (x : ℚ)
  | r (x : ℝ) (b : Option (Bounds x))

namespace Hyb

/-- The real number. -/
noncomputable def val : Hyb → ℝ
  | q x => x
  | r x _ => x

/-- The bounds of a value. -/
def bounds : (x : Hyb) → Option (Bounds x.val)
  | q x => some ⟨(x, x), le_refl _, le_refl _⟩
  | r _ b => b

open Classical in
/-- Exact comparison. -/
noncomputable def lt : Hyb → Hyb → Bool
  | q x, q y => decide (x < y)
  | x, y => match x.bounds, y.bounds with
    | some ⟨p, _⟩, some ⟨s, _⟩ =>
      if p.2 < s.1 then true else if s.2 ≤ p.1 then false else decide (x.val < y.val)
    | _, _ => decide (x.val < y.val)

theorem lt_iff (x y : Hyb) : lt x y = true ↔ x.val < y.val := by
  have key : ∀ x y : Hyb, (match x.bounds, y.bounds with
    | some ⟨p, _⟩, some ⟨s, _⟩ =>
      if p.2 < s.1 then true else if s.2 ≤ p.1 then false else
        @decide (x.val < y.val) (Classical.propDecidable _)
    | _, _ => @decide (x.val < y.val) (Classical.propDecidable _)) = true ↔ x.val < y.val := by
    intro x y
    split
    · rename_i p hp s hs _ _
      split
      · rename_i h
        have : ((p.2 : ℚ) : ℝ) < s.1 := by exact_mod_cast h
        exact ⟨fun _ => by linarith [hp.2, hs.1], fun _ => rfl⟩
      · split
        · rename_i h
          have : ((s.2 : ℚ) : ℝ) ≤ p.1 := by exact_mod_cast h
          exact ⟨fun h => by simp at h, fun h => by linarith [hp.1, hs.2]⟩
        · exact decide_eq_true_iff
    · exact decide_eq_true_iff
  cases x with
  | q x =>
    cases y with
    | q y => simp [lt, val]
    | r y b => exact key _ _
  | r x a => exact key _ _

open Classical in
/-- The comparison with tolerance, here exact. -/
noncomputable def near : Hyb → Hyb → Bool
  | q x, q y => decide (x = y)
  | x, y => match x.bounds, y.bounds with
    | some ⟨p, _⟩, some ⟨s, _⟩ =>
      if p.2 < s.1 then false else if s.2 < p.1 then false else decide (x.val = y.val)
    | _, _ => decide (x.val = y.val)

theorem near_iff (x y : Hyb) : near x y = true ↔ x.val = y.val := by
  have key : ∀ x y : Hyb, (match x.bounds, y.bounds with
    | some ⟨p, _⟩, some ⟨s, _⟩ =>
      if p.2 < s.1 then false else if s.2 < p.1 then false else
        @decide (x.val = y.val) (Classical.propDecidable _)
    | _, _ => @decide (x.val = y.val) (Classical.propDecidable _)) = true ↔ x.val = y.val := by
    intro x y
    split
    · rename_i p hp s hs _ _
      split
      · rename_i h
        have : ((p.2 : ℚ) : ℝ) < s.1 := by exact_mod_cast h
        exact ⟨fun h => by simp at h, fun h => by linarith [hp.2, hs.1]⟩
      · split
        · rename_i h
          have : ((s.2 : ℚ) : ℝ) < p.1 := by exact_mod_cast h
          exact ⟨fun h => by simp at h, fun h => by linarith [hp.1, hs.2]⟩
        · exact decide_eq_true_iff
    · exact decide_eq_true_iff
  cases x with
  | q x =>
    cases y with
    | q y => simp [near, val]
    | r y b => exact key _ _
  | r x a => exact key _ _

/-- Sum of bounds. -/
def addBounds {x y : ℝ} : Option (Bounds x) → Option (Bounds y) → Option (Bounds (x + y))
  | some ⟨p, hp⟩, some ⟨s, hs⟩ => some ⟨(p.1 + s.1, p.2 + s.2), by
      push_cast
      exact ⟨add_le_add hp.1 hs.1, add_le_add hp.2 hs.2⟩⟩
  | _, _ => none

theorem mul_bounds {a b x y : ℝ} (h1 : a ≤ x) (h2 : x ≤ b) :
    min (a * y) (b * y) ≤ x * y ∧ x * y ≤ max (a * y) (b * y) := by
  rcases le_total 0 y with hy | hy
  · exact ⟨(min_le_left _ _).trans (mul_le_mul_of_nonneg_right h1 hy),
      (mul_le_mul_of_nonneg_right h2 hy).trans (le_max_right _ _)⟩
  · exact ⟨(min_le_right _ _).trans (mul_le_mul_of_nonpos_right h2 hy),
      (mul_le_mul_of_nonpos_right h1 hy).trans (le_max_left _ _)⟩

/-- Product of bounds. -/
def mulBounds {x y : ℝ} : Option (Bounds x) → Option (Bounds y) → Option (Bounds (x * y))
  | some ⟨p, hp⟩, some ⟨s, hs⟩ =>
    some ⟨(min (min (p.1 * s.1) (p.1 * s.2)) (min (p.2 * s.1) (p.2 * s.2)),
      max (max (p.1 * s.1) (p.1 * s.2)) (max (p.2 * s.1) (p.2 * s.2))), by
      push_cast
      have h := mul_bounds (y := y) hp.1 hp.2
      have h1 := mul_bounds (y := (p.1 : ℝ)) hs.1 hs.2
      have h2 := mul_bounds (y := (p.2 : ℝ)) hs.1 hs.2
      rw [mul_comm _ (p.1 : ℝ), mul_comm _ (p.1 : ℝ), mul_comm _ (p.1 : ℝ)] at h1
      rw [mul_comm _ (p.2 : ℝ), mul_comm _ (p.2 : ℝ), mul_comm _ (p.2 : ℝ)] at h2
      exact ⟨(min_le_min h1.1 h2.1).trans h.1, h.2.trans (max_le_max h1.2 h2.2)⟩⟩
  | _, _ => none

/-- Bounds of the opposite. -/
def negBounds {x : ℝ} : Option (Bounds x) → Option (Bounds (-x))
  | some ⟨p, hp⟩ => some ⟨(-p.2, -p.1), by
      push_cast
      exact ⟨neg_le_neg hp.2, neg_le_neg hp.1⟩⟩
  | none => none

/-- Addition; exact, on rationals computable. -/
noncomputable def add : Hyb → Hyb → Hyb
  | q x, q y => q (x + y)
  | x, y => r (x.val + y.val) (addBounds x.bounds y.bounds)

/-- Multiplication. -/
noncomputable def mul : Hyb → Hyb → Hyb
  | q x, q y => q (x * y)
  | x, y => r (x.val * y.val) (mulBounds x.bounds y.bounds)

/-- The negative. -/
noncomputable def neg : Hyb → Hyb
  | q x => q (-x)
  | r x b => r (-x) (negBounds b)

/-- The rational number, if it is one. -/
noncomputable def toFrac : Hyb → Option ℚ
  | q x => if (x * 10000).den = 1 then some x else none
  | r _ _ => none

/-- A root by search, for small numbers. -/
def rootGuess (n d : ℤ) : Option ℕ :=
  (List.range 1001).find? (fun k => decide ((k : ℤ) ^ d.toNat = n))

/-- Binary search for the largest `m` below `2^fuel` with `(m/1000)^n ≤ t`. -/
def rootSearch (t : ℚ) (n : ℕ) : ℕ → ℕ → ℕ
  | 0, m => m
  | k + 1, m => if (((m + 2 ^ k : ℕ) : ℚ) / 1000) ^ n ≤ t then rootSearch t n k (m + 2 ^ k)
      else rootSearch t n k m

/-- Bounds of `x ^ y` for a positive base. -/
def powBounds (x y : ℚ) : Option (Bounds ((x : ℝ) ^ (y : ℝ))) :=
  let t := x ^ y.num
  let m := rootSearch t y.den 20 0
  let lo : ℚ := (m : ℚ) / 1000
  let hi : ℚ := ((m + 1 : ℕ) : ℚ) / 1000
  if h : 0 < x ∧ 0 ≤ lo ∧ 0 ≤ hi ∧ lo ^ y.den ≤ t ∧ t ≤ hi ^ y.den then
    some ⟨(lo, hi), by
      obtain ⟨hx, hl, hh, h1, h2⟩ := h
      have hx' : (0 : ℝ) < x := by exact_mod_cast hx
      have hd : y.den ≠ 0 := y.den_nz
      have ht : ((x : ℝ) ^ (y : ℝ)) ^ y.den = ((t : ℚ) : ℝ) := by
        rw [← Real.rpow_natCast, ← Real.rpow_mul hx'.le]
        have : (y : ℝ) * (y.den : ℝ) = ((y.num : ℤ) : ℝ) := by
          exact_mod_cast Rat.mul_den_eq_num y
        rw [this, Real.rpow_intCast]
        simp [t]
      have h1' : ((lo : ℚ) : ℝ) ^ y.den ≤ ((t : ℚ) : ℝ) := by exact_mod_cast h1
      have h2' : ((t : ℚ) : ℝ) ≤ ((hi : ℚ) : ℝ) ^ y.den := by exact_mod_cast h2
      rw [← ht] at h1' h2'
      exact ⟨le_of_pow_le_pow_left₀ hd (Real.rpow_nonneg hx'.le _) h1',
        le_of_pow_le_pow_left₀ hd (by exact_mod_cast hh) h2'⟩⟩
  else none

/-- The power. -/
noncomputable def pow : Hyb → Hyb → Hyb
  | q x, q y => r ((x : ℝ) ^ (y : ℝ)) (powBounds x y)
  | x, y => r (x.val ^ y.val) none

/-- Bounds of the arcus tangent of a value that is not zero. -/
def atanBounds {x : ℝ} : Option (Bounds x) → Option (Bounds (Real.arctan x))
  | some ⟨p, hp⟩ =>
    if h : 0 < p.1 then
      some ⟨(p.1 / (1 + p.1), 158 / 100), by
        have h0 : (0 : ℝ) < p.1 := by exact_mod_cast h
        have hx : 0 < x := h0.trans_le hp.1
        constructor
        · have h1 : Real.sin (Real.arctan x) ≤ Real.arctan x :=
            Real.sin_le (Real.arctan_nonneg.2 hx.le)
          rw [Real.sin_arctan] at h1
          refine le_trans ?_ h1
          have h2 : Real.sqrt (1 + x ^ 2) ≤ 1 + x := by
            rw [Real.sqrt_le_left (by linarith)]
            nlinarith
          have h3 : (0 : ℝ) < Real.sqrt (1 + x ^ 2) := Real.sqrt_pos.2 (by positivity)
          push_cast
          calc (p.1 : ℝ) / (1 + p.1) ≤ x / (1 + x) := by
                rw [div_le_div_iff₀ (by linarith) (by linarith)]
                nlinarith [hp.1]
            _ ≤ x / Real.sqrt (1 + x ^ 2) := div_le_div_of_nonneg_left hx.le h3 h2
        · have := (Real.arctan_lt_pi_div_two x).le
          have := Real.pi_lt_d2
          push_cast
          linarith⟩
    else if h : p.2 < 0 then
      some ⟨(-(158 / 100), p.2 / (1 - p.2)), by
        have h0 : (p.2 : ℝ) < 0 := by exact_mod_cast h
        have hx : x < 0 := hp.2.trans_lt h0
        constructor
        · have := (Real.neg_pi_div_two_lt_arctan x).le
          have := Real.pi_lt_d2
          push_cast
          linarith
        · have h1 : Real.sin (Real.arctan (-x)) ≤ Real.arctan (-x) :=
            Real.sin_le (Real.arctan_nonneg.2 (by linarith))
          rw [Real.sin_arctan, Real.arctan_neg] at h1
          have h2 : Real.sqrt (1 + (-x) ^ 2) ≤ 1 - x := by
            rw [Real.sqrt_le_left (by linarith)]
            nlinarith
          have h3 : (0 : ℝ) < Real.sqrt (1 + (-x) ^ 2) := Real.sqrt_pos.2 (by positivity)
          have h4 : -x / (1 - x) ≤ -x / Real.sqrt (1 + (-x) ^ 2) :=
            div_le_div_of_nonneg_left (by linarith) h3 h2
          have h5 : -(p.2 : ℝ) / (1 - p.2) ≤ -x / (1 - x) := by
            rw [div_le_div_iff₀ (by linarith) (by linarith)]
            nlinarith [hp.2]
          push_cast
          have h6 : -(p.2 : ℝ) / (1 - p.2) = -((p.2 : ℝ) / (1 - p.2)) := neg_div _ _
          rw [h6] at h5
          linarith⟩
    else none
  | none => none

/-- Bounds of pi. -/
def piBounds : Option (Bounds Real.pi) :=
  some ⟨(3141592 / 1000000, 3141593 / 1000000), by
    have h1 := Real.pi_gt_d6
    have h2 := Real.pi_lt_d6
    push_cast
    constructor <;> linarith⟩

/-- Bounds of Euler's number. -/
def eBounds : Option (Bounds (Real.exp 1)) :=
  some ⟨(2718281 / 1000000, 2718283 / 1000000), by
    have h1 := Real.exp_one_gt_d9
    have h2 := Real.exp_one_lt_d9
    push_cast
    constructor <;> linarith⟩

/-- Bounds of a sine or cosine. -/
def unitBounds {x : ℝ} (h1 : -1 ≤ x) (h2 : x ≤ 1) : Option (Bounds x) :=
  some ⟨(-1, 1), by simpa using ⟨h1, h2⟩⟩

end Hyb

open Hyb in
noncomputable instance hybFlt : Flt Hyb where
  ofRat x := q x
  add := Hyb.add
  mul := Hyb.mul
  neg := Hyb.neg
  pow := Hyb.pow
  recip n := q (1 / (n : ℚ))
  lt := Hyb.lt
  near := Hyb.near
  toFrac := Hyb.toFrac
  rootGuess := Hyb.rootGuess
  sin x := r (Real.sin x.val) (unitBounds (Real.neg_one_le_sin _) (Real.sin_le_one _))
  cos x := r (Real.cos x.val) (unitBounds (Real.neg_one_le_cos _) (Real.cos_le_one _))
  tan x := r (Real.tan x.val) none
  asin x := r (Real.arcsin x.val) none
  acos x := r (Real.arccos x.val) none
  atan x := r (Real.arctan x.val) (atanBounds x.bounds)
  atan2 y x := r (Complex.arg ⟨x.val, y.val⟩) none
  log x := r (Real.log x.val) none
  pi := r Real.pi piBounds
  e := r (Real.exp 1) eBounds

noncomputable instance hybLawful : LawfulFlt Hyb where
  val := Hyb.val
  ofRat _ := rfl
  add x y := by cases x <;> cases y <;> simp [Flt.add, Hyb.add, Hyb.val]
  mul x y := by cases x <;> cases y <;> simp [Flt.mul, Hyb.mul, Hyb.val]
  neg x := by cases x <;> simp [Flt.neg, Hyb.neg, Hyb.val]
  pow x y _ := by cases x <;> cases y <;> rfl
  recip _ _ := by simp [Flt.recip, Hyb.val]
  lt := Hyb.lt_iff
  near := Hyb.near_iff
  toFrac x q h := by
    cases x with
    | q x =>
      simp only [Flt.toFrac, Hyb.toFrac] at h
      split at h
      · simp at h; subst h; rfl
      · cases h
    | r x => simp [Flt.toFrac, Hyb.toFrac] at h
  sin _ := rfl
  cos _ := rfl
  tan _ _ := rfl
  asin _ _ _ := rfl
  acos _ _ _ := rfl
  atan _ := rfl
  atan2 _ _ _ := rfl
  log _ _ := rfl
  pi := rfl
  e := rfl

end Tsym
