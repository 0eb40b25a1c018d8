import Verif.AtanTwo
import Verif.Props.TrigInv
import Verif.Props.SolveNum

/-!
# C73: atan2 of rational numbers
-/

set_option autoImplicit false
set_option linter.unusedSectionVars false

namespace Tsym

open Expr

/-! ## Specification -/

namespace Angles

/-- `v` is an angle of the point (x, y) in polar coordinates. -/
def Polar (x y v : ℝ) : Prop := ∃ r > 0, x = r * Real.cos v ∧ y = r * Real.sin v

/-- The eight directions (x, y) at multiples of π/4, and these multiples. -/
def octants : List (ℚ × ℚ × ℚ) :=
  [(1, 0, 0), (1, 1, 1 / 4), (0, 1, 1 / 2), (-1, 1, 3 / 4), (-1, 0, 1), (-1, -1, 5 / 4), (0, -1, 3 / 2), (1, -1, 7 / 4)]

/-- atan of a number that is not zero, with the sign in front. -/
def arctangent {D : Type} (t : ℚ) : Expr D :=
  if 0 < t then .fn .atan (.num (.rat t)) else .prod [.num (.rat (-1)), .fn .atan (.num (.rat (-t)))]

end Angles

/-! ## Proofs -/

section

variable {D : Type} [Flt D] [LawfulFlt D] {cfg : Cfg D}

open NumTrigo Angles

theorem Gets.ends {α : Type} {f : Eng D → M D α} {a : α} (h : Gets cfg f a) (hm : Lean.Order.monotone f) : Ends cfg f (.ok a) := by
  obtain ⟨N, cs, -, h⟩ := h
  refine ⟨⟨N, fun n hn => ⟨cs, h n hn⟩⟩, fun n => ?_⟩
  rcases hm _ _ (eng_le cfg (Nat.le_max_left n N)) with h1 | h1
  · exact .inl h1
  · right; rw [h1]; exact ⟨cs, h _ (Nat.le_max_right n N)⟩

theorem apiAtan2_mono (y x : Expr D) : Lean.Order.monotone fun E : Eng D => Api.atan2 E y x := Api.atan2_mono _ _ id Lean.Order.monotone_id

namespace Angles

theorem numZero : (0 : Number D) = .rat 0 := by change Number.rat ((0 : ℕ) : ℚ) = _; norm_num

theorem ofNum {y x : ℚ} {r : Expr D} :
    (Gets cfg (fun E => createAtan2Numerically E (.rat y) (.rat x) (.num (.rat y)) (.num (.rat x))) r →
      Gets cfg (fun E => atan2Create E (.num (.rat y)) (.num (.rat x) : Expr D)) r) ∧
    (Tot cfg (fun E => createAtan2Numerically E (.rat y) (.rat x) (.num (.rat y)) (.num (.rat x))) r →
      Tot cfg (fun E => atan2Create E (.num (.rat y)) (.num (.rat x) : Expr D)) r) := by
  have u : ∀ q : ℚ, (Expr.num (.rat q) : Expr D).isUndefined = false := fun _ => rfl
  unfold atan2Create
  simp only [u, Bool.or_self, Bool.false_eq_true, if_false]
  exact ⟨fun h => rs_bind (tot_lift (numEval_rat x)).rs (rs_bind (tot_lift (numEval_rat y)).rs h),
    fun h => tot_bind (tot_lift (numEval_rat x)) (tot_bind (tot_lift (numEval_rat y)) h)⟩

theorem lt_zero (q : ℚ) : (Number.rat q : Number D).lt 0 = decide (q < 0) := by rw [numZero, lt_rat]
theorem zero_lt (q : ℚ) : Number.lt 0 (Number.rat q : Number D) = decide (0 < q) := by rw [numZero, lt_rat]

theorem axis {y : ℚ} (hy : y ≠ 0) :
    Gets cfg (fun E => atan2Create E (.num (.rat y)) (.num (.rat 0) : Expr D)) (piM (if 0 < y then 1 / 2 else 3 / 2)) ∧
    (0 < y → Tot cfg (fun E => atan2Create E (.num (.rat y)) (.num (.rat 0) : Expr D)) (piM (if 0 < y then 1 / 2 else 3 / 2))) := by
  by_cases h : 0 < y
  · have : Tot cfg (fun E => createAtan2Numerically E (.rat y) (.rat 0) (.num (.rat y)) (.num (.rat 0) : Expr D)) (piM (if 0 < y then 1 / 2 else 3 / 2)) := by
      simp only [createAtan2Numerically, eqv_rat_zero, lt_zero, zero_lt, h, decide_true, Bool.and_self, if_true]
      exact tot_timesPi _
    exact ⟨ofNum.1 this.rs, fun _ => ofNum.2 this⟩
  · have h' : y < 0 := lt_of_le_of_ne (not_lt.1 h) hy
    refine ⟨ofNum.1 ?_, fun h'' => (h h'').elim⟩
    simp only [createAtan2Numerically, eqv_rat_zero, lt_zero, zero_lt, h, h', decide_true, decide_false, Bool.and_self, Bool.and_false, Bool.false_eq_true, if_true, if_false]
    exact rs_bind (gets_log _) (tot_timesPi _).rs

/-- The increment of the angle. -/
def incr (y x : ℚ) : ℚ := if 0 < x then 0 else if 0 ≤ y then 1 else -1

theorem offAxis {y x : ℚ} (hx : x ≠ 0) {r : Expr D} :
    (Gets cfg (fun E => simplAtan2 E (.num (.rat y)) (.num (.rat x)) (.rat y) (.rat x) (piM (incr y x))) r →
      Gets cfg (fun E => atan2Create E (.num (.rat y)) (.num (.rat x) : Expr D)) r) ∧
    (Tot cfg (fun E => simplAtan2 E (.num (.rat y)) (.num (.rat x)) (.rat y) (.rat x) (piM (incr y x))) r →
      Tot cfg (fun E => atan2Create E (.num (.rat y)) (.num (.rat x) : Expr D)) r) := by
  have hi : Tot cfg (fun E => if decide (0 < x) = true then pure zero else if (!decide (y < 0)) = true then timesPi E 1 else timesPi E (-1)) (piM (incr y x) : Expr D) := by
    unfold incr
    by_cases h : 0 < x
    · simp only [h, decide_true, if_true, piM_zero]; exact tot_pure _
    · by_cases h' : y < 0
      · simp only [h, h', not_le.2 h', decide_true, decide_false, Bool.not_true, Bool.false_eq_true, if_false]
        exact tot_timesPi _
      · simp only [h, h', not_lt.1 h', decide_false, Bool.not_false, Bool.false_eq_true, if_false, if_true]
        exact tot_timesPi _
  constructor <;> intro h
  · refine ofNum.1 ?_
    simp only [createAtan2Numerically, eqv_rat_zero, lt_zero, zero_lt, hx, decide_false, Bool.false_and, Bool.false_eq_true, if_false]
    exact rs_bind hi.rs h
  · refine ofNum.2 ?_
    simp only [createAtan2Numerically, eqv_rat_zero, lt_zero, zero_lt, hx, decide_false, Bool.false_and, Bool.false_eq_true, if_false]
    exact tot_bind hi h

theorem arctangent_den (σ : Asg) (t : ℚ) : den σ (arctangent t : Expr D) = some (Real.arctan t) := by
  unfold arctangent
  split_ifs with h
  · simp [den, Spec.fn]
  · simp [denProd, den, Spec.fn, Real.arctan_neg]

end Angles

variable (cfg) (hcfg : cfg.Ok) (h6 : 6 ≤ cfg.maxPrime)
include hcfg h6

/-- C73. For a point in one of the eight directions the result is the multiple of π in [0, 2). -/
theorem C73_octants (c s z r : ℚ) (h : (c, s, z) ∈ octants) (hr : 0 < r) (hok : c ≠ 0 → NumOk cfg.maxPrime (r * c)) :
    Ends cfg (fun E => Api.atan2 E (.num (.rat (r * s))) (.num (.rat (r * c)))) (.ok (angle z : Expr D)) ∧
    (0 ≤ s → Yields cfg (fun E => Api.atan2 E (.num (.rat (r * s))) (.num (.rat (r * c)))) (angle z : Expr D)) := by
  suffices key : Gets cfg (fun E => atan2Create E (.num (.rat (r * s))) (.num (.rat (r * c)) : Expr D)) (piM z) ∧
      (0 ≤ s → Tot cfg (fun E => atan2Create E (.num (.rat (r * s))) (.num (.rat (r * c)) : Expr D)) (piM z)) by
    rw [← angle_eq]
    exact ⟨Gets.ends (gets_atan2 key.1) (apiAtan2_mono _ _), fun h => Tot.yields (tot_atan2 (key.2 h)) (apiAtan2_mono _ _)⟩
  have r0 := hr.ne'
  have gen : ∀ a, c ≠ 0 → (if s / c = 0 then some 0 else if s / c = 1 then some (1 / 4) else if s / c = -1 then some (-(1 / 4)) else none : Option ℚ) = some a →
      rem2 (a + incr (r * s) (r * c)) = z →
      Gets cfg (fun E => atan2Create E (.num (.rat (r * s))) (.num (.rat (r * c)) : Expr D)) (piM z) ∧
      (0 ≤ s → Tot cfg (fun E => atan2Create E (.num (.rat (r * s))) (.num (.rat (r * c)) : Expr D)) (piM z)) := by
    intro a hc ha hz
    have e : r * s / (r * c) = s / c := mul_div_mul_left _ _ r0
    rw [← e] at ha
    obtain ⟨h1, h2⟩ := simplAtan2_some hcfg h6 (mul_ne_zero r0 hc) (hok hc) (.rat (r * s)) (.rat (r * c) : Number D) (incr (r * s) (r * c)) ha
    rw [hz] at h1 h2
    refine ⟨(offAxis (mul_ne_zero r0 hc)).1 h1, fun hs => (offAxis (mul_ne_zero r0 hc)).2 (h2 ?_)⟩
    rw [lt_zero]
    simpa using mul_nonneg hr.le hs
  have rs : ∀ x : ℚ, 0 ≤ x → x < 2 → rem2 x = x := fun x h h' => rem2_self h h'
  simp only [octants, List.mem_cons, List.not_mem_nil, or_false, Prod.mk.injEq] at h
  have nr : ¬ 0 < r * -1 := by linarith
  have ns : ¬ 0 ≤ r * -1 := by linarith
  have pr : 0 < r * 1 := by linarith
  rcases h with ⟨rfl, rfl, rfl⟩ | ⟨rfl, rfl, rfl⟩ | ⟨rfl, rfl, rfl⟩ | ⟨rfl, rfl, rfl⟩ | ⟨rfl, rfl, rfl⟩ | ⟨rfl, rfl, rfl⟩ | ⟨rfl, rfl, rfl⟩ | ⟨rfl, rfl, rfl⟩
  · exact gen 0 (by norm_num) (by norm_num) (by rw [incr, if_pos pr]; norm_num [rs])
  · exact gen (1 / 4) (by norm_num) (by norm_num) (by rw [incr, if_pos pr]; norm_num [rs])
  · have := axis (D := D) (cfg := cfg) (y := r * 1) pr.ne'
    rw [if_pos pr] at this
    rw [mul_zero]
    exact ⟨this.1, fun _ => this.2 pr⟩
  · exact gen (-(1 / 4)) (by norm_num) (by norm_num) (by rw [incr, if_neg nr, if_pos pr.le]; norm_num [rs])
  · exact gen 0 (by norm_num) (by norm_num) (by rw [incr, if_neg nr, if_pos (by simp)]; norm_num [rs])
  · refine gen (1 / 4) (by norm_num) (by norm_num) ?_
    rw [incr, if_neg nr, if_neg ns]
    have := rem2_add (1 / 4 + -1) 1
    norm_num [rs] at this ⊢
    exact this.symm
  · have := axis (D := D) (cfg := cfg) (y := r * -1) (by linarith)
    rw [if_neg nr] at this
    rw [mul_zero]
    exact ⟨this.1, fun h => by norm_num at h⟩
  · refine gen (-(1 / 4)) (by norm_num) (by norm_num) ?_
    rw [incr, if_pos pr]
    have := rem2_add (-(1 / 4) + 0) 1
    norm_num [rs] at this ⊢
    exact this.symm

/-- C73. For every other point the result is the arctangent of y/x, also where x is negative. -/
theorem C73_other (y x : ℚ) (hy : y ≠ 0) (hx : x ≠ 0) (h : |y| ≠ |x|) (hok : NumOk cfg.maxPrime x) :
    Ends cfg (fun E => Api.atan2 E (.num (.rat y)) (.num (.rat x))) (.ok (arctangent (y / x) : Expr D)) ∧
    (0 < x → Yields cfg (fun E => Api.atan2 E (.num (.rat y)) (.num (.rat x))) (arctangent (y / x) : Expr D)) := by
  have h0 : y / x ≠ 0 := div_ne_zero hy hx
  have h1 : y / x ≠ 1 := fun e => h (by rw [div_eq_one_iff_eq hx] at e; rw [e])
  have h2 : y / x ≠ -1 := fun e => h (by rw [div_eq_iff hx] at e; rw [e]; simp)
  obtain ⟨g1, g2⟩ := simplAtan2_none hcfg h6 hx hok (.rat y) (.rat x : Number D) (incr y x) h0 h1 h2 (r := arctangent (y / x)) (by
    rw [mOne_rat]; rfl)
  refine ⟨Gets.ends (gets_atan2 ((offAxis hx).1 g1)) (apiAtan2_mono _ _), fun h => Tot.yields (tot_atan2 ((offAxis hx).2 (g2 ?_))) (apiAtan2_mono _ _)⟩
  rw [lt_zero]
  simpa using h.le

omit hcfg h6 in
/-- C73. The angle of the origin is undefined. -/
theorem C73_origin : Yields cfg (fun E => Api.atan2 E (.num (.rat 0)) (.num (.rat 0))) (.undef : Expr D) := by
  refine Tot.yields (tot_atan2 (ofNum.2 ?_)) (apiAtan2_mono _ _)
  simp only [createAtan2Numerically, eqv_rat_zero, lt_zero, zero_lt, lt_irrefl, decide_true, decide_false, Bool.and_false, Bool.and_self,
    Bool.false_eq_true, if_false, if_true]
  exact tot_pure _

omit hcfg h6 in
/-- C73. The multiples of π for the eight directions are angles of these points, in [0, 2π). -/
theorem C73_value (σ : Asg) (c s z r : ℚ) (h : (c, s, z) ∈ octants) (hr : 0 < r) :
    ∃ v, den σ (angle z : Expr D) = some v ∧ 0 ≤ v ∧ v < 2 * Real.pi ∧ Polar ((r * c : ℚ)) ((r * s : ℚ)) v := by
  refine ⟨z * Real.pi, by rw [← angle_eq]; exact piM_den σ z, ?_, ?_, ?_⟩
  · have : 0 ≤ z := by
      simp only [octants, List.mem_cons, List.not_mem_nil, or_false, Prod.mk.injEq] at h
      rcases h with ⟨-, -, rfl⟩ | ⟨-, -, rfl⟩ | ⟨-, -, rfl⟩ | ⟨-, -, rfl⟩ | ⟨-, -, rfl⟩ | ⟨-, -, rfl⟩ | ⟨-, -, rfl⟩ | ⟨-, -, rfl⟩ <;> norm_num
    exact mul_nonneg (by exact_mod_cast this) Real.pi_pos.le
  · have : z < 2 := by
      simp only [octants, List.mem_cons, List.not_mem_nil, or_false, Prod.mk.injEq] at h
      rcases h with ⟨-, -, rfl⟩ | ⟨-, -, rfl⟩ | ⟨-, -, rfl⟩ | ⟨-, -, rfl⟩ | ⟨-, -, rfl⟩ | ⟨-, -, rfl⟩ | ⟨-, -, rfl⟩ | ⟨-, -, rfl⟩ <;> norm_num
    exact mul_lt_mul_of_pos_right (by exact_mod_cast this) Real.pi_pos
  · have hr' : (0 : ℝ) < r := by exact_mod_cast hr
    have s2 : Real.sqrt 2 * Real.sqrt 2 = 2 := Real.mul_self_sqrt (by norm_num)
    have s0 : 0 < Real.sqrt 2 := by positivity
    have e1 : (((1 / 4 : ℚ)) : ℝ) * Real.pi = Real.pi / 4 := by push_cast; ring
    have e2 : (((1 / 2 : ℚ)) : ℝ) * Real.pi = Real.pi / 2 := by push_cast; ring
    have e3 : (((3 / 4 : ℚ)) : ℝ) * Real.pi = Real.pi - Real.pi / 4 := by push_cast; ring
    have e4 : (((1 : ℚ)) : ℝ) * Real.pi = Real.pi := by push_cast; ring
    have e5 : (((5 / 4 : ℚ)) : ℝ) * Real.pi = Real.pi / 4 + Real.pi := by push_cast; ring
    have e6 : (((3 / 2 : ℚ)) : ℝ) * Real.pi = Real.pi / 2 + Real.pi := by push_cast; ring
    have e7 : (((7 / 4 : ℚ)) : ℝ) * Real.pi = -(Real.pi / 4) + 2 * Real.pi := by push_cast; ring
    have hs : (r : ℝ) = r * Real.sqrt 2 * (Real.sqrt 2 / 2) := by rw [mul_assoc, ← mul_div_assoc, s2]; norm_num
    simp only [octants, List.mem_cons, List.not_mem_nil, or_false, Prod.mk.injEq] at h
    rcases h with ⟨rfl, rfl, rfl⟩ | ⟨rfl, rfl, rfl⟩ | ⟨rfl, rfl, rfl⟩ | ⟨rfl, rfl, rfl⟩ | ⟨rfl, rfl, rfl⟩ | ⟨rfl, rfl, rfl⟩ | ⟨rfl, rfl, rfl⟩ | ⟨rfl, rfl, rfl⟩
    · exact ⟨r, hr', by simp, by simp⟩
    · refine ⟨r * Real.sqrt 2, by positivity, ?_, ?_⟩
      · rw [e1, Real.cos_pi_div_four]; push_cast; linear_combination hs
      · rw [e1, Real.sin_pi_div_four]; push_cast; linear_combination hs
    · exact ⟨r, hr', by rw [e2]; simp, by rw [e2]; simp⟩
    · refine ⟨r * Real.sqrt 2, by positivity, ?_, ?_⟩
      · rw [e3, Real.cos_pi_sub, Real.cos_pi_div_four]; push_cast; linear_combination -hs
      · rw [e3, Real.sin_pi_sub, Real.sin_pi_div_four]; push_cast; linear_combination hs
    · exact ⟨r, hr', by rw [e4]; simp, by rw [e4]; simp⟩
    · refine ⟨r * Real.sqrt 2, by positivity, ?_, ?_⟩
      · rw [e5, Real.cos_add_pi, Real.cos_pi_div_four]; push_cast; linear_combination -hs
      · rw [e5, Real.sin_add_pi, Real.sin_pi_div_four]; push_cast; linear_combination -hs
    · exact ⟨r, hr', by rw [e6, Real.cos_add_pi]; simp, by rw [e6, Real.sin_add_pi]; simp⟩
    · refine ⟨r * Real.sqrt 2, by positivity, ?_, ?_⟩
      · rw [e7, Real.cos_add_two_pi, Real.cos_neg, Real.cos_pi_div_four]; push_cast; linear_combination hs
      · rw [e7, Real.sin_add_two_pi, Real.sin_neg, Real.sin_pi_div_four]; push_cast; linear_combination -hs

omit hcfg h6 in
/-- C73. The arctangent of y/x is an angle of the point (x, y) exactly if x is positive. -/
theorem C73_direction (σ : Asg) (y x : ℚ) :
    ∃ v, den σ (arctangent (y / x) : Expr D) = some v ∧ (Polar x y v ↔ 0 < x) := by
  refine ⟨Real.arctan ((y / x : ℚ)), arctangent_den σ _, ?_, fun h => ?_⟩
  · rintro ⟨r, hr, h1, -⟩
    have : (0 : ℝ) < x := by rw [h1]; exact mul_pos hr (Real.cos_arctan_pos _)
    exact_mod_cast this
  · have hx' : (0 : ℝ) < x := by exact_mod_cast h
    have hc := Real.cos_arctan_pos ((y / x : ℚ))
    refine ⟨x / Real.cos (Real.arctan ((y / x : ℚ))), by positivity, ?_, ?_⟩
    · field_simp
    · have ht := Real.tan_arctan ((y / x : ℚ))
      rw [Real.tan_eq_sin_div_cos] at ht
      rw [div_mul_eq_mul_div, mul_div_assoc, ht]
      push_cast
      field_simp

/-- C73. For two rational numbers, not both zero, there is a result, and its value is an angle of the point exactly if x is not negative or the
point is in one of the eight directions. -/
theorem C73_correct (y x : ℚ) (h0 : x ≠ 0 ∨ y ≠ 0) (hok : x ≠ 0 → NumOk cfg.maxPrime x) (σ : Asg) :
    ∃ (e : Expr D) (v : ℝ), Ends cfg (fun E => Api.atan2 E (.num (.rat y)) (.num (.rat x))) (.ok e) ∧ den σ e = some v ∧
      (Polar x y v ↔ 0 ≤ x ∨ y = 0 ∨ |y| = |x|) := by
  have oct : ∀ c s z r : ℚ, (c, s, z) ∈ octants → 0 < r → x = r * c → y = r * s → (0 ≤ x ∨ y = 0 ∨ |y| = |x|) → ∃ (e : Expr D) (v : ℝ),
      Ends cfg (fun E => Api.atan2 E (.num (.rat y)) (.num (.rat x))) (.ok e) ∧ den σ e = some v ∧ (Polar x y v ↔ 0 ≤ x ∨ y = 0 ∨ |y| = |x|) := by
    rintro c s z r hm hr rfl rfl hd
    obtain ⟨v, h1, -, -, h2⟩ := C73_value (D := D) σ c s z r hm hr
    exact ⟨_, v, (C73_octants cfg hcfg h6 c s z r hm hr fun h => hok (mul_ne_zero hr.ne' h)).1, h1, fun _ => hd, fun _ => h2⟩
  by_cases hx : x = 0
  · have hy : y ≠ 0 := h0.resolve_left (not_not.2 hx)
    rcases lt_or_gt_of_ne hy with h | h
    · exact oct 0 (-1) (3 / 2) (-y) (by simp [octants]) (neg_pos.2 h) (by simp [hx]) (by ring) (.inl hx.ge)
    · exact oct 0 1 (1 / 2) y (by simp [octants]) h (by simp [hx]) (by ring) (.inl hx.ge)
  by_cases hy : y = 0
  · rcases lt_or_gt_of_ne hx with h | h
    · exact oct (-1) 0 1 (-x) (by simp [octants]) (neg_pos.2 h) (by ring) (by simp [hy]) (.inr (.inl hy))
    · exact oct 1 0 0 x (by simp [octants]) h (by ring) (by simp [hy]) (.inr (.inl hy))
  by_cases ha : |y| = |x|
  · have hd : 0 ≤ x ∨ y = 0 ∨ |y| = |x| := .inr (.inr ha)
    rcases lt_or_gt_of_ne hx with h | h <;> rcases lt_or_gt_of_ne hy with h' | h'
    · rw [abs_of_neg h, abs_of_neg h'] at ha
      exact oct (-1) (-1) (5 / 4) (-x) (by simp [octants]) (by linarith) (by ring) (by linarith) hd
    · rw [abs_of_neg h, abs_of_pos h'] at ha
      exact oct (-1) 1 (3 / 4) (-x) (by simp [octants]) (by linarith) (by ring) (by linarith) hd
    · rw [abs_of_pos h, abs_of_neg h'] at ha
      exact oct 1 (-1) (7 / 4) x (by simp [octants]) h (by ring) (by linarith) hd
    · rw [abs_of_pos h, abs_of_pos h'] at ha
      exact oct 1 1 (1 / 4) x (by simp [octants]) h (by ring) (by linarith) hd
  · obtain ⟨v, h1, h2⟩ := C73_direction (D := D) σ y x
    refine ⟨_, v, (C73_other cfg hcfg h6 y x hy hx ha (hok hx)).1, h1, h2.trans ?_⟩
    simp only [hy, ha, or_false]
    exact ⟨le_of_lt, fun h => lt_of_le_of_ne h (Ne.symm hx)⟩

end

/-! ## The hypotheses are met -/

namespace AtanTwoEx

open Angles TrigPiEx

theorem std6' : 6 ≤ (Cfg.std 323 : Cfg Hyb).maxPrime := by norm_num [Cfg.std]

theorem ok (x : ℚ) : NumOk (Cfg.std 323 : Cfg Hyb).maxPrime x := .inl (by norm_num [Cfg.std])

/-- atan2(2/3, -2/3) = 3/4*pi. -/
example : Yields (Cfg.std 323 : Cfg Hyb) (fun E => Api.atan2 E (.num (.rat (2 / 3 * 1))) (.num (.rat (2 / 3 * -1)))) (angle (3 / 4)) :=
  (C73_octants _ (Cfg.std_ok 323) std6' _ _ _ _ (by simp [octants]) (by norm_num) fun _ => ok _).2 (by norm_num)

example : (angle (3 / 4) : Expr Hyb) = .prod [.num (.rat (3 / 4)), .cst .pi] := by
  rw [angle, if_neg (by norm_num), xPi, if_neg (by norm_num)]; rfl

/-- atan2(2, 5) = atan(2/5). -/
example : Yields (Cfg.std 323 : Cfg Hyb) (fun E => Api.atan2 E (.num (.rat 2)) (.num (.rat 5))) (.fn .atan (.num (.rat (2 / 5)))) := by
  have := (C73_other (D := Hyb) _ (Cfg.std_ok 323) std6' 2 5 (by norm_num) (by norm_num) (by norm_num) (ok _)).2 (by norm_num)
  rwa [arctangent, if_pos (by norm_num)] at this

/-- atan2(2, -5) = -atan(2/5), which is not an angle of the point. -/
example : Ends (Cfg.std 323 : Cfg Hyb) (fun E => Api.atan2 E (.num (.rat 2)) (.num (.rat (-5)))) (.ok (.prod [.num (.rat (-1)), .fn .atan (.num (.rat (2 / 5)))])) := by
  have := (C73_other (D := Hyb) _ (Cfg.std_ok 323) std6' 2 (-5) (by norm_num) (by norm_num) (by norm_num) (ok _)).1
  rw [arctangent, if_neg (by norm_num)] at this
  norm_num at this ⊢
  exact this

example (σ : Asg) : ∃ v, den σ (arctangent (2 / -5) : Expr Hyb) = some v ∧ ¬ Polar (-5 : ℚ) (2 : ℚ) v := by
  obtain ⟨v, h1, h2⟩ := C73_direction (D := Hyb) σ 2 (-5)
  exact ⟨v, h1, fun h => absurd (h2.1 h) (by norm_num)⟩

end AtanTwoEx

end Tsym
