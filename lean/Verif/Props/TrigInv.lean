import Verif.TrigKey
import Verif.Krfl

/-!
# C72: the tangent of rational multiples of π, and asin, acos and atan of constants
-/

set_option autoImplicit false
set_option linter.unusedSectionVars false

namespace Tsym

open Expr

/-! ## Specification -/

namespace Angles

variable {D : Type}

/-- The tangent of `a` times π. -/
def tangents : List (ℚ × Expr D) :=
  [(0, q 0),
   (1 / 12, .sum [q 2, .prod [q (-1), root (q 3)]]),
   (1 / 8, .sum [q (-1), root (q 2)]),
   (1 / 6, recRoot (q 3)),
   (1 / 4, q 1),
   (1 / 3, root (q 3)),
   (3 / 8, .sum [q 1, root (q 2)]),
   (5 / 12, .sum [q 2, root (q 3)])]

/-- The tangent of `-a` times π. -/
def negTangents : List (ℚ × Expr D) :=
  [(0, q 0),
   (1 / 12, .sum [q (-2), root (q 3)]),
   (1 / 8, .sum [q 1, .prod [q (-1), root (q 2)]]),
   (1 / 6, .prod [q (-1), recRoot (q 3)]),
   (1 / 4, q (-1)),
   (1 / 3, .prod [q (-1), root (q 3)]),
   (3 / 8, .sum [q (-1), .prod [q (-1), root (q 2)]]),
   (5 / 12, .sum [q (-2), .prod [q (-1), root (q 3)]])]

/-- `x` times π as an expression. -/
def angle (x : ℚ) : Expr D := if x = 0 then q 0 else xPi x

end Angles

/-- A function of the sine or cosine of `x` times π. -/
def trigOfTrigOfPi {D : Type} [Flt D] (E : Eng D) (g f : Fn) (x : ℚ) : M D (Expr D) := do
  let a ← trigOfPi E f x
  Api.trig E g a

/-! ## Proofs -/

section

variable {D : Type} [Flt D] [LawfulFlt D] {cfg : Cfg D}

open NumTrigo

theorem trigOfTrigOfPi_mono (g f : Fn) (x : ℚ) : Lean.Order.monotone fun E : Eng D => trigOfTrigOfPi E g f x := by
  unfold trigOfTrigOfPi trigOfPi Api.trig Api.mul; repeat' mono_step

theorem apiTrig_mono (f : Fn) (a : Expr D) : Lean.Order.monotone fun E : Eng D => Api.trig E f a := by
  unfold Api.trig; repeat' mono_step

namespace Angles

theorem mem_tangents {a : ℚ} {v : Expr D} (h : (a, v) ∈ tangents) : (a, v) ∈ (tanTab 1 : List (ℚ × Expr D)) ∧ a < 1 / 2 := by
  unfold tangents at h
  simp only [List.mem_cons, List.not_mem_nil, or_false, Prod.mk.injEq] at h
  unfold tanTab
  simp only [surd_prod (D := D) (p := -1) (a := 3) (by norm_num) (by norm_num), surd_one (D := D) (a := 2) (by norm_num), surd_one (D := D) (a := 3) (by norm_num),
    surd_one (D := D) (a := 1 / 3) (by norm_num), root2, root3, show (rootE (1 / 3) : Expr D) = .pow (num (.rat 3)) (num (.rat (-(1 / 2)))) by
      rw [rootE, if_pos (by norm_num)]; norm_num, zero_eq, one_mul]
  rcases h with ⟨rfl, rfl⟩ | ⟨rfl, rfl⟩ | ⟨rfl, rfl⟩ | ⟨rfl, rfl⟩ | ⟨rfl, rfl⟩ | ⟨rfl, rfl⟩ | ⟨rfl, rfl⟩ | ⟨rfl, rfl⟩ <;>
    refine ⟨by simp [root, recRoot, q], by norm_num⟩

theorem mem_negTangents {a : ℚ} {v : Expr D} (h : (a, v) ∈ negTangents) : (a, v) ∈ (tanTab (-1) : List (ℚ × Expr D)) ∧ a < 1 / 2 := by
  unfold negTangents at h
  simp only [List.mem_cons, List.not_mem_nil, or_false, Prod.mk.injEq] at h
  unfold tanTab
  simp only [surd_prod (D := D) (p := -1) (a := 3) (by norm_num) (by norm_num), surd_prod (D := D) (p := -1) (a := 2) (by norm_num) (by norm_num),
    surd_prod (D := D) (p := -1) (a := 1 / 3) (by norm_num) (by norm_num), neg_neg, surd_one (D := D) (a := 3) (by norm_num),
    root2, root3, show (rootE (1 / 3) : Expr D) = .pow (num (.rat 3)) (num (.rat (-(1 / 2)))) by
      rw [rootE, if_pos (by norm_num)]; norm_num, zero_eq, neg_one_mul]
  rcases h with ⟨rfl, rfl⟩ | ⟨rfl, rfl⟩ | ⟨rfl, rfl⟩ | ⟨rfl, rfl⟩ | ⟨rfl, rfl⟩ | ⟨rfl, rfl⟩ | ⟨rfl, rfl⟩ | ⟨rfl, rfl⟩ <;>
    refine ⟨by simp [root, recRoot, q], by norm_num⟩

theorem angle_eq (x : ℚ) : (piM x : Expr D) = angle x := by
  unfold angle
  split_ifs with h
  · rw [h, piM_zero, zero_eq]; rfl
  · exact xPi_eq h

theorem pair {a : ℚ} {w : Expr D} (h : (a, w) ∈ (sinTab (-1) : List (ℚ × Expr D))) : ∃ v : Expr D, (a, v) ∈ (sinTab 1 : List (ℚ × Expr D)) := by
  simp only [sinTab, List.mem_cons, List.not_mem_nil, or_false, Prod.mk.injEq] at h ⊢
  rcases h with ⟨rfl, _⟩ | ⟨rfl, _⟩ | ⟨rfl, _⟩ | ⟨rfl, _⟩ | ⟨rfl, _⟩ | ⟨rfl, _⟩ | ⟨rfl, _⟩ | ⟨rfl, _⟩ | ⟨rfl, _⟩ <;> norm_num

theorem tanPair {a : ℚ} {w : Expr D} (h : (a, w) ∈ (tanTab (-1) : List (ℚ × Expr D))) : ∃ v : Expr D, (a, v) ∈ (tanTab 1 : List (ℚ × Expr D)) := by
  simp only [tanTab, List.mem_cons, List.not_mem_nil, or_false, Prod.mk.injEq] at h ⊢
  rcases h with ⟨rfl, _⟩ | ⟨rfl, _⟩ | ⟨rfl, _⟩ | ⟨rfl, _⟩ | ⟨rfl, _⟩ | ⟨rfl, _⟩ | ⟨rfl, _⟩ | ⟨rfl, _⟩ | ⟨rfl, _⟩ <;> norm_num

/-- The angle between −π/2 and π/2. -/
theorem Sine.small {y : ℚ} {v : Expr D} (h : Sine y v) (hy : |y| ≤ 1 / 2) :
    (0 ≤ y ∧ (y, v) ∈ (sinTab 1 : List (ℚ × Expr D))) ∨ (y < 0 ∧ (-y, v) ∈ (sinTab (-1) : List (ℚ × Expr D))) := by
  obtain ⟨h1, h2⟩ := abs_le.1 hy
  have hs := h.sinOf
  rcases le_or_gt 0 y with c | c
  · rw [sinOf_small c h2] at hs
    exact .inl ⟨c, look_mem hs⟩
  · rw [← sinOf_neg, rem2_self (by linarith) (by linarith), first_self (by linarith), sg, if_pos (by linarith), mul_one] at hs
    exact .inr ⟨c, look_mem hs⟩

theorem tanTab_special {ε a : ℚ} {v : Expr D} (h : look (tanTab ε) a = some v) : Special a := by
  have := look_mem h
  simp only [tanTab, List.mem_cons, List.not_mem_nil, or_false, Prod.mk.injEq] at this
  rcases this with ⟨rfl, _⟩ | ⟨rfl, _⟩ | ⟨rfl, _⟩ | ⟨rfl, _⟩ | ⟨rfl, _⟩ | ⟨rfl, _⟩ | ⟨rfl, _⟩ | ⟨rfl, _⟩ | ⟨rfl, _⟩
  · exact .inl ⟨0, by norm_num⟩
  · exact .inl ⟨1, by norm_num⟩
  · exact .inr ⟨1, by norm_num⟩
  · exact .inl ⟨2, by norm_num⟩
  · exact .inl ⟨3, by norm_num⟩
  · exact .inl ⟨4, by norm_num⟩
  · exact .inr ⟨3, by norm_num⟩
  · exact .inl ⟨5, by norm_num⟩
  · exact .inl ⟨6, by norm_num⟩

theorem rem2_special {x : ℚ} (h : Special (rem2 x)) : Special x :=
  h.shift (2 * ⌊x / 2⌋) (.inl (by unfold rem2; push_cast; ring))

/-- An odd function for a negative angle. -/
theorem tot_tan_any (hc : cfg.Ok) (h6 : 6 ≤ cfg.maxPrime) {x : ℚ} {r : Expr D} (h : Tot cfg (fun E => simplTan E (piM |x|)) (some r))
    (hr : Tot cfg (fun E => E.minus r) r) : Tot cfg (fun E => trigCreate E .tan (piM x)) r := by
  rcases le_or_gt 0 x with c | c
  · rw [abs_of_nonneg c] at h
    have := tot_tan_pos hc h6 c h
    rwa [Option.getD_some] at this
  · rw [abs_of_neg c] at h
    have := tot_tan_neg hc h6 (neg_pos.2 c) h (by rwa [Option.getD_some])
    rwa [neg_neg] at this

theorem tot_simplTan_half (hc : cfg.Ok) (h6 : 6 ≤ cfg.maxPrime) (n : ℤ) : Tot cfg (fun E => simplTan E (piM (1 / 2 + n))) (some (.undef : Expr D)) := by
  rcases Int.even_or_odd' n with ⟨m, rfl | rfl⟩
  · have e : rem2 (1 / 2 + ((2 * m : ℤ) : ℚ)) = 1 / 2 := by
      rw [show (1 / 2 + ((2 * m : ℤ) : ℚ)) = 1 / 2 + 2 * (m : ℚ) by push_cast; ring, rem2_add, rem2_self (by norm_num) (by norm_num)]
    refine tot_simplTan_first hc h6 ?_
    rw [e]; unfold tanTab; simp only [look_cons, look_nil]; norm_num
  · have e : rem2 (1 / 2 + ((2 * m + 1 : ℤ) : ℚ)) = 3 / 2 := by
      rw [show (1 / 2 + ((2 * m + 1 : ℤ) : ℚ)) = 3 / 2 + 2 * (m : ℚ) by push_cast; ring, rem2_add, rem2_self (by norm_num) (by norm_num)]
    refine tot_simplTan_via hc h6 (by rw [e]; unfold tanTab; simp only [look_cons, look_nil]; norm_num) (tot_tanVia_undef hc h6 ?_)
    have := Sine.sinOf (D := D) (.first (x := (1 / 2 + ((2 * m + 1 : ℤ) : ℚ) + 1 / 2)) 0 (m + 1) (v := q 0) (by simp [plus]) (by push_cast; ring))
    rw [this, zero_eq]; rfl

theorem tot_simplTan_pi (hc : cfg.Ok) (h6 : 6 ≤ cfg.maxPrime) (n : ℤ) : Tot cfg (fun E => simplTan E (piM n)) (some (zero : Expr D)) := by
  rcases Int.even_or_odd' n with ⟨m, rfl | rfl⟩
  · have e : rem2 ((2 * m : ℤ) : ℚ) = 0 := by
      rw [show ((2 * m : ℤ) : ℚ) = 0 + 2 * (m : ℚ) by push_cast; ring, rem2_add, rem2_self (by norm_num) (by norm_num)]
    refine tot_simplTan_first hc h6 ?_
    rw [e]; unfold tanTab; simp only [look_cons, look_nil]; norm_num
  · have e : rem2 ((2 * m + 1 : ℤ) : ℚ) = 1 := by
      rw [show ((2 * m + 1 : ℤ) : ℚ) = 1 + 2 * (m : ℚ) by push_cast; ring, rem2_add, rem2_self (by norm_num) (by norm_num)]
    refine tot_simplTan_via hc h6 (by rw [e]; unfold tanTab; simp only [look_cons, look_nil]; norm_num) (tot_tanVia_zero hc h6 ?_ ?_)
    · exact Sine.sinOf (D := D) (.fourth (1 / 2) (m + 1) (v := q (-1)) (by simp [minus]) (by push_cast; ring))
    · have := Sine.sinOf (D := D) (x := ((2 * m + 1 : ℤ) : ℚ)) (.second 0 m (v := q 0) (by simp [plus]) (by push_cast; ring))
      rw [this, zero_eq]; rfl

theorem tot_minus_zero : Tot cfg (fun E => E.minus (zero : Expr D)) zero := by
  unfold Eng.minus
  refine tot_prod ?_
  have z0 : (zero : Expr D).isZero = true := by rw [zero_eq, isZero_ratE]; simp
  simp only [prodCreate, List.any_cons, List.any_nil, show (zero : Expr D).isUndefined = false from rfl, show (mOne : Expr D).isUndefined = false from rfl,
    z0, Bool.or_self, Bool.false_eq_true, if_false, Bool.true_or, Bool.or_true, if_true]
  exact tot_pure _

end Angles

end

/-! ## Theorems -/

section

variable {D : Type} [Flt D] [LawfulFlt D] (cfg : Cfg D) (hcfg : cfg.Ok) (h6 : 6 ≤ cfg.maxPrime)

open Angles NumTrigo

/-- C72. The entries are the tangents. -/
theorem C72_value (σ : Asg) (hσ : σ.Respects) (a : ℚ) (v : Expr D) :
    ((a, v) ∈ tangents → den σ v = some (Real.tan (a * Real.pi))) ∧ ((a, v) ∈ negTangents → den σ v = some (Real.tan (-a * Real.pi))) := by
  have hc := Cfg.std_ok (D := D) 1000
  have h6 : 6 ≤ (Cfg.std 1000 : Cfg D).maxPrime := by norm_num [Cfg.std]
  constructor
  · intro h
    obtain ⟨h1, h2⟩ := mem_tangents h
    exact tanTab_den h1 h2 σ hσ
  · intro h
    obtain ⟨h1, h2⟩ := mem_negTangents h
    obtain ⟨w, hw⟩ := tanPair h1
    have hd := tanTab_den hw h2 σ hσ
    obtain ⟨N, hN⟩ := tot_prod (tan_minus (cfg := (Cfg.std 1000 : Cfg D)) hc h6 (tanTab_mem _ hw).2.2 (tanTab_mem _ h1).2.2).1
    have := (sound_eng hc N).prod (σ := σ) (l := [num (.rat (-1)), w]) (v := -Real.tan (a * Real.pi)) hσ (by simp [denProd, hd]) _ _ (hN N le_rfl) (by simp)
    rw [this, neg_mul, Real.tan_neg]

include hcfg h6

/-- C72. The tangent in the first quadrant after any number of full turns. -/
theorem C72_tan (a : ℚ) (k : ℕ) (v : Expr D) (h : (a, v) ∈ tangents) : Yields cfg (fun E => trigOfPi E .tan (a + 2 * k)) v := by
  obtain ⟨h1, h2⟩ := mem_tangents h
  obtain ⟨h0, _, hl⟩ := tanTab_mem _ h1
  have e : rem2 (a + 2 * (k : ℚ)) = a := by
    have := rem2_add a k
    rw [rem2_self h0 (by linarith)] at this; exact_mod_cast this
  have := tot_tan_pos hcfg h6 (q := a + 2 * k) (by positivity) (tot_simplTan_first hcfg h6 (v := v) (by rw [e]; exact hl))
  rw [Option.getD_some] at this
  exact (tot_trigOfPi this).yields (trigOfPi_mono _ _)

/-- C72. The tangent is odd. -/
theorem C72_tan_neg (a : ℚ) (k : ℕ) (w : Expr D) (h : (a, w) ∈ negTangents) : Yields cfg (fun E => trigOfPi E .tan (-(a + 2 * k))) w := by
  obtain ⟨h1, h2⟩ := mem_negTangents h
  obtain ⟨v, hv⟩ := tanPair h1
  obtain ⟨h0, _, hl⟩ := tanTab_mem _ hv
  have e : rem2 (a + 2 * (k : ℚ)) = a := by
    have := rem2_add a k
    rw [rem2_self h0 (by linarith)] at this; exact_mod_cast this
  have hs := tot_simplTan_first hcfg h6 (q := a + 2 * k) (v := v) (by rw [e]; exact hl)
  have hm := tot_prod (tan_minus hcfg h6 hl (tanTab_mem _ h1).2.2).1
  rw [← mOne_rat] at hm
  by_cases hz : a + 2 * (k : ℚ) = 0
  · have a0 : a = 0 := by have : (0 : ℚ) ≤ k := by positivity
                          have : 0 ≤ a := h0
                          linarith
    subst a0
    have hw : w = zero := by
      simp only [negTangents, List.mem_cons, List.not_mem_nil, or_false, Prod.mk.injEq] at h
      norm_num at h
      rw [h, zero_eq]; rfl
    have hv : v = zero := by
      unfold tanTab at hl; rw [look_cons, if_pos rfl] at hl; simpa using hl.symm
    subst hw hv
    rw [hz, neg_zero]
    have := tot_tan_pos hcfg h6 (q := 0) le_rfl (by rw [hz] at hs; exact hs)
    rw [Option.getD_some] at this
    exact (tot_trigOfPi this).yields (trigOfPi_mono _ _)
  · have hp : 0 < a + 2 * (k : ℚ) := lt_of_le_of_ne (add_nonneg h0 (by positivity)) (Ne.symm hz)
    have := tot_tan_neg hcfg h6 hp hs (r' := w) (by rw [Option.getD_some]; exact hm)
    exact (tot_trigOfPi this).yields (trigOfPi_mono _ _)

/-- C72. At the odd multiples of π/2 the tangent is undefined, at the multiples of π it is zero. -/
theorem C72_tan_poles (n : ℤ) : Yields cfg (fun E => trigOfPi E .tan (1 / 2 + n)) (.undef : Expr D) ∧
    Yields cfg (fun E => trigOfPi E .tan n) (.num (.rat 0) : Expr D) := by
  constructor
  · refine (tot_trigOfPi (tot_tan_any hcfg h6 ?_ tot_minus_undef)).yields (trigOfPi_mono _ _)
    rcases abs_cases (1 / 2 + (n : ℚ)) with ⟨h, _⟩ | ⟨h, _⟩
    · rw [h]; exact tot_simplTan_half hcfg h6 n
    · have := tot_simplTan_half (D := D) hcfg h6 (-n - 1)
      rw [h]
      rwa [show (1 / 2 + ((-n - 1 : ℤ) : ℚ)) = -(1 / 2 + n) by push_cast; ring] at this
  · rw [← zero_eq]
    refine (tot_trigOfPi (tot_tan_any hcfg h6 ?_ tot_minus_zero)).yields (trigOfPi_mono _ _)
    have := tot_simplTan_pi (D := D) hcfg h6 |n|
    rwa [Int.cast_abs] at this

/-- C72. For other angles than the multiples of 15 and of 22.5 degrees the function stays, with a positive argument. -/
theorem C72_tan_other (x : ℚ) (h : ¬ Special x) :
    Yields cfg (fun E => trigOfPi E .tan x) (if 0 < x then .fn .tan (xPi x) else .prod [.num (.rat (-1)), .fn .tan (xPi (-x))]) := by
  have x0 : x ≠ 0 := by rintro rfl; exact h (.inl ⟨0, by norm_num⟩)
  have key : ∀ y : ℚ, ¬ Special y → Tot cfg (fun E => simplTan E (piM y)) (none : Option (Expr D)) := fun y hy => by
    refine tot_simplTan_via hcfg h6 ?_ (tot_tanVia_none hcfg h6 (sinOf_none fun c => hy c.half))
    cases hl : look (tanTab 1 : List (ℚ × Expr D)) (rem2 y) with
    | none => rfl
    | some v => exact absurd (rem2_special (tanTab_special hl)) hy
  split_ifs with c
  · have := tot_tan_pos hcfg h6 c.le (key x h)
    rw [Option.getD_none, xPi_eq x0] at this
    rw [← xPi_eq x0] at this ⊢
    exact (tot_trigOfPi this).yields (trigOfPi_mono _ _)
  · have c : x < 0 := lt_of_le_of_ne (not_lt.1 c) x0
    have := tot_tan_neg hcfg h6 (neg_pos.2 c) (key (-x) fun c => h (c.shift 0 (.inr (by push_cast; ring)))) (r' := .prod [mOne, .fn .tan (piM (-x))])
      (by rw [Option.getD_none]; exact tot_minus_fn (piM_exact _))
    rw [neg_neg, mOne_rat, xPi_eq (neg_ne_zero.2 x0)] at this
    exact (tot_trigOfPi this).yields (trigOfPi_mono _ _)

/-- C72. The arc sine of the sine of an angle between −π/2 and π/2 is the angle. -/
theorem C72_asin (y : ℚ) (hy : |y| ≤ 1 / 2) (v : Expr D) (h : Sine y v) : Yields cfg (fun E => Api.trig E .asin v) (angle y) := by
  refine Tot.yields (tot_trig ?_) (apiTrig_mono _ _)
  rcases h.small hy with ⟨h0, hm⟩ | ⟨h0, hm⟩
  · have := (sin_cv h6 hm).tot_asin hcfg sin_tabOk (tot_sineTable hcfg h6) (Real.sin_le_one _)
    rwa [sin_key hm, Option.map_some, Option.getD_some, angle_eq] at this
  · obtain ⟨w, hw⟩ := pair hm
    have := (sin_nv hcfg h6 hw hm (by linarith)).tot_asin hcfg sin_tabOk (tot_sineTable hcfg h6) (Real.sin_le_one _)
    rwa [sin_key hw, Option.map_some, Option.getD_some, angle_eq, neg_neg] at this

/-- C72. The arc cosine of the cosine of an angle between 0 and π is the angle. -/
theorem C72_acos (y : ℚ) (h0 : 0 ≤ y) (h1 : y ≤ 1) (v : Expr D) (h : Sine (y + 1 / 2) v) : Yields cfg (fun E => Api.trig E .acos v) (angle y) := by
  refine Tot.yields (tot_trig ?_) (apiTrig_mono _ _)
  have h' : Sine (1 / 2 - y) v := by
    rcases h with ⟨a, k, h, e⟩ | ⟨a, k, h, e⟩ | ⟨a, k, h, e⟩ | ⟨a, k, h, e⟩
    · exact .second a (-k) h (by push_cast; linarith)
    · exact .first a (-k) h (by push_cast; linarith)
    · exact .fourth a (-k) h (by push_cast; linarith)
    · exact .third a (-k) h (by push_cast; linarith)
  rcases h'.small (abs_le.2 ⟨by linarith, by linarith⟩) with ⟨h0, hm⟩ | ⟨h0, hm⟩
  · have := (sin_cv h6 hm).tot_acos hcfg sin_tabOk (tot_sineTable hcfg h6) (Real.sin_le_one _)
    rwa [sin_key hm, Option.map_some, Option.getD_some, angle_eq, sub_sub_cancel] at this
  · obtain ⟨w, hw⟩ := pair hm
    have := (sin_nv hcfg h6 hw hm (by linarith)).tot_acos hcfg sin_tabOk (tot_sineTable hcfg h6) (Real.sin_le_one _)
    rwa [sin_key hw, Option.map_some, Option.getD_some, angle_eq, show 1 / 2 + -(1 / 2 - y) = y by ring] at this

/-- C72. asin(sin(xπ)) for any multiple of 15 or 22.5 degrees is the angle between −π/2 and π/2 with the same sine. -/
theorem C72_asin_sin (x y : ℚ) (hx : Special x) (hy : |y| ≤ 1 / 2) (k : ℤ) (hxy : x = y + 2 * k ∨ x = 1 - y + 2 * k) :
    Yields cfg (fun E => trigOfTrigOfPi E .asin .sin x) (angle y : Expr D) := by
  obtain ⟨v, hv, _⟩ := C71_exists (D := D) x hx
  have hv' : Sine y v := by
    rcases hxy with rfl | rfl <;> rcases hv with ⟨a, j, h, e⟩ | ⟨a, j, h, e⟩ | ⟨a, j, h, e⟩ | ⟨a, j, h, e⟩
    · exact .first a (j - k) h (by push_cast; linarith)
    · exact .second a (j - k) h (by push_cast; linarith)
    · exact .third a (j - k) h (by push_cast; linarith)
    · exact .fourth a (j - k) h (by push_cast; linarith)
    · exact .second a (k - j) h (by push_cast; linarith)
    · exact .first a (k - j) h (by push_cast; linarith)
    · exact .fourth a (k - j) h (by push_cast; linarith)
    · exact .third a (k - j) h (by push_cast; linarith)
  exact Tot.yields (tot_bind (C71_sin cfg hcfg h6 x v hv).1 (C72_asin cfg hcfg h6 y hy v hv').1) (trigOfTrigOfPi_mono _ _ _)

/-- C72. acos(cos(xπ)) for any multiple of 15 or 22.5 degrees is the angle between 0 and π with the same cosine. -/
theorem C72_acos_cos (x y : ℚ) (hx : Special x) (h0 : 0 ≤ y) (h1 : y ≤ 1) (k : ℤ) (hxy : x = y + 2 * k ∨ x = -y + 2 * k) :
    Yields cfg (fun E => trigOfTrigOfPi E .acos .cos x) (angle y : Expr D) := by
  have hx' : Special (x + 1 / 2) := by
    rcases hx with ⟨n, hn⟩ | ⟨n, hn⟩
    · exact .inl ⟨n + 6, by push_cast; linarith⟩
    · exact .inr ⟨n + 4, by push_cast; linarith⟩
  obtain ⟨v, hv, _⟩ := C71_exists (D := D) (x + 1 / 2) hx'
  have hv' : Sine (y + 1 / 2) v := by
    rcases hxy with rfl | rfl <;> rcases hv with ⟨a, j, h, e⟩ | ⟨a, j, h, e⟩ | ⟨a, j, h, e⟩ | ⟨a, j, h, e⟩
    · exact .first a (j - k) h (by push_cast; linarith)
    · exact .second a (j - k) h (by push_cast; linarith)
    · exact .third a (j - k) h (by push_cast; linarith)
    · exact .fourth a (j - k) h (by push_cast; linarith)
    · exact .second a (k - j) h (by push_cast; linarith)
    · exact .first a (k - j) h (by push_cast; linarith)
    · exact .fourth a (k - j) h (by push_cast; linarith)
    · exact .third a (k - j) h (by push_cast; linarith)
  exact Tot.yields (tot_bind (C71_cos cfg hcfg h6 x v hv).1 (C72_acos cfg hcfg h6 y h0 h1 v hv').1) (trigOfTrigOfPi_mono _ _ _)

/-- C72. The arc tangent of the entries of the table. -/
theorem C72_atan (a : ℚ) (v : Expr D) :
    ((a, v) ∈ tangents → Yields cfg (fun E => Api.trig E .atan v) (angle a)) ∧
    ((a, v) ∈ negTangents → Yields cfg (fun E => Api.trig E .atan v) (angle (-a))) := by
  have key : ∀ {a : ℚ} {v : Expr D}, (a, v) ∈ tangents → Tot cfg (fun E => trigCreate E .atan v) (angle a) := fun h => by
    obtain ⟨h1, h2⟩ := mem_tangents h
    have := (tan_cv hcfg h6 h1 h2).tot_atan hcfg tan_tabOk (tot_tanTable hcfg h6)
    rwa [tan_key h1 h2, Option.map_some, Option.getD_some, angle_eq] at this
  constructor
  · exact fun h => Tot.yields (tot_trig (key h)) (apiTrig_mono _ _)
  · intro h
    refine Tot.yields (tot_trig ?_) (apiTrig_mono _ _)
    obtain ⟨h1, h2⟩ := mem_negTangents h
    by_cases ha : a = 0
    · subst ha
      simp only [negTangents, List.mem_cons, List.not_mem_nil, or_false, Prod.mk.injEq] at h
      norm_num at h
      rw [h, neg_zero]
      exact key (by simp [tangents])
    · obtain ⟨w, hw⟩ := tanPair h1
      have := (tan_nv hcfg h6 hw h1 ha h2).tot_atan hcfg tan_tabOk (tot_tanTable hcfg h6)
      rwa [tan_key hw h2, Option.map_some, Option.getD_some, angle_eq] at this

/-- C72. The arc sine and arc cosine of a rational number that is not in [−1, 1] are undefined. -/
theorem C72_range (r : ℚ) (h : 1 < |r|) (f : Fn) (hf : f = .asin ∨ f = .acos) : Yields cfg (fun E => Api.trig E f (.num (.rat r))) (.undef : Expr D) := by
  refine Tot.yields (tot_trig ?_) (apiTrig_mono _ _)
  rcases le_or_gt 0 r with c | c
  · rw [abs_of_nonneg c] at h
    exact (cv_num c).tot_undef (by exact_mod_cast h) hf
  · rw [abs_of_neg c] at h
    have := (nv_num (D := D) (cfg := cfg) (neg_pos.2 c)).tot_undef (by exact_mod_cast h) hf
    rwa [neg_neg] at this

/-- C72. The arc sine and arc cosine of other rational numbers than 0, ±1/2 and ±1 stay, with a positive argument: the
angle is no rational multiple of π. -/
theorem C72_rational (r : ℚ) (h : |r| < 1) (h0 : r ≠ 0) (h2 : |r| ≠ 1 / 2) :
    Yields cfg (fun E => Api.trig E .asin (.num (.rat r)))
      (if 0 < r then .fn .asin (.num (.rat r)) else .prod [.num (.rat (-1)), .fn .asin (.num (.rat (-r)))] : Expr D) ∧
    Yields cfg (fun E => Api.trig E .acos (.num (.rat r)))
      (if 0 < r then .fn .acos (.num (.rat r)) else .sum [.cst .pi, .prod [.num (.rat (-1)), .fn .acos (.num (.rat (-r)))]] : Expr D) := by
  rcases lt_or_gt_of_ne h0 with c | c
  · rw [abs_of_neg c] at h h2
    have hk := sin_key_none (D := D) (r := -r) (by linarith) ⟨by linarith, h2, by linarith⟩
    have nv := nv_num (D := D) (cfg := cfg) (neg_pos.2 c)
    rw [neg_neg] at nv
    have le : (((-r : ℚ)) : ℝ) ≤ 1 := by exact_mod_cast h.le
    rw [if_neg c.le.not_gt, if_neg c.le.not_gt]
    have a1 := nv.tot_asin hcfg sin_tabOk (tot_sineTable hcfg h6) le
    have a2 := nv.tot_acos hcfg sin_tabOk (tot_sineTable hcfg h6) le
    rw [hk, Option.map_none, Option.getD_none, mOne_rat] at a1 a2
    exact ⟨Tot.yields (tot_trig a1) (apiTrig_mono _ _), Tot.yields (tot_trig a2) (apiTrig_mono _ _)⟩
  · rw [abs_of_pos c] at h h2
    have hk := sin_key_none (D := D) (r := r) c.le ⟨h0, h2, by linarith⟩
    have cv := cv_num (D := D) (cfg := cfg) c.le
    have le : (r : ℝ) ≤ 1 := by exact_mod_cast h.le
    rw [if_pos c, if_pos c]
    have a1 := cv.tot_asin hcfg sin_tabOk (tot_sineTable hcfg h6) le
    have a2 := cv.tot_acos hcfg sin_tabOk (tot_sineTable hcfg h6) le
    rw [hk, Option.map_none, Option.getD_none] at a1 a2
    exact ⟨Tot.yields (tot_trig a1) (apiTrig_mono _ _), Tot.yields (tot_trig a2) (apiTrig_mono _ _)⟩

/-- C72. The arc tangent of other rational numbers than 0 and ±1 stays, with a positive argument. -/
theorem C72_atan_rational (r : ℚ) (h0 : r ≠ 0) (h1 : |r| ≠ 1) : Yields cfg (fun E => Api.trig E .atan (.num (.rat r)))
    (if 0 < r then .fn .atan (.num (.rat r)) else .prod [.num (.rat (-1)), .fn .atan (.num (.rat (-r)))] : Expr D) := by
  refine Tot.yields (tot_trig ?_) (apiTrig_mono _ _)
  rcases lt_or_gt_of_ne h0 with c | c
  · rw [abs_of_neg c] at h1
    have hk := tan_key_none (D := D) (r := -r) (by linarith) ⟨by linarith, h1⟩
    have nv := nv_num (D := D) (cfg := cfg) (neg_pos.2 c)
    rw [neg_neg] at nv
    rw [if_neg c.le.not_gt]
    have := nv.tot_atan hcfg tan_tabOk (tot_tanTable hcfg h6)
    rwa [hk, Option.map_none, Option.getD_none, mOne_rat] at this
  · rw [abs_of_pos c] at h1
    have hk := tan_key_none (D := D) (r := r) c.le ⟨h0, h1⟩
    rw [if_pos c]
    have := (cv_num (D := D) (cfg := cfg) c.le).tot_atan hcfg tan_tabOk (tot_tanTable hcfg h6)
    rwa [hk, Option.map_none, Option.getD_none] at this

end

/-! ## The hypotheses are met -/

namespace TrigInvEx

open Angles ExprEx TrigPiEx

/-- tan(π/8) = −1 + √2, also after three turns, and −tan(π/8) = 1 − √2. -/
example : Yields (Cfg.std 1000 : Cfg Hyb) (fun E => trigOfPi E .tan (1 / 8 + 2 * (3 : ℕ))) (.sum [q (-1), root (q 2)]) :=
  C72_tan _ (Cfg.std_ok 1000) std6 (1 / 8) 3 _ (by simp [tangents])
example : Yields (Cfg.std 1000 : Cfg Hyb) (fun E => trigOfPi E .tan (-(1 / 8 + 2 * (3 : ℕ)))) (.sum [q 1, .prod [q (-1), root (q 2)]]) :=
  C72_tan_neg _ (Cfg.std_ok 1000) std6 (1 / 8) 3 _ (by simp [negTangents])

/-- tan(−2/7·π) = −tan(2/7·π). -/
example : Yields (Cfg.std 1000 : Cfg Hyb) (fun E => trigOfPi E .tan (-(2 / 7)))
    (.prod [.num (.rat (-1)), .fn .tan (.prod [.num (.rat (2 / 7)), .cst .pi])]) := by
  have := C72_tan_other (D := Hyb) _ (Cfg.std_ok 1000) std6 _ not_special
  rwa [if_neg (by norm_num), neg_neg, xPi, if_neg (by norm_num)] at this

/-- asin(sin(13/8·π)) = −3/8·π and acos(cos(13/8·π)) = 3/8·π. -/
example : Yields (Cfg.std 1000 : Cfg Hyb) (fun E => trigOfTrigOfPi E .asin .sin (13 / 8)) (.prod [.num (.rat (-(3 / 8))), .cst .pi]) := by
  have := C72_asin_sin (D := Hyb) _ (Cfg.std_ok 1000) std6 (13 / 8) (-(3 / 8)) (.inr ⟨13, by norm_num⟩) (by norm_num [abs_of_neg]) 1 (.inl (by norm_num))
  rwa [angle, if_neg (by norm_num), xPi, if_neg (by norm_num)] at this
example : Yields (Cfg.std 1000 : Cfg Hyb) (fun E => trigOfTrigOfPi E .acos .cos (13 / 8)) (.prod [.num (.rat (3 / 8)), .cst .pi]) := by
  have := C72_acos_cos (D := Hyb) _ (Cfg.std_ok 1000) std6 (13 / 8) (3 / 8) (.inr ⟨13, by norm_num⟩) (by norm_num) (by norm_num) 1 (.inr (by norm_num))
  rwa [angle, if_neg (by norm_num), xPi, if_neg (by norm_num)] at this

/-- acos(−1/3) = π − acos(1/3). -/
example : Yields (Cfg.std 1000 : Cfg Hyb) (fun E => Api.trig E .acos (.num (.rat (-(1 / 3)))))
    (.sum [.cst .pi, .prod [.num (.rat (-1)), .fn .acos (.num (.rat (1 / 3)))]]) := by
  have := (C72_rational (D := Hyb) _ (Cfg.std_ok 1000) std6 (-(1 / 3)) (by norm_num [abs_of_neg]) (by norm_num) (by norm_num [abs_of_neg])).2
  rwa [if_neg (by norm_num), neg_neg] at this

open ExprEx in
/-- C72 (finding 40). The tangent is not reduced by its period π: tan(π/8 + π) is a quotient of roots and not −1 + √2. -/
theorem C72_period : ∃ r : Expr Hyb, (∃ cs, trigOfPi (eng (Cfg.std 1000 : Cfg Hyb) 24) .tan (1 / 8 + 1) = .ok (r, cs)) ∧
    r = .prod [recRoot (.sum [q 2, root (q 2)]), root (.sum [q 2, .prod [q (-1), root (q 2)]])] ∧ ¬ (1 / 8, r) ∈ (tangents : List (ℚ × Expr Hyb)) := by
  refine ⟨_, M.val_some (by krfl), rfl, ?_⟩
  simp only [tangents, List.mem_cons, List.not_mem_nil, or_false, Prod.mk.injEq]
  norm_num [q, root, recRoot]
  exact nofun

end TrigInvEx

end Tsym
