import Verif.PowRoot
import Verif.Props.IntPow

set_option autoImplicit false
set_option linter.unusedSectionVars false
set_option linter.unusedSimpArgs false

/-!
# C88: powers of roots of rational numbers

A power of a power of a positive rational number is the power with the product of the exponents. For reduced roots
and roots above the limit for primes: if the product is an integer, the result is the exact number, so that the root of degree `d` to
the power of `d` gives back what is below the root; otherwise the result has the form of C86.
-/

namespace Tsym

open Expr NumPowerSimpl PowExact RootPow

/-! ## Proofs -/

theorem natAbs_inv_num {r : ℚ} (hr : 0 < r) : (1 / r).num.natAbs = r.den ∧ (1 / r).den = r.num.natAbs := by
  have h1 : 0 < r.num := Rat.num_pos.2 hr
  rw [one_div]
  constructor
  · rw [Rat.num_inv, Int.sign_eq_one_of_pos h1]; simp
  · rw [Rat.den_inv]; simp [h1.ne']

theorem Roots.within_inv {max : ℤ} {r : ℚ} (hr : 0 < r) : Roots.Within max (1 / r) ↔ Roots.Within max r := by
  obtain ⟨h1, h2⟩ := natAbs_inv_num hr
  unfold Roots.Within
  rw [Int.abs_eq_natAbs, Int.abs_eq_natAbs, h1, h2]
  exact and_comm

theorem PowExact.mistaken_inv {d : ℕ} {r : ℚ} (hr : 0 < r) : Mistaken d (1 / r) ↔ Mistaken d r := by
  obtain ⟨h1, h2⟩ := natAbs_inv_num hr
  unfold Mistaken
  rw [h1, h2]
  constructor <;> rintro ⟨c, hc, a1, a2, q, hq⟩ <;> exact ⟨c, hc, a2, a1, q, hq.symm⟩

/-- An integer power of a number below a reduced root is right. -/
theorem RootPow.Reduced.not_mistaken {r f : ℚ} (h : Reduced r f) : ¬ Mistaken 1 r := by
  rintro ⟨c, hc, m1, m2, -⟩
  obtain ⟨k0, k1, k2⟩ := exp_parts h.exp_pos h.exp_lt
  have hn := Rat.num_pos.2 h.pos
  have key : ∀ {N : ℕ}, N ≠ 0 → (∀ p, p.Prime → ¬ p ^ f.den ∣ N) → (Nothing 1 N ∨ Common 1 N c) → (Nothing f.den N ∨ Common f.den N c) := by
    intro N h0 hl hm
    have hlt := (low_iff f.den_nz h0).1 hl
    have he : ∀ z, left f.den N z = left 1 N z := fun z => by
      rw [left, left, if_neg (by omega), if_pos rfl, Nat.mod_eq_of_lt (hlt z)]
    rcases hm with hm | ⟨⟨p, a1, a2, a3⟩, a4⟩
    · exact .inl fun z => by rw [he]; exact hm z
    · exact .inr ⟨⟨p, a1, by rw [he]; exact a2, fun q hq => a3 q (by rw [← he]; exact hq)⟩, fun q => by rw [he]; exact a4 q⟩
  exact h.single c hc ⟨key (by omega) h.low_num m1, key r.den_nz h.low_den m2⟩

section

variable {D : Type} [Flt D] [LawfulFlt D] {cfg : Cfg D}

/-- The two forms of a stored root. -/
theorem RootPow.stored_cases {r f : ℚ} (hr : 0 < r) (hf : f ≠ 0) :
    ∃ (s : ℚ) (x : ℚ), (RootsN.root r f : Expr D) = .pow (num (.rat s)) (num (.rat x)) ∧ 0 < s ∧ x ≠ 0 ∧ (s = r ∧ x = f ∨ s = 1 / r ∧ x = -f) := by
  unfold RootsN.root RootsN.power
  split
  · exact ⟨1 / r, -f, rfl, by positivity, neg_ne_zero.2 hf, .inr ⟨rfl, rfl⟩⟩
  · exact ⟨r, f, rfl, hr, hf, .inl ⟨rfl, rfl⟩⟩

/-- An integer power, also with the exponent one, through Power::createNonTrivial. -/
theorem IntPow.totC_intNT {b : ℚ} {j : ℤ} (hb : 0 < b) (hb1 : b ≠ 1) (hj0 : j ≠ 0) (hk : |j| * 31 ≤ 4294967295) (hmax : cfg.maxPrime < 2 ^ 31)
    (hm : ¬ (Roots.Within cfg.maxPrime b ∧ Mistaken 1 b)) :
    Tot cfg (fun E => powCreateNonTrivial E (num (.rat b)) (num (.rat j))) (num (.rat (b ^ j)) : Expr D) := by
  by_cases hj1 : j = 1
  · subst hj1
    obtain ⟨V, g, hV, hiff, hmis, hcase⟩ := compute_int (D := D) (max := cfg.maxPrime) hb.ne' (m := 1) one_ne_zero (by norm_num) hmax
    have hg : g = true := hmis.2 hm
    subst hg
    have hVb : V = b := by rw [hiff.2 rfl, pow_one]
    subst hVb
    have c1 : ((1 : ℕ) : ℚ) = ((1 : ℤ) : ℚ) := by norm_num
    rw [c1] at hcase
    have hcx : Tot cfg (fun E => doesInvolveComplexNumbers E (num (.rat V) : Expr D) (num (.rat ((1 : ℤ) : ℚ)))) false := tot_noComplex_pos hb _
    rw [zpow_one]
    rcases hcase with ⟨h, -⟩ | ⟨B, hB, hB1, h, -⟩
    · exact totC_powNT (g := true) hV hcx (by norm_num) h (fun _ => by rw [if_pos rfl]) (fun h => absurd rfl h)
    · refine totC_powNT (g := true) hV hcx (by norm_num) h (fun h => absurd h hb1) (fun h => ⟨one, ?_, ?_⟩)
      · have z : (num (.rat 0) : Expr D).isZero = true := by rw [isZero_ratE]; simp
        have u3 : (num (.rat B) : Expr D).isUndefined = false := rfl
        have u4 : (num (.rat 0) : Expr D).isUndefined = false := rfl
        simp only [powCreate, u3, u4, z, Bool.or_self, Bool.true_or, Bool.false_eq_true, if_false, if_true]
        exact tot_pure _
      · have := tot_num_num (D := D) (cfg := cfg) hV one_ne_zero
        rw [one_eq]
        rwa [mul_one] at this
  · obtain ⟨q, g, hq, t, hv, hg⟩ := totC_int (D := D) hb.ne' hb1 hj0 hj1 hk hmax
    have h1 := hg.2 hm
    rw [← hv.2 h1]
    subst h1
    simp only [powNT_eq hb.ne' hb1 (show (j : ℚ) ≠ 0 by exact_mod_cast hj0) (show (j : ℚ) ≠ 1 by exact_mod_cast hj1)] at t
    exact t

/-! ## C88 -/

/-- C88. A power of a power of a positive rational number does what the power with the product of the exponents does: it gives the same
result, with the same conditions, one call deeper. -/
theorem C88_same (b x k : ℚ) (hb : 0 < b) (hb1 : b ≠ 1) (hx : x ≠ 0) (hk : k ≠ 0) (hk1 : k ≠ 1) (hxk : x * k ≠ 1) :
    ∃ N, ∀ n, N ≤ n → Api.pow (eng cfg (n + 1)) (RootsN.power b x : Expr D) (.num (.rat k)) = Api.pow (eng cfg n) (.num (.rat b)) (.num (.rat (x * k))) := by
  obtain ⟨N, hN⟩ := ev_powCreate (D := D) (cfg := cfg) hb hx hk hk1
  refine ⟨N + 1, fun n hn => ?_⟩
  obtain ⟨m, rfl⟩ : ∃ m, n = m + 1 := ⟨n - 1, by omega⟩
  change powCreate (eng cfg (m + 1)) (.pow (num (.rat b)) (num (.rat x)) : Expr D) (num (.rat k)) = powCreate (eng cfg m) (num (.rat b)) (num (.rat (x * k)))
  rw [hN m (by omega), powNT_eq hb.ne' hb1 (mul_ne_zero hx hk) hxk]

/-- C88. A root to a power that makes the exponent an integer is the exact number, for reduced roots and those above the limit. -/
theorem C88_integer (r f k : ℚ) (j : ℤ) (hr : 0 < r) (hr1 : r ≠ 1) (hf : 0 < f) (hfd : f.den ≠ 1) (h : Roots.Within cfg.maxPrime r → Reduced r f)
    (hj : f * k = j) (hj0 : j ≠ 0) (hjs : |j| * 31 ≤ 4294967295) (hmax : cfg.maxPrime < 2 ^ 31) :
    Gives cfg (fun E => Api.pow E (RootsN.root r f : Expr D) (.num (.rat k))) (.num (.rat (r ^ j))) := by
  have hk : k ≠ 0 := by rintro rfl; rw [mul_zero] at hj; exact hj0 (by exact_mod_cast hj.symm)
  have hk1 : k ≠ 1 := by rintro rfl; rw [mul_one] at hj; exact hfd (by rw [hj]; exact Rat.den_intCast j)
  have hm : ¬ (Roots.Within cfg.maxPrime r ∧ Mistaken 1 r) := fun hh => (h hh.1).not_mistaken hh.2
  obtain ⟨s, x, he, hs, hx, hcase⟩ := stored_cases (D := D) hr hf.ne'
  rw [he]
  refine pow_gives (totC_pow_power (cs := []) hs hx hk hk1 ?_)
  rcases hcase with ⟨rfl, rfl⟩ | ⟨rfl, rfl⟩
  · rw [hj]
    exact IntPow.totC_intNT hr hr1 hj0 hjs hmax hm
  · have hr1' : 1 / r ≠ 1 := by rw [one_div]; simpa using hr1
    have e1 : -f * k = ((-j : ℤ) : ℚ) := by rw [neg_mul, hj]; push_cast; rfl
    have e2 : r ^ j = (1 / r) ^ (-j) := by rw [one_div, inv_zpow, zpow_neg, inv_inv]
    rw [e1, e2]
    refine IntPow.totC_intNT hs hr1' (neg_ne_zero.2 hj0) (by rw [abs_neg]; exact hjs) hmax ?_
    rw [Roots.within_inv hr, mistaken_inv hr]
    exact hm

/-- C88. In particular the root of degree `d` to the power of `d` is the number below the root. -/
theorem C88_inverse (r : ℚ) (d : ℕ) (hd : 2 ≤ d) (hr : 0 < r) (hr1 : r ≠ 1) (h : Roots.Within cfg.maxPrime r → Reduced r (1 / d)) (hmax : cfg.maxPrime < 2 ^ 31) :
    Gives cfg (fun E => Api.pow E (RootsN.root r (1 / d) : Expr D) (.num (.rat d))) (.num (.rat r)) := by
  have hd0 : (d : ℚ) ≠ 0 := by exact_mod_cast (by omega : d ≠ 0)
  have hf : (0 : ℚ) < 1 / d := by positivity
  have hfd : (1 / d : ℚ).den ≠ 1 := by
    rw [one_div, Rat.inv_natCast_den_of_pos (by omega)]
    omega
  have := C88_integer (D := D) (cfg := cfg) r (1 / d) d 1 hr hr1 hf hfd h (by field_simp; norm_num) one_ne_zero (by norm_num) hmax
  rwa [zpow_one] at this

/-- C88. Otherwise, within the limit and without a mistaken common exponent, the result has the form of C86 and the right value. -/
theorem C88_fraction (r f k : ℚ) (h : Reduced r f) (hd : (f * k).den ≠ 1) (hn : |(f * k).num| < 4294967295) (hdm : ((f * k).den : ℤ) < 4294967295)
    (hw : Roots.Within cfg.maxPrime r) (hm : ¬ Mistaken (f * k).den r) :
    ∃ v : Expr D, Normal v ∧ Gives cfg (fun E => Api.pow E (RootsN.root r f : Expr D) (.num (.rat k))) v ∧
      ∀ σ, den σ v = some (((r : ℝ) ^ (f : ℝ)) ^ (k : ℝ)) := by
  have hr := h.pos
  have hrr : (0 : ℝ) < r := by exact_mod_cast hr
  have hy0 : f * k ≠ 0 := by intro h0; rw [h0] at hd; exact hd rfl
  have hy1 : f * k ≠ 1 := by intro h0; rw [h0] at hd; exact hd rfl
  have hk : k ≠ 0 := right_ne_zero_of_mul hy0
  by_cases hk1 : k = 1
  · subst hk1
    refine ⟨_, .root r f h, pow_gives ?_, fun σ => by rw [(C84_value σ r f hr).2]; simp⟩
    obtain ⟨s, x, he, hs, hx, -⟩ := stored_cases (D := D) hr h.exp_pos.ne'
    rw [he]
    have u : (Expr.pow (num (.rat s)) (num (.rat x)) : Expr D).isUndefined = false := rfl
    have o : (Expr.pow (num (.rat s)) (num (.rat x)) : Expr D).isOne = false := rfl
    have z : (Expr.pow (num (.rat s)) (num (.rat x)) : Expr D).isZero = false := rfl
    have u2 : (num (.rat 1) : Expr D).isUndefined = false := rfl
    simp only [powCreate, u, o, z, u2, isZero_ratE, isOne_ratE, one_ne_zero, decide_false, decide_true, Bool.or_self, Bool.false_eq_true, if_false, if_true]
    exact tot_pure _
  obtain ⟨s, x, he, hs, hx, hcase⟩ := stored_cases (D := D) hr h.exp_pos.ne'
  have key : ∃ (v : Expr D), Normal v ∧ TotC cfg [] (fun E => powCreateNonTrivial E (num (.rat s)) (num (.rat (x * k)))) v ∧
      ∀ σ, den σ v = some ((r : ℝ) ^ ((f * k : ℚ) : ℝ)) := by
    rcases hcase with ⟨rfl, rfl⟩ | ⟨rfl, rfl⟩
    · obtain ⟨v, g, nv, t, ⟨y, hv, hg⟩, hgm⟩ := pow_all (D := D) (cfg := cfg) (e := x * k) hr h.ne_one hd hn hdm hw
      have h1 := hgm.2 hm
      subst h1
      simp only [powNT_eq hr.ne' h.ne_one hy0 hy1] at t
      exact ⟨v, nv, t, fun σ => by rw [hv, hg.2 rfl]⟩
    · have hr1' : 1 / r ≠ 1 := by rw [one_div]; simpa using h.ne_one
      have hne : -f * k = -(f * k) := neg_mul _ _
      have hneg : -(f * k) ≠ 1 := by
        intro h0
        have : f * k = ((-1 : ℤ) : ℚ) := by push_cast; linarith
        rw [this] at hd
        exact hd (Rat.den_intCast _)
      rw [hne]
      obtain ⟨v, g, nv, t, ⟨y, hv, hg⟩, hgm⟩ := pow_all (D := D) (cfg := cfg) (b := 1 / r) (e := -(f * k)) hs hr1' (by rw [Rat.neg_den]; exact hd)
        (by rw [Rat.neg_num, abs_neg]; exact hn) (by rw [Rat.neg_den]; exact hdm) ((Roots.within_inv hr).2 hw)
      have h1 := hgm.2 (by rw [Rat.neg_den, mistaken_inv hr]; exact hm)
      subst h1
      simp only [powNT_eq hs.ne' hr1' (neg_ne_zero.2 hy0) hneg] at t
      refine ⟨v, nv, t, fun σ => ?_⟩
      rw [hv, hg.2 rfl]
      congr 1
      push_cast
      rw [one_div, Real.inv_rpow hrr.le, ← Real.rpow_neg hrr.le, neg_neg]
  obtain ⟨v, nv, t, hv⟩ := key
  refine ⟨v, nv, by rw [he]; exact pow_gives (totC_pow_power hs hx hk hk1 t), fun σ => ?_⟩
  rw [hv]
  push_cast
  rw [Real.rpow_mul hrr.le]

/-- C88. Above the limit for primes the exponents are multiplied and nothing else changes. -/
theorem C88_large (r f k : ℚ) (hr : 0 < r) (hr1 : r ≠ 1) (hf : 0 < f) (hk1 : k ≠ 1) (hd : (f * k).den ≠ 1) (hw : ¬ Roots.Within cfg.maxPrime r) :
    Gives cfg (fun E => Api.pow E (RootsN.root r f : Expr D) (.num (.rat k))) (if 0 < k then RootsN.root r (f * k) else RootsN.root (1 / r) (-(f * k))) := by
  have hy0 : f * k ≠ 0 := by intro h0; rw [h0] at hd; exact hd rfl
  have hy1 : f * k ≠ 1 := by intro h0; rw [h0] at hd; exact hd rfl
  have hk : k ≠ 0 := right_ne_zero_of_mul hy0
  have hneg : -(f * k) ≠ 1 := by
    intro h0
    have : f * k = ((-1 : ℤ) : ℚ) := by push_cast; linarith
    rw [this] at hd
    exact hd (Rat.den_intCast _)
  have hd1 : (f * k).den ≠ 0 := (f * k).den_nz
  have hr1' : 1 / r ≠ 1 := by rw [one_div]; simpa using hr1
  have hs : ¬ SmallQ cfg.maxPrime r := fun h => hw (Roots.within_iff.2 h)
  have hs' : ¬ SmallQ cfg.maxPrime (1 / r) := fun h => hw ((Roots.within_inv hr).1 (Roots.within_iff.2 h))
  obtain ⟨s, x, he, hs0, hx, hcase⟩ := stored_cases (D := D) hr hf.ne'
  rw [he, RootsN.root_eq, RootsN.root_eq]
  refine pow_gives (totC_pow_power (cs := []) hs0 hx hk hk1 ?_)
  rcases lt_or_gt_of_ne hk with hn | hp
  · have hpos : 0 < -(f * k) := by nlinarith
    rw [if_neg (not_lt.2 hn.le)]
    rcases hcase with ⟨rfl, rfl⟩ | ⟨rfl, rfl⟩
    · have := (tot_pow_large (D := D) hr hr1 (x := -(x * k)) hpos (by rw [Rat.neg_den]; omega) hs).2
      rw [neg_neg, ← one_div] at this
      simp only [powNT_eq hr.ne' hr1 hy0 hy1] at this
      exact this
    · have := (tot_pow_large (D := D) hs0 hr1' (x := -(f * k)) hpos (by rw [Rat.neg_den]; omega) hs').1
      simp only [powNT_eq hs0.ne' hr1' (neg_ne_zero.2 hy0) hneg] at this
      rw [neg_mul]
      exact this
  · have hpos : 0 < f * k := mul_pos hf hp
    rw [if_pos hp]
    rcases hcase with ⟨rfl, rfl⟩ | ⟨rfl, rfl⟩
    · have := (tot_pow_large (D := D) hr hr1 (x := x * k) hpos (by omega) hs).1
      simp only [powNT_eq hr.ne' hr1 hy0 hy1] at this
      exact this
    · have := (tot_pow_large (D := D) hs0 hr1' (x := f * k) hpos (by omega) hs').2
      rw [one_div, inv_inv] at this
      rw [← one_div] at this
      simp only [powNT_eq hs0.ne' hr1' (neg_ne_zero.2 hy0) hneg] at this
      rw [neg_mul]
      exact this

end

/-! ## Examples -/

/-- `C88_inverse` for the fourth root of 4/27. -/
example : Gives (Cfg.std 1000 : Cfg Hyb) (fun E => Api.pow E (RootsN.root (4 / 27) (1 / 4)) (.num (.rat 4))) (.num (.rat (4 / 27))) := by
  have hr := reduced_fourth
  have := C88_inverse (D := Hyb) (cfg := Cfg.std 1000) (4 / 27) 4 (by norm_num) hr.pos hr.ne_one (fun _ => by exact_mod_cast hr) (by decide +kernel)
  exact_mod_cast this

/-- `C88_fraction` for its square: the hypotheses, and the result, which is the square root of 4/27 in reduced form. -/
example : (1 / 4 * 2 : ℚ).den ≠ 1 ∧ |(1 / 4 * 2 : ℚ).num| < 4294967295 ∧ ((1 / 4 * 2 : ℚ).den : ℤ) < 4294967295 ∧ Roots.Within 1000 (4 / 27) ∧
    ¬ Mistaken (1 / 4 * 2 : ℚ).den (4 / 27) ∧
    Api.pow (eng (Cfg.std 1000) 30 : Eng Hyb) (RootsN.root (4 / 27) (1 / 4)) (.num (.rat 2)) = .ok (.prod [.num (.rat (2 / 3)), RootsN.root (1 / 3) (1 / 2)], []) := by
  have hd : (1 / 4 * 2 : ℚ).den = 2 := by decide +kernel
  refine ⟨by rw [hd]; decide, by decide +kernel, by rw [hd]; decide, by unfold Roots.Within; decide +kernel, ?_, by krfl⟩
  rw [hd]
  exact C85_right 2 _ 0 (.inl (by norm_num))

/-- `C88_large` for the square root of 1009 to the power of three. -/
example : (1 / 2 * 3 : ℚ).den ≠ 1 ∧ ¬ Roots.Within 1000 1009 ∧
    Api.pow (eng (Cfg.std 1000) 30 : Eng Hyb) (RootsN.root 1009 (1 / 2)) (.num (.rat 3)) = .ok (RootsN.root 1009 (1 / 2 * 3), []) := by
  refine ⟨by decide +kernel, by unfold Roots.Within; decide +kernel, by krfl⟩

/-- `C88_same` for the square root of two to the power of five, where the factors leave the root. -/
example : Api.pow (eng (Cfg.std 1000) 30 : Eng Hyb) (RootsN.power 2 (1 / 2)) (.num (.rat 5)) = .ok (.prod [.num (.rat 4), RootsN.power 2 (1 / 2)], []) ∧
    Api.pow (eng (Cfg.std 1000) 29 : Eng Hyb) (.num (.rat 2)) (.num (.rat (1 / 2 * 5))) = .ok (.prod [.num (.rat 4), RootsN.power 2 (1 / 2)], []) :=
  ⟨by krfl, by krfl⟩

end Tsym
