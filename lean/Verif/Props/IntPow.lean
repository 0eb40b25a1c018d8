import Verif.TrigTable
import Verif.QPow
import Verif.Props.RootPow

set_option autoImplicit false
set_option linter.unusedSectionVars false
set_option linter.unusedSimpArgs false

/-!
# C87: integer powers of rational numbers, and the powers that are not defined

Together with C86 this covers all powers of rational numbers with rational exponents: integer powers of positive and
negative numbers are numbers, and they are right exactly if no common exponent is mistaken; powers of negative numbers with
other exponents are undefined, and so are negative powers of zero.
-/

namespace Tsym

open Expr NumPowerSimpl PowExact

/-! ## Proofs -/

section

variable {D : Type} [Flt D] [LawfulFlt D] {cfg : Cfg D}

namespace IntPow

theorem totC_whenTrue {f : Eng D → M D Bool} {cs : List (Cond D)} (h : TotC cfg cs f true) : TotC cfg cs (fun E => M.whenTrue (f E)) true := by
  obtain ⟨N, hN⟩ := h
  refine ⟨N, fun n hn => ?_⟩
  dsimp only
  rw [hN n hn]
  show Except.ok (true, [] ++ (cs ++ [])) = _
  simp

/-- The run with a positive base, before the sign is put back. -/
theorem allPos_run {max : ℤ} {a : ℚ} (ha : 0 < a) {m : ℕ} (hm : m ≠ 0) (hk : (m : ℤ) * 31 ≤ 4294967295) (hmax : max < 2 ^ 31) :
    ∃ (B X Q : ℚ) (g : Bool), (∀ neg, computeAllPos max neg (⟨.rat a, .rat m, .rat 1⟩ : Payload D) = .ok (shiftPreFacSignBack neg ⟨.rat B, .rat X, .rat Q⟩, g)) ∧
      0 < B ∧ 0 < Q ∧ (X = 0 ∧ (Q = 1 → B = 1) ∨ X = 1 ∧ Q = 1) ∧ ((Q : ℝ) * (B : ℝ) ^ (X : ℝ) = (a : ℝ) ^ m ↔ g = true) ∧
      (g = true ↔ ¬ (Roots.Within max a ∧ Mistaken 1 a)) := by
  have hu : Number.unsignedMax = 4294967295 := by decide +kernel
  have hm0 : (0 : ℚ) < m := by exact_mod_cast Nat.pos_of_ne_zero hm
  have hden : (m : ℚ).den = 1 := Rat.den_natCast m
  have hnum : (m : ℚ).num = m := Rat.num_natCast m
  have ha' : ¬ a < 0 := not_lt.2 ha.le
  have h10 : ¬ ((1 : ℚ) < 0) := by norm_num
  have hone : (m : ℚ).den = 1 → (m : ℚ).num * 31 ≤ Number.unsignedMax ∧ max < 2 ^ 31 := fun _ => by rw [hnum, hu]; exact ⟨hk, hmax⟩
  obtain ⟨B, X, Q, g, hpos, hB, hQ, hiff⟩ := computePos_run (D := D) (max := max) ha hm0 (by rw [hnum, hu]; omega) (by rw [hden, hu]; decide) hone
  have hr : ((m : ℚ) : ℝ) = (m : ℝ) := by push_cast; rfl
  rw [hden, hr, Real.rpow_natCast] at hiff
  have hpe : computePosExp max (⟨.rat a, .rat m, .rat 1⟩ : Payload D) = computeAllPos max false (⟨.rat a, .rat m, .rat 1⟩ : Payload D) := by
    unfold computePosExp computePosExpPosBase
    simp only [rat_lt_zero, ha', h10, decide_false, Bool.false_eq_true, if_false, bind, Except.bind, pure, Except.pure]
  rw [hpe] at hpos
  have key : ∃ (g : Bool) (B X Q : ℚ), (if areValuesSmallEnough max (⟨.rat a, .rat m, .rat 1⟩ : Payload D) then NumPowerSimpl.cancel (⟨.rat a, .rat m, .rat 1⟩ : Payload D)
      else if (Number.rat (m : ℚ) : Number D).isInt then do pure (← adjustExpGreaterThanOne (⟨.rat a, .rat m, .rat 1⟩ : Payload D), true)
      else pure ((⟨.rat a, .rat m, .rat 1⟩ : Payload D), true)) = .ok (⟨.rat B, .rat X, .rat Q⟩, g) ∧ (X = 0 ∧ (Q = 1 → B = 1) ∨ X = 1 ∧ Q = 1) ∧
      ((Q : ℝ) * (B : ℝ) ^ (X : ℝ) = (a : ℝ) ^ m ↔ g = true) := by
    by_cases hs : SmallQ max a
    · have hsm : areValuesSmallEnough max (⟨.rat a, .rat m, .rat 1⟩ : Payload D) = true := small_iff.2 ⟨hs, hs.one⟩
      obtain ⟨P, R, s, B, X, Q, g, h1, cP, cR, hs0, hv, hB, hQ, c1, c2, -, hg, -, hi⟩ := cancel_run (D := D) ha hm0 (by rw [hnum, hu]; omega) (by rw [hden, hu]; decide)
        (fun h p => by
          have hw := Roots.within_iff.2 hs
          have w1 : a.num.natAbs < 2 ^ 31 := by have := hw.1; rw [Int.abs_eq_natAbs] at this; omega
          have w2 : a.den < 2 ^ 31 := by have := hw.2; omega
          have f1 := fact_lt (by have := Rat.num_pos.2 ha; omega) w1 p
          have f2 := fact_lt a.den_nz w2 p
          rw [hnum, hu]
          constructor
          · refine le_trans (mul_le_mul_of_nonneg_right (?_ : _ ≤ (31 : ℤ)) (by omega)) (by linarith)
            exact_mod_cast f1.le
          · refine le_trans (mul_le_mul_of_nonneg_right (?_ : _ ≤ (31 : ℤ)) (by omega)) (by linarith)
            exact_mod_cast f2.le)
      rw [hr, Real.rpow_natCast] at hg
      exact ⟨g, B, X, Q, by rw [if_pos hsm, h1], (hi hden).imp (And.imp_right fun h h' => absurd h' h) id, hg⟩
    · have hsm : ¬ areValuesSmallEnough max (⟨.rat a, .rat m, .rat 1⟩ : Payload D) = true := fun h' => hs (small_iff.1 h').1
      have hint : (Number.rat (m : ℚ) : Number D).isInt = true := by simp [Number.isInt, Number.isRational, Number.denominator, Number.isDouble]
      obtain ⟨X', Q', n, hadj, hq, hval, hQ', -, -, hi⟩ := adjust_run (D := D) ha one_pos hm0 (by rw [hu]; exact_mod_cast (by omega : (m : ℤ) ≤ 4294967295))
      rw [one_mul] at hQ'
      refine ⟨true, a, X', Q', by rw [if_neg hsm, if_pos hint, hadj]; rfl, ?_, ?_⟩
      · rcases hi hden with ⟨i1, i2⟩ | ⟨i1, i2⟩
        · refine .inl ⟨i1, fun h => ?_⟩
          rw [hQ'] at h
          exact (pow_eq_one_iff_of_nonneg ha.le i2).1 h
        · exact .inr ⟨i1, by rw [hQ', i2, pow_zero]⟩
      · rw [hval, hr, Real.rpow_natCast]; simp
  obtain ⟨g', B', X', Q', h1, h2, h3⟩ := key
  have hall : ∀ neg, computeAllPos max neg (⟨.rat a, .rat m, .rat 1⟩ : Payload D) = .ok (shiftPreFacSignBack neg ⟨.rat B', .rat X', .rat Q'⟩, g') := by
    intro neg
    unfold computeAllPos
    rw [h1]
    rfl
  have hq := hall false
  rw [hpos] at hq
  simp only [shiftPreFacSignBack, Bool.not_false, if_true, Except.ok.injEq, Prod.mk.injEq, Payload.mk.injEq, Number.rat.injEq] at hq
  obtain ⟨⟨rfl, rfl, rfl⟩, rfl⟩ := hq
  exact ⟨B, X, Q, g, hall, hB, hQ, h2, h3, by rw [← h3, hiff]⟩

/-- The result of the simplification: a number with exponent one, or with exponent zero below a prefactor. -/
theorem compute_int {max : ℤ} {b : ℚ} (hb : b ≠ 0) {m : ℕ} (hm : m ≠ 0) (hk : (m : ℤ) * 31 ≤ 4294967295) (hmax : max < 2 ^ 31) :
    ∃ (V : ℚ) (g : Bool), V ≠ 0 ∧ (V = b ^ m ↔ g = true) ∧ (g = true ↔ ¬ (Roots.Within max b ∧ Mistaken 1 b)) ∧
      ((compute max (⟨.rat b, .rat m, .rat 1⟩ : Payload D) = .ok (⟨.rat V, .rat 1, .rat 1⟩, g) ∧
        compute max (⟨.rat b, .rat (-m), .rat 1⟩ : Payload D) = .ok (⟨.rat V⁻¹, .rat 1, .rat 1⟩, g)) ∨
      (∃ B : ℚ, B ≠ 0 ∧ (V = 1 → B = 1) ∧ compute max (⟨.rat b, .rat m, .rat 1⟩ : Payload D) = .ok (⟨.rat B, .rat 0, .rat V⟩, g) ∧
        compute max (⟨.rat b, .rat (-m), .rat 1⟩ : Payload D) = .ok (⟨.rat B, .rat 0, .rat V⁻¹⟩, g))) := by
  have hu : Number.unsignedMax = 4294967295 := by decide +kernel
  have hm0 : (0 : ℚ) < m := by exact_mod_cast Nat.pos_of_ne_zero hm
  have ha : 0 < |b| := abs_pos.2 hb
  have h10 : ¬ ((1 : ℚ) < 0) := by norm_num
  obtain ⟨B, X, Q, g, hall, hB, hQ, hX, hg, hmis⟩ := allPos_run (D := D) (max := max) ha hm hk hmax
  have habs : |b|.num.natAbs = b.num.natAbs ∧ |b|.den = b.den := by
    rcases abs_choice b with h | h <;> rw [h]
    · exact ⟨rfl, rfl⟩
    · exact ⟨by rw [Rat.neg_num, Int.natAbs_neg], Rat.neg_den b⟩
  have hmw : Roots.Within max |b| ∧ Mistaken 1 |b| ↔ Roots.Within max b ∧ Mistaken 1 b := by
    unfold Roots.Within Mistaken
    rw [Int.abs_eq_natAbs, Int.abs_eq_natAbs, habs.1, habs.2]
  rw [hmw] at hmis
  -- the sign
  obtain ⟨neg, s, hs, hneg, hsv⟩ : ∃ (neg : Bool) (s : ℚ), s = (if neg then -1 else 1) ∧
      computePosExp max (⟨.rat b, .rat m, .rat 1⟩ : Payload D) = computeAllPos max neg (⟨.rat |b|, .rat m, .rat 1⟩ : Payload D) ∧ b ^ m = s * |b| ^ m := by
    have hmul : ∀ x : ℚ, (Number.rat x : Number D).mul (.neg 1) = .rat (-x) := fun x => by rw [Number.neg_one_def]; simp [Number.mul]
    by_cases hn : b < 0
    · have ht : (Number.neg 1 : Number D).toThe (.rat m) = .ok (.rat ((-1) ^ m)) := by
        have := Number.toThe_eq (D := D) (q := -1) (by norm_num) (n := (m : ℤ)) (by rw [Int.natAbs_natCast, hu]; omega)
        rw [Number.neg_one_def]
        simpa using this
      have hab : |b| = -b := abs_of_neg hn
      rcases Nat.even_or_odd m with he | ho
      · refine ⟨false, 1, by simp, ?_, by rw [one_mul, hab, he.neg_pow]⟩
        unfold computePosExp shiftNegBase computePosExpPosBase
        simp only [rat_lt_zero, hn, decide_true, if_true, ht, he.neg_one_pow, bind, Except.bind, pure, Except.pure, hmul, show (Number.rat 1 : Number D).mul (.rat 1) = .rat 1 by simp [Number.mul], h10,
          decide_false, Bool.false_eq_true, if_false, hab]
      · refine ⟨true, -1, by simp, ?_, by rw [hab, ho.neg_pow]; ring⟩
        have h11 : ((-1 : ℚ) < 0) := by norm_num
        unfold computePosExp shiftNegBase computePosExpPosBase
        simp only [rat_lt_zero, hn, decide_true, if_true, ht, ho.neg_one_pow, bind, Except.bind, pure, Except.pure, hmul, h11, hab,
          show (Number.rat 1 : Number D).mul (.rat (-1)) = .rat (-1) by simp [Number.mul], neg_neg]
    · have hab : |b| = b := abs_of_nonneg (not_lt.1 hn)
      refine ⟨false, 1, by simp, ?_, by rw [one_mul, hab]⟩
      unfold computePosExp computePosExpPosBase
      simp only [rat_lt_zero, hn, decide_false, Bool.false_eq_true, if_false, bind, Except.bind, pure, Except.pure, h10, hab]
  have hs0 : s ≠ 0 := by rw [hs]; split <;> norm_num
  have hpos := hneg.trans (hall neg)
  have hv1 : ∀ x : ℚ, x.den = 1 → isInputValid (⟨.rat b, .rat x, .rat 1⟩ : Payload D) = true := fun x hx => by
    have : (Number.rat x : Number D).isInt = true := by simp [Number.isInt, Number.isRational, Number.denominator, Number.isDouble, hx]
    simp [isInputValid, this]
  have v1 := hv1 m (Rat.den_natCast m)
  have v2 := hv1 (-m) (by rw [Rat.neg_den]; exact Rat.den_natCast m)
  have hmul : ∀ x : ℚ, (Number.rat x : Number D).mul (.neg 1) = .rat (-x) := fun x => by rw [Number.neg_one_def]; simp [Number.mul]
  have hone : Number.toThe (.rat 1 : Number D) (Number.neg 1) = .ok (.rat 1) := by simpa using toThe_negone (D := D) (q := 1) one_ne_zero
  have hp : ¬ ((m : ℚ) < 0) := not_lt.2 hm0.le
  have hn : -(m : ℚ) < 0 := neg_lt_zero.2 hm0
  have z1 : ¬ ((0 : ℚ) = 1) := by norm_num
  have z0 : ¬ ((0 : ℚ) < 0) := lt_irrefl _
  rcases hX with ⟨rfl, hQ1⟩ | ⟨rfl, rfl⟩
  · -- the exponent has become zero
    have hsh : shiftPreFacSignBack neg (⟨.rat B, .rat 0, .rat Q⟩ : Payload D) = ⟨.rat B, .rat 0, .rat (s * Q)⟩ := by
      unfold shiftPreFacSignBack
      rw [hs]
      cases neg <;> simp [rat_eqv_one, hmul]
    rw [hsh] at hpos
    have hV0 : s * Q ≠ 0 := mul_ne_zero hs0 hQ.ne'
    have hadj : ∀ Y : ℚ, ∃ B' : ℚ, B' ≠ 0 ∧ B' = (if B.num = 1 then B⁻¹ else B) ∧
        adjustExpSignAndBase (⟨.rat B, .rat 0, .rat Y⟩ : Payload D) = .ok ⟨.rat B', .rat 0, .rat Y⟩ := by
      intro Y
      unfold adjustExpSignAndBase
      by_cases e2 : B.num = 1
      · have e3 : ((Number.rat B : Number D).numerator == 1) = true := by simpa [Number.numerator] using e2
        refine ⟨B⁻¹, inv_ne_zero hB.ne', by rw [if_pos e2], ?_⟩
        simp only [e3, rat_eqv_one, z1, decide_false, Bool.not_false, Bool.and_true, Bool.true_or, if_true, toThe_negone hB.ne', bind, Except.bind, hmul, neg_zero,
          pure, Except.pure]
      · have e3 : ((Number.rat B : Number D).numerator == 1) = false := by simpa [Number.numerator] using e2
        refine ⟨B, hB.ne', by rw [if_neg e2], ?_⟩
        simp only [e3, rat_eqv_one, z1, rat_lt_zero, z0, decide_false, Bool.not_false, Bool.and_true, Bool.false_and, Bool.or_self, Bool.false_eq_true, if_false,
          pure, Except.pure]
    obtain ⟨B1, hB1, e1, a1⟩ := hadj (s * Q)
    obtain ⟨B2, hB2, e2, a2⟩ := hadj (s * Q)⁻¹
    rw [← e1] at e2
    subst e2
    refine ⟨s * Q, g, hV0, ?_, hmis, .inr ⟨B2, hB2, ?_, ?_, ?_⟩⟩
    · rw [hsv, ← hg]
      simp only [Rat.cast_zero, Real.rpow_zero, mul_one]
      rw [mul_right_inj' hs0]
      exact_mod_cast Iff.rfl
    · intro h
      have h1 : s = 1 ∧ Q = 1 := by
        rw [hs] at h
        cases neg
        · simp at h; exact ⟨by rw [hs]; simp, h⟩
        · simp at h; linarith
      rw [e1, hQ1 h1.2]; simp
    · unfold compute computeRational
      simp only [v1, Bool.not_true, Bool.false_eq_true, if_false, Number.isDouble, Bool.or_self, rat_lt_zero, hp, decide_false, hpos, bind, Except.bind, a1, pure, Except.pure]
    · unfold compute computeRational computeNegExp
      simp only [v2, Bool.not_true, Bool.false_eq_true, if_false, Number.isDouble, Bool.or_self, rat_lt_zero, hn, decide_true, if_true, bind, Except.bind, hone,
        hmul, neg_neg, hpos, toThe_negone hV0, rat_eqv_zero, hB.ne', decide_false, rat_eqv_one, z1, neg_zero, a2, pure, Except.pure]
  · have hsh : shiftPreFacSignBack neg (⟨.rat B, .rat 1, .rat 1⟩ : Payload D) = ⟨.rat (s * B), .rat 1, .rat 1⟩ := by
      unfold shiftPreFacSignBack
      rw [hs]
      cases neg <;> simp [rat_eqv_one, hmul]
    rw [hsh] at hpos
    have hV0 : s * B ≠ 0 := mul_ne_zero hs0 hB.ne'
    have hadj1 : ∀ x : ℚ, adjustExpSignAndBase (⟨.rat x, .rat 1, .rat 1⟩ : Payload D) = .ok ⟨.rat x, .rat 1, .rat 1⟩ := by
      intro x
      unfold adjustExpSignAndBase
      simp only [rat_eqv_one, rat_lt_zero, h10, decide_true, decide_false, Bool.not_true, Bool.and_false, Bool.false_and, Bool.or_self, Bool.false_eq_true, if_false]
      rfl
    refine ⟨s * B, g, hV0, ?_, hmis, .inl ⟨?_, ?_⟩⟩
    · rw [hsv, ← hg]
      simp only [Rat.cast_one, Real.rpow_one, one_mul]
      rw [mul_right_inj' hs0]
      exact_mod_cast Iff.rfl
    · unfold compute computeRational
      simp only [v1, Bool.not_true, Bool.false_eq_true, if_false, Number.isDouble, Bool.or_self, rat_lt_zero, hp, decide_false, hpos, bind, Except.bind, hadj1, pure, Except.pure]
    · unfold compute computeRational computeNegExp
      simp only [v2, Bool.not_true, Bool.false_eq_true, if_false, Number.isDouble, Bool.or_self, rat_lt_zero, hn, decide_true, if_true, bind, Except.bind, hone,
        hmul, neg_neg, hpos, rat_eqv_zero, hV0, decide_false, rat_eqv_one, toThe_negone hV0, hadj1, pure, Except.pure]

theorem totC_num_zero {b e : ℚ} {g : Bool} {B P : ℚ} (hb : b ≠ 0) (hb1 : b ≠ 1) (he : e ≠ 0) (he1 : e ≠ 1) (hd : e.den = 1)
    (hP : P ≠ 0) (hB1 : P = 1 → B = 1) (hr : compute cfg.maxPrime (⟨.rat b, .rat e, .rat 1⟩ : Payload D) = .ok (⟨.rat B, .rat 0, .rat P⟩, g)) :
    TotC cfg (if g then [] else [.fail]) (fun E => powCreate E (num (.rat b)) (num (.rat e))) (num (.rat P) : Expr D) := by
  have hneg : Tot cfg (fun E => isNeg E (num (.rat b) : Expr D)) ((Number.rat b : Number D).lt 0) := by
    simp only [isNeg]; exact tot_pure _
  refine totC_powQ hb (Qf.tot_noComplex hneg (.inl hd)) hb1 he he1 hr (fun h => ?_) (fun h => ⟨one, ?_, ?_⟩)
  · rw [if_neg (by norm_num), if_pos (hB1 h), h, one_eq]
  · have z : (num (.rat 0) : Expr D).isZero = true := by rw [isZero_ratE]; simp
    have u3 : (num (.rat B) : Expr D).isUndefined = false := rfl
    have u4 : (num (.rat 0) : Expr D).isUndefined = false := rfl
    simp only [powCreate, u3, u4, z, Bool.or_self, Bool.true_or, Bool.false_eq_true, if_false, if_true]
    exact tot_pure _
  · have := tot_num_num (D := D) (cfg := cfg) hP one_ne_zero
    rw [one_eq]
    rwa [mul_one] at this

theorem totC_num_one {b e : ℚ} {g : Bool} {V : ℚ} (hb : b ≠ 0) (hb1 : b ≠ 1) (he : e ≠ 0) (he1 : e ≠ 1) (hd : e.den = 1)
    (hr : compute cfg.maxPrime (⟨.rat b, .rat e, .rat 1⟩ : Payload D) = .ok (⟨.rat V, .rat 1, .rat 1⟩, g)) :
    TotC cfg (if g then [] else [.fail]) (fun E => powCreate E (num (.rat b)) (num (.rat e))) (num (.rat V) : Expr D) := by
  have hneg : Tot cfg (fun E => isNeg E (num (.rat b) : Expr D)) ((Number.rat b : Number D).lt 0) := by
    simp only [isNeg]; exact tot_pure _
  exact totC_powQ hb (Qf.tot_noComplex hneg (.inl hd)) hb1 he he1 hr (fun h => by rw [if_pos rfl]) (fun h => absurd rfl h)

/-- Integer powers. -/
theorem totC_int {b : ℚ} {k : ℤ} (hb : b ≠ 0) (hb1 : b ≠ 1) (hk0 : k ≠ 0) (hk1 : k ≠ 1) (hk : |k| * 31 ≤ 4294967295) (hmax : cfg.maxPrime < 2 ^ 31) :
    ∃ (q : ℚ) (g : Bool), q ≠ 0 ∧ TotC cfg (if g then [] else [.fail]) (fun E => powCreate E (num (.rat b)) (num (.rat k))) (num (.rat q) : Expr D) ∧
      (q = b ^ k ↔ g = true) ∧ (g = true ↔ ¬ (Roots.Within cfg.maxPrime b ∧ Mistaken 1 b)) := by
  have hd : (k : ℚ).den = 1 := Rat.den_intCast k
  have he : (k : ℚ) ≠ 0 := by exact_mod_cast hk0
  have he1 : (k : ℚ) ≠ 1 := by exact_mod_cast hk1
  obtain ⟨V, g, hV, hiff, hmis, hcase⟩ := compute_int (D := D) (max := cfg.maxPrime) hb (m := k.natAbs) (by omega) (by rw [← Int.abs_eq_natAbs]; exact hk) hmax
  have hcast : ((k.natAbs : ℕ) : ℚ) = ((k.natAbs : ℤ) : ℚ) := (Int.cast_natCast _).symm
  rcases lt_or_gt_of_ne hk0 with hn | hp
  · have hkn : -((k.natAbs : ℕ) : ℚ) = k := by
      rw [hcast, ← Int.cast_neg]; congr 1; omega
    have hkz : b ^ k = (b ^ k.natAbs)⁻¹ := by
      rw [← zpow_natCast, ← zpow_neg]; congr 1; omega
    have hinv : V⁻¹ = b ^ k ↔ g = true := by rw [hkz, inv_inj]; exact hiff
    rw [hkn] at hcase
    refine ⟨V⁻¹, g, inv_ne_zero hV, ?_, hinv, hmis⟩
    rcases hcase with ⟨-, h2⟩ | ⟨B, hB, hB1, -, h2⟩
    · exact totC_num_one hb hb1 he he1 hd h2
    · exact totC_num_zero hb hb1 he he1 hd (inv_ne_zero hV) (fun h => hB1 (inv_eq_one.1 h)) h2
  · have hkn : ((k.natAbs : ℕ) : ℚ) = k := by
      rw [hcast]; congr 1; omega
    have hkz : b ^ k = b ^ k.natAbs := by
      rw [← zpow_natCast]; congr 1; omega
    rw [hkn] at hcase
    refine ⟨V, g, hV, ?_, by rw [hkz]; exact hiff, hmis⟩
    rcases hcase with ⟨h2, -⟩ | ⟨B, hB, hB1, h2, -⟩
    · exact totC_num_one hb hb1 he he1 hd h2
    · exact totC_num_zero hb hb1 he he1 hd hV hB1 h2

end IntPow

/-! ## C87 -/

/-- C87. An integer power of a rational number other than zero, positive or negative, is the right number if the exponent is zero or one,
the number is above the limit for primes or no common exponent is mistaken. -/
theorem C87_right (b : ℚ) (k : ℤ) (hb : b ≠ 0) (hk : |k| * 31 ≤ 4294967295) (hmax : cfg.maxPrime < 2 ^ 31)
    (h : k = 0 ∨ k = 1 ∨ ¬ (Roots.Within cfg.maxPrime b ∧ Mistaken 1 b)) :
    Gives cfg (fun E => Api.pow E (.num (.rat b) : Expr D) (.num (.rat k))) (.num (.rat (b ^ k))) := by
  refine pow_gives ?_
  have u1 : (num (.rat b) : Expr D).isUndefined = false := rfl
  have u2 : (num (.rat (k : ℚ)) : Expr D).isUndefined = false := rfl
  by_cases hk0 : k = 0
  · subst hk0
    simp only [powCreate, u1, u2, isZero_ratE, Int.cast_zero, decide_true, Bool.or_self, Bool.true_or, Bool.false_eq_true, if_false, if_true, zpow_zero, one_eq]
    exact tot_pure _
  by_cases hb1 : b = 1
  · subst hb1
    simp only [powCreate, u1, u2, isOne_ratE, decide_true, Bool.or_self, Bool.or_true, Bool.false_eq_true, if_false, if_true, one_zpow, one_eq]
    exact tot_pure _
  by_cases hk1 : k = 1
  · subst hk1
    simp only [powCreate, u1, u2, isZero_ratE, isOne_ratE, Int.cast_one, one_ne_zero, hb, hb1, decide_true, decide_false, Bool.or_self, Bool.false_eq_true, if_false,
      if_true, zpow_one]
    exact tot_pure _
  obtain ⟨q, g, hq, t, hv, hm⟩ := IntPow.totC_int (D := D) hb hb1 hk0 hk1 hk hmax
  have hg : g = true := hm.2 (by rcases h with h | h | h <;> [exact absurd h hk0; exact absurd h hk1; exact h])
  rw [← hv.2 hg]
  subst hg
  exact t

/-- C87. Otherwise the result is a number other than zero and other than the power; the model records that the value is lost. -/
theorem C87_wrong (b : ℚ) (k : ℤ) (hb : b ≠ 0) (hk0 : k ≠ 0) (hk1 : k ≠ 1) (hk : |k| * 31 ≤ 4294967295) (hmax : cfg.maxPrime < 2 ^ 31)
    (hw : Roots.Within cfg.maxPrime b) (hm : Mistaken 1 b) :
    ∃ q : ℚ, q ≠ 0 ∧ q ≠ b ^ k ∧
      ∃ N, ∀ n, N ≤ n → Api.pow (eng cfg n) (.num (.rat b) : Expr D) (.num (.rat k)) = .ok (.num (.rat q), [.fail]) := by
  have hb1 : b ≠ 1 := by
    rintro rfl
    refine C85_right 1 1 0 (.inr ⟨fun q => .inl ?_, fun q => .inl ?_⟩) hm <;> simp [left]
  obtain ⟨q, g, hq, t, hv, hg⟩ := IntPow.totC_int (D := D) hb hb1 hk0 hk1 hk hmax
  have h1 : g = false := by
    cases g
    · rfl
    · exact absurd ⟨hw, hm⟩ (hg.1 rfl)
  subst h1
  exact ⟨q, hq, fun h => by simpa using hv.1 h, totC_succ (g := fun E => E.powCreate (num (.rat b)) (num (.rat k))) (fun _ => rfl) t⟩

/-- C87. A negative number to a power that is no integer is undefined; the condition that the model records always holds. -/
theorem C87_negative (b e : ℚ) (hb : b < 0) (hd : e.den ≠ 1) :
    (∃ N, ∀ n, N ≤ n → Api.pow (eng cfg n) (.num (.rat b) : Expr D) (.num (.rat e)) = .ok (.undef, [.nz (.num (.rat b))])) ∧
      ∀ σ, Cond.holds σ (.nz (.num (.rat b)) : Cond D) := by
  have u1 : (num (.rat b) : Expr D).isUndefined = false := rfl
  have u2 : (num (.rat e) : Expr D).isUndefined = false := rfl
  have he0 : e ≠ 0 := by rintro rfl; exact hd rfl
  have he1 : e ≠ 1 := by rintro rfl; exact hd rfl
  have hb1 : b ≠ 1 := by rintro rfl; norm_num at hb
  refine ⟨totC_succ (cfg := cfg) (cs := [.nz (.num (.rat b))]) (f := fun E => powCreate E (num (.rat b)) (num (.rat e)))
    (g := fun E => E.powCreate (num (.rat b)) (num (.rat e))) (fun _ => rfl) ?_, ?_⟩
  · simp only [powCreate, u1, u2, isZero_ratE, isOne_ratE, hb.ne, hb1, he0, he1, decide_false, Bool.or_self, Bool.false_eq_true, if_false]
    unfold powCreateNonTrivial
    have hs : TotC cfg [.nz (.num (.rat b))] (fun E => simplPow E (num (.rat b)) (num (.rat e))) ((.undef, one) : Expr D × Expr D) := by
      unfold simplPow
      refine totC_bind_tot (a := true) ?_ (by simp only [if_true]; exact tot_pure _)
      unfold doesInvolveComplexNumbers
      have hneg : Tot cfg (fun E => isNeg E (num (.rat b) : Expr D)) true := by
        simp only [isNeg, rat_lt_zero, hb, decide_true]; exact tot_pure _
      have hint : (Number.rat e : Number D).isInt = false := by
        simp only [Number.isInt, Number.denominator, Number.isDouble]
        simp [hd]
      refine IntPow.totC_whenTrue (totC_bind (cs := []) (tot_lift (cfg := cfg) (numEval_rat e)) (totC_bind (cs := []) (tot_isNeg hneg) ?_))
      simp only [hint, Bool.not_false, Bool.and_self, if_true]
      exact ⟨0, fun _ _ => rfl⟩
    refine totC_bind_tot (totC_succ (g := fun E => E.simplPow (num (.rat b)) (num (.rat e))) (fun _ => rfl) hs) ?_
    simp only [one_eq, isOne_ratE, decide_true, if_true]
    exact tot_pure _
  · intro σ
    simp only [Cond.holds, den, Number.val]
    simpa using hb.ne

/-- C87. Powers of zero and one with a rational exponent. -/
theorem C87_trivial (e : ℚ) :
    Gives cfg (fun E => Api.pow E (.num (.rat 0) : Expr D) (.num (.rat e))) (if e = 0 then .num (.rat 1) else if e < 0 then .undef else .num (.rat 0)) ∧
    Gives cfg (fun E => Api.pow E (.num (.rat 1) : Expr D) (.num (.rat e))) (.num (.rat 1)) := by
  have u0 : (num (.rat 0) : Expr D).isUndefined = false := rfl
  have u1 : (num (.rat 1) : Expr D).isUndefined = false := rfl
  have u2 : (num (.rat e) : Expr D).isUndefined = false := rfl
  refine ⟨pow_gives ?_, pow_gives ?_⟩
  · simp only [powCreate, u0, u2, isZero_ratE, isOne_ratE, zero_ne_one, decide_true, decide_false, Bool.or_self, Bool.or_false, Bool.false_eq_true, if_false, if_true,
      decide_eq_true_eq]
    by_cases h0 : e = 0
    · simp only [h0, if_true, one_eq]; exact tot_pure _
    · simp only [h0, if_false]
      have hneg : Tot cfg (fun E => isNeg E (num (.rat e) : Expr D)) (decide (e < 0)) := by
        simp only [isNeg, rat_lt_zero]; exact tot_pure _
      refine tot_bind (tot_whenTrue (tot_isNeg hneg)) ?_
      simp only [decide_eq_true_eq, zero_eq]
      exact tot_pure _
  · simp only [powCreate, u1, u2, isOne_ratE, decide_true, Bool.or_self, Bool.or_true, Bool.false_eq_true, if_false, if_true, one_eq]
    exact tot_pure _

end

/-! ## Examples -/

/-- `C87_right` for -9/10 to the power of -3. -/
example : Gives (Cfg.std 1000 : Cfg Hyb) (fun E => Api.pow E (.num (.rat (-9 / 10))) (.num (.rat ((-3 : ℤ) : ℚ)))) (.num (.rat ((-9 / 10) ^ (-3 : ℤ)))) := by
  refine C87_right (D := Hyb) _ _ (by norm_num) (by decide) (by decide +kernel) (.inr (.inr fun h => ?_))
  obtain ⟨c, hc, -, m2, -⟩ := h.2
  have hd : (-9 / 10 : ℚ).den = 2 ^ 1 * 5 ^ 1 := by decide +kernel
  rw [hd] at m2
  have k := left_two (d := 1) (i := 1) (j := 1) Nat.prime_two Nat.prime_five (by norm_num) (.inl rfl)
  rcases m2 with m | m
  · have := m 2
    rw [k] at this
    simp at this
  · obtain ⟨p, -, hp, -⟩ := m.smallest
    rw [k] at hp
    split_ifs at hp <;> omega

/-- `C87_wrong` for the square of -324, and the result. -/
example : (∃ q : ℚ, q ≠ 0 ∧ q ≠ (-324) ^ (2 : ℤ) ∧
      ∃ N, ∀ n, N ≤ n → Api.pow (eng (Cfg.std 1000) n : Eng Hyb) (.num (.rat (-324))) (.num (.rat ((2 : ℤ) : ℚ))) = .ok (.num (.rat q), [.fail])) ∧
    Api.pow (eng (Cfg.std 1000) 30 : Eng Hyb) (.num (.rat (-324))) (.num (.rat 2)) = .ok (.num (.rat 1296), [.fail]) := by
  refine ⟨C87_wrong (D := Hyb) (cfg := Cfg.std 1000) _ _ (by norm_num) (by decide) (by decide) (by decide) (by decide +kernel) (by unfold Roots.Within; decide +kernel) ?_, by krfl⟩
  have := C85_wrong 1 2 3 2 2 Nat.prime_two Nat.prime_three (by norm_num) le_rfl le_rfl (.inl rfl)
  have h1 : (-324 : ℚ).num.natAbs = ((2 ^ 2 * 3 ^ (2 * 2) : ℕ) : ℚ).num.natAbs := by decide +kernel
  have h2 : (-324 : ℚ).den = ((2 ^ 2 * 3 ^ (2 * 2) : ℕ) : ℚ).den := by decide +kernel
  unfold Mistaken at this ⊢
  rw [h1, h2]
  exact this

/-- `C87_negative` for the cube root of -8. -/
example : ∃ N, ∀ n, N ≤ n → Api.pow (eng (Cfg.std 1000) n : Eng Hyb) (.num (.rat (-8))) (.num (.rat (1 / 3))) = .ok (.undef, [.nz (.num (.rat (-8)))]) :=
  (C87_negative _ _ (by norm_num) (by decide +kernel)).1

end Tsym
