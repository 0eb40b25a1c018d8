import Verif.PowExact
import Verif.Props.RootsN

set_option autoImplicit false
set_option linter.unusedSectionVars false
set_option linter.unusedSimpArgs false

/-!
# C85: when a power of rational numbers is right

`NumPowerSimpl` always returns for a positive rational base and a rational exponent that is not zero. The value
of the result is the power exactly if the base is above the limit for primes or the primes that stay below the root
have no common exponent, as the code looks for it, that is not the exponent of all of them.
-/

namespace Tsym

open NumPowerSimpl Number

/-! ## Specification -/

namespace PowExact

/-- The exponent of `p` that stays below the root of degree `d` of `N`; from integer powers, `d = 1`, nothing is taken out. -/
def left (d N p : ℕ) : ℕ := if d = 1 then N.factorization p else N.factorization p % d

/-- No prime stays below the root. -/
def Nothing (d N : ℕ) : Prop := ∀ p, left d N p = 0

/-- The smallest prime that stays has the exponent `c`, which divides the exponents of all that stay. -/
structure Common (d N c : ℕ) : Prop where
  smallest : ∃ p, p.Prime ∧ left d N p = c ∧ ∀ q, left d N q ≠ 0 → p ≤ q
  dvd : ∀ q, c ∣ left d N q

/-- A common exponent is found that is not the exponent of all primes. -/
def Mistaken (d : ℕ) (b : ℚ) : Prop :=
  ∃ c, 2 ≤ c ∧ (Nothing d b.num.natAbs ∨ Common d b.num.natAbs c) ∧ (Nothing d b.den ∨ Common d b.den c) ∧
    ∃ q, (left d b.num.natAbs q ≠ 0 ∧ left d b.num.natAbs q ≠ c) ∨ (left d b.den q ≠ 0 ∧ left d b.den q ≠ c)

end PowExact

open PowExact

/-! ## Proofs -/

namespace PowExact

theorem nothing_iff {d N : ℕ} {l : List ℕ} (hc : ∀ z, l.count z = left d N z) : Nothing d N ↔ l = [] := by
  constructor
  · intro h
    refine List.eq_nil_iff_forall_not_mem.2 fun x hx => ?_
    have h1 : 0 < l.count x := List.count_pos_iff.2 hx
    rw [hc, h] at h1
    omega
  · rintro rfl z
    rw [← hc]; rfl

theorem shared_iff {d N c : ℕ} {l : List ℕ} (hc2 : 2 ≤ c) (hp : ∀ x ∈ l, x.Prime) (hs : l.Pairwise (· ≤ ·)) (hc : ∀ z, l.count z = left d N z) :
    PrimeFac.Shared l c ↔ Nothing d N ∨ Common d N c := by
  rw [nothing_iff hc]
  unfold PrimeFac.Shared
  refine or_congr Iff.rfl ?_
  constructor
  · rintro ⟨x, xs, rfl, h1, h2⟩
    refine ⟨⟨x, hp x (by simp), by rw [← hc, h1], fun q hq => ?_⟩, fun q => by rw [← hc]; exact h2 q⟩
    rw [← hc] at hq
    have hm : q ∈ x :: xs := List.count_pos_iff.1 (by omega)
    rcases List.mem_cons.1 hm with e | e
    · exact e.ge
    · exact (List.pairwise_cons.1 hs).1 q e
  · rintro ⟨⟨p, pp, h1, h2⟩, h3⟩
    have hpm : p ∈ l := List.count_pos_iff.1 (by rw [hc, h1]; omega)
    match l, hpm with
    | x :: xs, hpm =>
      refine ⟨x, xs, rfl, ?_, fun z => by rw [hc]; exact h3 z⟩
      have hx : x = p := by
        refine le_antisymm ?_ (h2 x ?_)
        · rcases List.mem_cons.1 hpm with e | e
          · exact e.ge
          · exact (List.pairwise_cons.1 hs).1 p e
        · rw [← hc]; simp
      rw [hc, hx, h1]

end PowExact

section

variable {D : Type} [Flt D] [LawfulFlt D]

/-- The sign of the exponent and the last adjustments. -/
theorem compute_sign {max : ℤ} {b e B X Q : ℚ} {g : Bool} (hb : 0 < b) (hB : 0 < B) (hQ : 0 < Q)
    (h : computePosExp max (⟨.rat b, .rat |e|, .rat 1⟩ : Payload D) = .ok (⟨.rat B, .rat X, .rat Q⟩, g)) :
    ∃ r : Payload D, compute max (⟨.rat b, .rat e, .rat 1⟩ : Payload D) = .ok (r, g) ∧
      value r = if e < 0 then ((Q : ℝ) * (B : ℝ) ^ (X : ℝ))⁻¹ else (Q : ℝ) * (B : ℝ) ^ (X : ℝ) := by
  have hb' : ¬ b < 0 := not_lt.2 hb.le
  have hBr : (0 : ℝ) < B := by exact_mod_cast hB
  have hQr : (0 : ℝ) < Q := by exact_mod_cast hQ
  have hv : isInputValid (⟨.rat b, .rat e, .rat 1⟩ : Payload D) = true := by simp [isInputValid, rat_lt_zero, hb']
  -- the last adjustment
  have hadj : ∀ {B X Q : ℚ}, 0 < B → 0 < Q → ∃ r : Payload D, adjustExpSignAndBase (⟨.rat B, .rat X, .rat Q⟩ : Payload D) = .ok r ∧
      value r = (Q : ℝ) * (B : ℝ) ^ (X : ℝ) := by
    intro B X Q hB hQ
    have hex : ∃ r : Payload D, adjustExpSignAndBase (⟨.rat B, .rat X, .rat Q⟩ : Payload D) = .ok r := by
      unfold adjustExpSignAndBase
      split
      · rw [toThe_negone hB.ne']; exact ⟨_, rfl⟩
      · exact ⟨_, rfl⟩
    obtain ⟨r, hr⟩ := hex
    have hBr : (0 : ℝ) < B := by exact_mod_cast hB
    have hQr : (0 : ℝ) < Q := by exact_mod_cast hQ
    refine ⟨r, hr, (adjustExpSignAndBase_ok hr ⟨?_, ?_, .inl ?_⟩).2.trans ?_⟩
    · simpa using hB.ne'
    · simpa using hQ.ne'
    · simpa using hB
    · simp [value]
  unfold compute computeRational
  simp only [hv, Bool.not_true, Bool.false_eq_true, if_false, Number.isDouble, Bool.or_self, rat_lt_zero]
  by_cases hn : e < 0
  · have hone : Number.toThe (.rat 1 : Number D) (Number.neg 1) = .ok (.rat 1) := by simpa using toThe_negone (D := D) (q := 1) one_ne_zero
    have hm : ∀ x : ℚ, (Number.rat x : Number D).mul (.neg 1) = .rat (-x) := fun x => by rw [Number.neg_one_def]; simp [Number.mul]
    rw [abs_of_neg hn] at h
    simp only [hn, decide_true, if_true, computeNegExp, hone, bind, Except.bind, hm, h, toThe_negone hQ.ne', rat_eqv_zero, hB.ne', decide_false,
      Bool.false_eq_true, if_false, rat_eqv_one, decide_eq_true_eq]
    by_cases hX : X = 1
    · subst hX
      obtain ⟨r, hr, hval⟩ := hadj (X := 1) (inv_pos.2 hB) (inv_pos.2 hQ)
      simp only [if_true, toThe_negone hB.ne', pure, Except.pure, hr]
      refine ⟨r, rfl, hval.trans ?_⟩
      push_cast
      rw [Real.rpow_one, Real.rpow_one, mul_inv]
    · obtain ⟨r, hr, hval⟩ := hadj (X := -X) hB (inv_pos.2 hQ)
      simp only [hX, if_false, pure, Except.pure, hr]
      refine ⟨r, rfl, hval.trans ?_⟩
      push_cast
      rw [Real.rpow_neg hBr.le, mul_inv]
  · rw [abs_of_nonneg (not_lt.1 hn)] at h
    obtain ⟨r, hr, hval⟩ := hadj (X := X) hB hQ
    simp only [hn, decide_false, Bool.false_eq_true, if_false, h, bind, Except.bind, hr, pure, Except.pure]
    exact ⟨r, rfl, hval⟩

theorem fact_lt {N k : ℕ} (h0 : N ≠ 0) (h : N < 2 ^ k) (p : ℕ) : N.factorization p < k := by
  by_contra hk
  by_cases hp : p.Prime
  · have h1 : p ^ N.factorization p ≤ N := Nat.le_of_dvd (Nat.pos_of_ne_zero h0) (Nat.ordProj_dvd N p)
    have h2 : 2 ^ k ≤ p ^ N.factorization p := (Nat.pow_le_pow_left hp.two_le k).trans (Nat.pow_le_pow_right hp.pos (not_lt.1 hk))
    omega
  · rw [Nat.factorization_eq_zero_of_not_prime _ hp] at hk
    have : k = 0 := by omega
    rw [this] at h
    omega

theorem computePos_run {max : ℤ} {b e : ℚ} (hb : 0 < b) (h0 : 0 < e) (hk : e.num < unsignedMax) (hdm : (e.den : ℤ) < unsignedMax)
    (hone : e.den = 1 → e.num * 31 ≤ unsignedMax ∧ max < 2 ^ 31) :
    ∃ (B X Q : ℚ) (g : Bool), computePosExp max (⟨.rat b, .rat e, .rat 1⟩ : Payload D) = .ok (⟨.rat B, .rat X, .rat Q⟩, g) ∧ 0 < B ∧ 0 < Q ∧
      ((Q : ℝ) * (B : ℝ) ^ (X : ℝ) = (b : ℝ) ^ (e : ℝ) ↔ ¬ (Roots.Within max b ∧ Mistaken e.den b)) := by
  have hb' : ¬ b < 0 := not_lt.2 hb.le
  have h10 : ¬ ((1 : ℚ) < 0) := by norm_num
  unfold computePosExp computePosExpPosBase
  simp only [rat_lt_zero, hb', h10, decide_false, Bool.false_eq_true, if_false, bind, Except.bind, pure, Except.pure, decide_eq_true_eq, computeAllPos]
  by_cases hs : SmallQ max b
  · have hsm : areValuesSmallEnough max (⟨.rat b, .rat e, .rat 1⟩ : Payload D) = true := small_iff.2 ⟨hs, hs.one⟩
    obtain ⟨P, R, s, B, X, Q, g, h1, cP, cR, hs0, hv, hB, hQ, c1, c2, hiff, -, -, -⟩ := cancel_run (D := D) hb h0 hk hdm
      (fun h p => by
        obtain ⟨o1, o2⟩ := hone h
        have hw := Roots.within_iff.2 hs
        have hn := Rat.num_pos.2 h0
        have w1 : b.num.natAbs < 2 ^ 31 := by have := hw.1; rw [Int.abs_eq_natAbs] at this; omega
        have w2 : b.den < 2 ^ 31 := by have := hw.2; omega
        have f1 := fact_lt (by have := Rat.num_pos.2 hb; omega) w1 p
        have f2 := fact_lt b.den_nz w2 p
        constructor
        · refine le_trans (mul_le_mul_of_nonneg_right (?_ : _ ≤ (31 : ℤ)) hn.le) (by linarith)
          exact_mod_cast f1.le
        · refine le_trans (mul_le_mul_of_nonneg_right (?_ : _ ≤ (31 : ℤ)) hn.le) (by linarith)
          exact_mod_cast f2.le)
    refine ⟨B, X, Q, g, by simp only [hsm, if_true, h1, shiftPreFacSignBack, Bool.not_false], hB, hQ, ?_⟩
    rw [hiff]
    have hw : Roots.Within max b := Roots.within_iff.2 hs
    obtain ⟨n1, n2⟩ := cP.nums
    have n1' : P.num.prod = b.num.natAbs := by rw [← n1, Int.natAbs_natCast]
    have k1 : ∀ z, R.num.count z = left e.den b.num.natAbs z := fun z => by
      rw [c1, PrimeFac.count_fact cP.pn n1']; rfl
    have k2 : ∀ z, R.den.count z = left e.den b.den z := fun z => by
      rw [c2, PrimeFac.count_fact cP.pd n2]; rfl
    constructor
    · rintro h ⟨_, c, hc, m1, m2, q, hq⟩
      have s1 := (shared_iff hc cR.pn cR.sn k1).2 m1
      have s2 := (shared_iff hc cR.pd cR.sd k2).2 m2
      have hnil : ¬ (R.num = [] ∧ R.den = []) := by
        rintro ⟨e1, e2⟩
        have z1 := (nothing_iff k1).2 e1 q
        have z2 := (nothing_iff k2).2 e2 q
        rcases hq with hq | hq
        · exact hq.1 z1
        · exact hq.1 z2
      obtain ⟨a1, a2⟩ := h c hc hnil s1 s2
      rcases hq with hq | hq
      · exact hq.2 (by rw [← k1]; exact a1 q (List.count_pos_iff.1 (by rw [k1]; omega)))
      · exact hq.2 (by rw [← k2]; exact a2 q (List.count_pos_iff.1 (by rw [k2]; omega)))
    · intro h c hc hnil s1 s2
      have m1 := (shared_iff hc cR.pn cR.sn k1).1 s1
      have m2 := (shared_iff hc cR.pd cR.sd k2).1 s2
      constructor
      · intro z hz
        by_contra hne
        exact h ⟨hw, c, hc, m1, m2, z, .inl ⟨by rw [← k1]; exact (List.count_pos_iff.2 hz).ne', by rw [← k1]; exact hne⟩⟩
      · intro z hz
        by_contra hne
        exact h ⟨hw, c, hc, m1, m2, z, .inr ⟨by rw [← k2]; exact (List.count_pos_iff.2 hz).ne', by rw [← k2]; exact hne⟩⟩
  · have hsm : areValuesSmallEnough max (⟨.rat b, .rat e, .rat 1⟩ : Payload D) = false := by
      rw [Bool.eq_false_iff]; intro h'; exact hs (small_iff.1 h').1
    have hnw : ¬ (Roots.Within max b ∧ Mistaken e.den b) := fun h => hs (Roots.within_iff.1 h.1)
    by_cases hd : e.den = 1
    · have hint : (Number.rat e : Number D).isInt = true := by simp [Number.isInt, Number.isRational, Number.denominator, Number.isDouble, hd]
      have hle : e ≤ (unsignedMax : ℤ) := by
        have h1 : e ≤ e * e.den := le_mul_of_one_le_right h0.le (by exact_mod_cast e.den_pos)
        rw [Rat.mul_den_eq_num] at h1
        exact h1.trans (by exact_mod_cast hk.le)
      obtain ⟨X', Q', n, ha, hq, hval, -⟩ := adjust_run (D := D) hb one_pos h0 hle
      refine ⟨b, X', Q', true, by simp only [hsm, Bool.false_eq_true, if_false, hint, ha, shiftPreFacSignBack, Bool.not_false, if_true], hb, hq, ?_⟩
      rw [hval]
      simp only [Rat.cast_one, one_mul, true_iff]
      exact hnw
    · have hint : (Number.rat e : Number D).isInt = false := by
        simp only [Number.isInt, Number.denominator, Number.isDouble]
        simp [hd]
      refine ⟨b, e, 1, true, by simp only [hsm, Bool.false_eq_true, if_false, hint, shiftPreFacSignBack, Bool.not_false, if_true], hb, one_pos, ?_⟩
      simp only [Rat.cast_one, one_mul, true_iff]
      exact hnw

/-! ## C85 -/

/-- C85. The simplification of a power of a positive rational number with a rational exponent returns, and its value is right exactly if the base is above the limit for primes or no common exponent is mistaken for the exponent of all primes. -/
theorem C85_exact (max : ℤ) (b e : ℚ) (hb : 0 < b) (he : e ≠ 0) (hd : (e.den : ℤ) < 4294967295) (hk : |e.num| < 4294967295)
    (hone : e.den = 1 → |e.num| * 31 ≤ 4294967295 ∧ max < 2 ^ 31) :
    ∃ (r : Payload D) (g : Bool), NumPowerSimpl.compute max (⟨.rat b, .rat e, 1⟩ : Payload D) = .ok (r, g) ∧
      (r.preFactor.val * r.base.val ^ r.exp.val = (b : ℝ) ^ (e : ℝ) ↔ ¬ (Roots.Within max b ∧ Mistaken e.den b)) := by
  have hu : unsignedMax = 4294967295 := by decide +kernel
  have hden : |e|.den = e.den := by
    rcases abs_choice e with h | h <;> rw [h]
    exact Rat.neg_den e
  have hnum : |e|.num = |e.num| := by
    rcases le_total 0 e with h | h
    · rw [abs_of_nonneg h, abs_of_nonneg (Rat.num_nonneg.2 h)]
    · rw [abs_of_nonpos h, abs_of_nonpos (Rat.num_nonpos.2 h)]; exact Rat.neg_num e
  obtain ⟨B, X, Q, g, h1, hB, hQ, hiff⟩ := computePos_run (D := D) (max := max) hb (abs_pos.2 he)
    (by rw [hnum, hu]; exact hk) (by rw [hden, hu]; exact hd)
    (by rw [hden, hnum, hu]; exact hone)
  obtain ⟨r, hr, hval⟩ := compute_sign hb hB hQ h1
  refine ⟨r, g, hr, ?_⟩
  rw [hden] at hiff
  rw [← hiff, show r.preFactor.val * r.base.val ^ r.exp.val = value r from rfl, hval]
  have hbr : (0 : ℝ) < b := by exact_mod_cast hb
  by_cases hn : e < 0
  · rw [if_pos hn, abs_of_neg hn]
    push_cast
    rw [Real.rpow_neg hbr.le]
    constructor
    · intro h; rw [← h, inv_inv]
    · intro h; rw [h, inv_inv]
  · rw [if_neg hn, abs_of_nonneg (not_lt.1 hn)]

/-- The hypotheses of `C85_exact` for the tenth power of the seventh root of 72/25. -/
example : (0 : ℚ) < 72 / 25 ∧ (-10 / 7 : ℚ) ≠ 0 ∧ ((-10 / 7 : ℚ).den : ℤ) < 4294967295 ∧ |(-10 / 7 : ℚ).num| < 4294967295 ∧ (-10 / 7 : ℚ).den ≠ 1 :=
  ⟨by norm_num, by norm_num, by decide +kernel, by decide +kernel, by decide +kernel⟩

/-- C85. No root of degree two, three or four is wrong, and none of a number whose primes that stay all have the same exponent. -/
theorem C85_right (d : ℕ) (b : ℚ) (n : ℕ)
    (h : (2 ≤ d ∧ d ≤ 4) ∨ ((∀ q, left d b.num.natAbs q = 0 ∨ left d b.num.natAbs q = n) ∧ (∀ q, left d b.den q = 0 ∨ left d b.den q = n))) :
    ¬ Mistaken d b := by
  rintro ⟨c, hc, m1, m2, q, hq⟩
  have key : ∀ N, (Nothing d N ∨ Common d N c) → ((2 ≤ d ∧ d ≤ 4) ∨ ∀ q, left d N q = 0 ∨ left d N q = n) → ¬ (left d N q ≠ 0 ∧ left d N q ≠ c) := by
    rintro N (h1 | h1) h2 ⟨q1, q2⟩
    · exact q1 (h1 q)
    · rcases h2 with h2 | h2
      · obtain ⟨k, hk⟩ := h1.dvd q
        have hlt : left d N q < d := by rw [left, if_neg (by omega)]; exact Nat.mod_lt _ (by omega)
        have hk2 : 2 ≤ k := by
          rcases k with _ | _ | k
          · exact absurd (by simpa using hk) q1
          · exact absurd (by simpa using hk) q2
          · omega
        have := Nat.mul_le_mul hc hk2
        omega
      · obtain ⟨p, -, hp, -⟩ := h1.smallest
        rcases h2 p with e | e <;> rcases h2 q with e' | e' <;> omega
  rcases hq with hq | hq
  · exact key _ m1 (h.imp id And.left) hq
  · exact key _ m2 (h.imp id And.right) hq

end

/-- The exponents of a product of powers of two primes. -/
theorem left_two {d p q i j : ℕ} (hp : p.Prime) (hq : q.Prime) (hpq : p ≠ q) (hd : d = 1 ∨ (i < d ∧ j < d)) (z : ℕ) :
    left d (p ^ i * q ^ j) z = if z = p then i else if z = q then j else 0 := by
  have hf : (p ^ i * q ^ j).factorization z = if z = p then i else if z = q then j else 0 := by
    rw [Nat.factorization_mul (pow_ne_zero _ hp.ne_zero) (pow_ne_zero _ hq.ne_zero), hp.factorization_pow, hq.factorization_pow]
    simp only [Finsupp.add_apply, Finsupp.single_apply]
    by_cases h1 : z = p
    · subst h1
      simp [hpq, Ne.symm hpq]
    · by_cases h2 : z = q
      · subst h2
        simp [hpq, h1]
      · simp [h1, h2, Ne.symm h1, Ne.symm h2]
  unfold left
  rw [hf]
  rcases hd with hd | ⟨hi, hj⟩
  · rw [if_pos hd]
  · by_cases h1 : d = 1
    · rw [if_pos h1]
    · rw [if_neg h1]
      split_ifs
      · exact Nat.mod_eq_of_lt hi
      · exact Nat.mod_eq_of_lt hj
      · exact Nat.zero_mod d

/-- C85. A wrong power, integer or root, for every choice of two primes whose exponents stay below the root, the one of the smaller prime
being a proper divisor of the other and not one. -/
theorem C85_wrong (d p q k m : ℕ) (hp : p.Prime) (hq : q.Prime) (hpq : p < q) (hk : 2 ≤ k) (hm : 2 ≤ m) (hd : d = 1 ∨ k * m < d) :
    Mistaken d ((p ^ k * q ^ (k * m) : ℕ) : ℚ) := by
  have hd' : d = 1 ∨ (k < d ∧ k * m < d) := hd.imp id fun hd => ⟨lt_of_le_of_lt (Nat.le_mul_of_pos_right k (by omega)) hd, hd⟩
  have key := left_two hp hq hpq.ne hd'
  refine ⟨k, hk, .inr ?_, .inl ?_, q, .inl ?_⟩
  · rw [Rat.num_natCast, Int.natAbs_natCast]
    refine ⟨⟨p, hp, by rw [key]; simp, fun z hz => ?_⟩, fun z => ?_⟩
    · rw [key] at hz
      by_cases h1 : z = p
      · exact h1.ge
      · by_cases h2 : z = q
        · omega
        · simp [h1, h2] at hz
    · rw [key]; split_ifs <;> simp
  · rw [Rat.den_natCast]; intro z; simp [left]
  · rw [Rat.num_natCast, Int.natAbs_natCast, key, if_neg hpq.ne', if_pos rfl]
    have := Nat.mul_le_mul_left k hm
    omega

/-- C85. There are wrong powers with the denominator `d` of the exponent exactly for `d = 1` and from `d = 5` on. -/
theorem C85_degrees (d : ℕ) (hd : d ≠ 0) : (∃ b : ℚ, 0 < b ∧ Mistaken d b) ↔ d = 1 ∨ 5 ≤ d := by
  constructor
  · rintro ⟨b, -, h⟩
    by_contra h4
    exact C85_right d b 0 (.inl (by omega)) h
  · intro h
    exact ⟨_, by positivity, C85_wrong d 2 3 2 2 Nat.prime_two Nat.prime_three (by norm_num) le_rfl le_rfl (by omega)⟩

/-- C85. The smallest number with a wrong power is 324: below that limit for primes all are right. -/
theorem C85_least (max : ℤ) (d : ℕ) (b : ℚ) (hb : 0 < b) (hw : Roots.Within max b) (hm : Mistaken d b) : 324 ≤ max := by
  obtain ⟨c, hc, m1, m2, q, hq⟩ := hm
  have key : ∀ N : ℕ, N ≠ 0 → (Nothing d N ∨ Common d N c) → (left d N q ≠ 0 ∧ left d N q ≠ c) → 324 ≤ N := by
    rintro N h0 (h1 | h1) ⟨q1, q2⟩
    · exact absurd (h1 q) q1
    · obtain ⟨p, hp, hpc, hmin⟩ := h1.smallest
      have hpq : p ≠ q := by rintro rfl; exact q2 hpc
      have hlt : p < q := lt_of_le_of_ne (hmin q q1) hpq
      have hle : ∀ z, left d N z ≤ N.factorization z := fun z => by
        unfold left; split_ifs
        · exact le_rfl
        · exact Nat.mod_le _ _
      have hqp : q.Prime := by
        by_contra h
        have := hle q
        rw [Nat.factorization_eq_zero_of_not_prime _ h] at this
        omega
      obtain ⟨k, hk⟩ := h1.dvd q
      have hk2 : 2 ≤ k := by
        rcases k with _ | _ | k
        · exact absurd (by simpa using hk) q1
        · exact absurd (by simpa using hk) q2
        · omega
      have h4 : 4 ≤ N.factorization q := by have := hle q; have := Nat.mul_le_mul hc hk2; omega
      have h2 : 2 ≤ N.factorization p := by have := hle p; omega
      have d1 : p ^ 2 ∣ N := (pow_dvd_pow p h2).trans (Nat.ordProj_dvd N p)
      have d2 : q ^ 4 ∣ N := (pow_dvd_pow q h4).trans (Nat.ordProj_dvd N q)
      have hcop : Nat.Coprime (p ^ 2) (q ^ 4) := Nat.Coprime.pow _ _ ((Nat.coprime_primes hp hqp).2 hpq)
      have := Nat.le_of_dvd (Nat.pos_of_ne_zero h0) (hcop.mul_dvd_of_dvd_of_dvd d1 d2)
      have e1 : 2 ^ 2 ≤ p ^ 2 := Nat.pow_le_pow_left hp.two_le 2
      have e2 : 3 ^ 4 ≤ q ^ 4 := Nat.pow_le_pow_left (by have := hp.two_le; omega) 4
      have := Nat.mul_le_mul e1 e2
      omega
  have hn := Rat.num_pos.2 hb
  rcases hq with hq | hq
  · have := key _ (by omega) m1 hq
    have := hw.1
    rw [Int.abs_eq_natAbs] at this
    omega
  · have := key _ b.den_nz m2 hq
    have := hw.2
    omega

/-- `C85_wrong` for the fifth root of 324, the case of `C19_false`, and `C85_exact` for it. -/
example : Mistaken 5 324 ∧ Roots.Within 1000 324 ∧
    ∃ (r : Payload Hyb) (g : Bool), NumPowerSimpl.compute 1000 (⟨.rat 324, .rat (1 / 5), 1⟩ : Payload Hyb) = .ok (r, g) ∧
      r.preFactor.val * r.base.val ^ r.exp.val ≠ ((324 : ℚ) : ℝ) ^ ((1 / 5 : ℚ) : ℝ) := by
  have hm : Mistaken 5 324 := by
    have := C85_wrong 5 2 3 2 2 Nat.prime_two Nat.prime_three (by norm_num) le_rfl le_rfl (.inr (by norm_num))
    norm_num at this
    exact this
  have hw : Roots.Within 1000 324 := by unfold Roots.Within; decide +kernel
  have hd : (1 / 5 : ℚ).den = 5 := by decide +kernel
  obtain ⟨r, g, h, hv⟩ := C85_exact (D := Hyb) 1000 324 (1 / 5) (by norm_num) (by norm_num) (by rw [hd]; decide) (by decide +kernel)
    (fun h => absurd (hd.symm.trans h) (by decide))
  refine ⟨hm, hw, r, g, h, ?_⟩
  rw [Ne, hv, not_not, hd]
  exact ⟨hw, hm⟩

/-- `C85_right` for 36/25, whose primes have the exponent two, and the ninth root. -/
example : ¬ Mistaken 9 (36 / 25) := by
  have h1 : (36 / 25 : ℚ).num.natAbs = 2 ^ 2 * 3 ^ 2 := by decide +kernel
  have h2 : (36 / 25 : ℚ).den = 5 ^ 2 := by decide +kernel
  refine C85_right 9 _ 2 (.inr ⟨fun q => ?_, fun q => ?_⟩)
  · rw [h1, left_two Nat.prime_two Nat.prime_three (by norm_num) (.inr (by norm_num))]
    split_ifs <;> simp
  · rw [h2]
    rw [left, if_neg (by norm_num), Nat.prime_five.factorization_pow, Finsupp.single_apply]
    split_ifs <;> simp

end Tsym
