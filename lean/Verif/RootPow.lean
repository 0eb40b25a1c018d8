import Verif.PowExact
import Verif.RootNMul
import Verif.SurdSum

set_option autoImplicit false
set_option linter.unusedSectionVars false
set_option linter.unusedSimpArgs false
set_option linter.unusedVariables false

/-!
# Helper lemmas: products of numbers and roots, powers with prefactors
-/

namespace Tsym

open Expr NumPowerSimpl

/-- No prime is in the numerator of one number and in the denominator of the other. -/
def Cross (b q : ℚ) : Prop := Nat.Coprime q.num.natAbs b.den ∧ Nat.Coprime q.den b.num.natAbs

theorem Cross.inv {b q : ℚ} (hb : 0 < b) (hq : 0 < q) (h : Cross b q) : Cross b⁻¹ q⁻¹ := by
  have f : ∀ {x : ℚ}, 0 < x → x⁻¹.num.natAbs = x.den ∧ x⁻¹.den = x.num.natAbs := by
    intro x hx
    have h1 := Rat.num_pos.2 hx
    refine ⟨by rw [Rat.num_inv, Int.sign_eq_one_of_pos h1]; simp, by rw [Rat.den_inv_of_ne_zero hx.ne']⟩
  unfold Cross
  rw [(f hb).1, (f hb).2, (f hq).1, (f hq).2]
  exact ⟨h.2, h.1⟩

theorem Cross.of_pow {b t : ℚ} {k : ℕ} (hk : 0 < k) (h : Cross b (t ^ k)) : Cross b t := by
  unfold Cross at *
  rw [Rat.num_pow, Rat.den_pow, Int.natAbs_pow] at h
  exact ⟨(Nat.coprime_pow_left_iff hk _ _).1 h.1, (Nat.coprime_pow_left_iff hk _ _).1 h.2⟩

/-- Numerator and denominator of a product without cancellation. -/
theorem Cross.mul_pow {b t : ℚ} (hb : 0 < b) (ht : 0 < t) (h : Cross b t) (d : ℕ) :
    (b * t ^ d).num.natAbs = b.num.natAbs * t.num.natAbs ^ d ∧ (b * t ^ d).den = b.den * t.den ^ d := by
  have hc : Nat.Coprime (b.num.natAbs * t.num.natAbs ^ d) (b.den * t.den ^ d) :=
    Nat.Coprime.mul_left (Nat.Coprime.mul_right b.reduced (Nat.Coprime.pow_right d h.2.symm))
      (Nat.Coprime.mul_right (Nat.Coprime.pow_left d h.1) (Nat.Coprime.pow d d t.reduced))
  have hbn := Rat.num_pos.2 hb
  have htn := Rat.num_pos.2 ht
  have hpos : (0 : ℤ) < (b.den * t.den ^ d : ℕ) := by
    have h1 := b.den_pos
    have h2 := t.den_pos
    exact_mod_cast Nat.mul_pos h1 (Nat.pow_pos h2)
  have hv : b * t ^ d = (((b.num.natAbs * t.num.natAbs ^ d : ℕ) : ℤ) : ℚ) / (((b.den * t.den ^ d : ℕ) : ℤ) : ℚ) := by
    have e1 : (0 : ℚ) < b.num := by exact_mod_cast hbn
    have e2 : (0 : ℚ) < t.num := by exact_mod_cast htn
    have e3 : (b.num : ℚ) / b.den = b := Rat.num_div_den b
    have e4 : (t.num : ℚ) / t.den = t := Rat.num_div_den t
    push_cast
    rw [abs_of_pos e1, abs_of_pos e2, mul_div_mul_comm, ← div_pow, e3, e4]
  have h1 := Rat.num_div_eq_of_coprime (a := ((b.num.natAbs * t.num.natAbs ^ d : ℕ) : ℤ)) (b := ((b.den * t.den ^ d : ℕ) : ℤ)) hpos
    (by rw [Int.natAbs_natCast, Int.natAbs_natCast]; exact hc)
  have h2 := Rat.den_div_eq_of_coprime (a := ((b.num.natAbs * t.num.natAbs ^ d : ℕ) : ℤ)) (b := ((b.den * t.den ^ d : ℕ) : ℤ)) hpos
    (by rw [Int.natAbs_natCast, Int.natAbs_natCast]; exact hc)
  rw [← hv] at h1 h2
  refine ⟨by rw [h1, Int.natAbs_natCast], by exact_mod_cast h2⟩

theorem PrimeFac.Canon.unique {P R : PrimeFac} {p r : ℚ} (hP : P.Canon p) (hR : R.Canon r) (h1 : ∀ z, R.num.count z = P.num.count z)
    (h2 : ∀ z, R.den.count z = P.den.count z) : R = P := by
  have e1 : R.num = P.num := (List.perm_iff_count.2 h1).eq_of_pairwise' hR.sn hP.sn
  have e2 : R.den = P.den := (List.perm_iff_count.2 h2).eq_of_pairwise' hR.sd hP.sd
  cases P; cases R; simp_all

namespace NumPowerSimpl

open Number

variable {D : Type} [Flt D] [LawfulFlt D]

/-- A number beside a root stays beside it. -/
theorem cancel_num {max : ℤ} {b e q : ℚ} (h : Stable max b e) (hs : SmallQ max b) (hq : 0 < q) (hx : Cross b q) :
    cancel (⟨.rat b, .rat e, .rat q⟩ : Payload D) = .ok (⟨.rat b, .rat e, .rat q⟩, true) := by
  obtain ⟨P, hP, cP⟩ := PrimeFac.canon_ofNumber (D := D) h.pos
  obtain ⟨k1, k2, c, hc, hc1⟩ := h.keep hs P cP
  obtain ⟨n0, n1, n2⟩ := exp_parts h.epos h.elt
  have hmul : P.multiply PrimeFac.one = P := by unfold PrimeFac.multiply; rw [if_pos ⟨rfl, rfl⟩]
  have hghost : collectExact P = true := by unfold collectExact; rw [hc]; simp; omega
  have hcoll : P.collectToNewExp (.rat e : Number D) = .ok (P, .rat e) := by
    unfold PrimeFac.collectToNewExp
    have : ¬ 1 < c := by omega
    simp only [hc, bind, Except.bind, this, if_false, canon_nil cP h.ne]
    rfl
  have hprim : ∀ x : Number D, primesToComponents P (⟨.rat b, .rat e, x⟩ : Payload D) = .ok ⟨.rat b, .rat e, x⟩ := by
    intro x
    unfold primesToComponents
    simp only [eval_eq cP.pos, cP.val, bind, Except.bind, rat_eqv_one, h.ne, decide_false, Bool.false_eq_true, if_false]
    rfl
  have hadj : ∀ x : Number D, adjustExpGreaterThanOne (⟨.rat b, .rat e, x⟩ : Payload D) = .ok ⟨.rat b, .rat e, x⟩ := by
    intro x
    unfold adjustExpGreaterThanOne
    have := h.epos; have := h.elt
    have h1 : ¬ 1 < e := by linarith
    have h2 : ¬ e < -1 := by linarith
    simp only [one_lt_rat, rat_lt_negone, h1, h2, decide_false, Bool.or_self, Bool.false_eq_true, if_false]
    rfl
  have hk0 : ((e.num.natAbs : ℕ) : ℤ) = e.num := Int.natAbs_of_nonneg n0.le
  have hix : (ofInts 1 e.num : Except Err (Number D)) = .ok (.rat (1 / e.num)) := by
    rw [ofInts_eq (by omega)]; norm_num
  have hnd : (1 / e.num : ℚ).num = 1 ∧ (1 / e.num : ℚ).den = e.num.natAbs := by
    rw [one_div, ← hk0]
    constructor
    · rw [Rat.num_inv, Rat.num_intCast, Rat.den_intCast, Int.sign_eq_one_of_pos (by omega)]; rfl
    · rw [Int.natAbs_natCast, Rat.den_inv_of_ne_zero (by exact_mod_cast (by omega : (e.num.natAbs : ℤ) ≠ 0)), Rat.num_intCast, Int.natAbs_natCast]
  have hu : (1 : ℤ) ≤ unsignedMax := by decide +kernel
  obtain ⟨r, hr, hrv⟩ := toThe_total (b := (.rat q : Number D)) (e := 1 / e.num) (by simpa using hq)
    (by rw [hnd.1]; exact hu) (by rw [hnd.2, hk0]; exact h.small.1.le)
  cases r with
  | dbl y =>
    have hdef : defPreFacPrimesInPower (⟨.rat b, .rat e, .rat q⟩ : Payload D) = .ok (PrimeFac.one, ⟨.rat b, .rat e, .rat q⟩) := by
      unfold defPreFacPrimesInPower
      simp only [numerator, hix, hr, bind, Except.bind, isDouble, if_true]
      rfl
    unfold cancel
    simp only [hP, bind, Except.bind, hdef, hmul, extract_keep h.epos h.small.1 k1 k2, one_eval, hghost, hcoll, Number.mul,
      mul_one, hprim, hadj]
    rfl
  | rat t =>
    have hqr : (0 : ℝ) < q := by exact_mod_cast hq
    have htr : (0 : ℝ) < t := by
      have : (t : ℝ) = (q : ℝ) ^ ((1 / e.num : ℚ) : ℝ) := by simpa using hrv
      rw [this]; positivity
    have ht : 0 < t := by exact_mod_cast htr
    have htk : t ^ e.num.natAbs = q := by
      have h1 : (t : ℝ) = (q : ℝ) ^ ((1 / e.num : ℚ) : ℝ) := by simpa using hrv
      have h2 : (t : ℝ) ^ (e.num.natAbs : ℕ) = q := by
        rw [h1, ← Real.rpow_natCast, ← Real.rpow_mul hqr.le]
        have : ((1 / e.num : ℚ) : ℝ) * ((e.num.natAbs : ℕ) : ℝ) = 1 := by
          have e1 : ((e.num.natAbs : ℕ) : ℝ) = (e.num : ℝ) := by rw [Nat.cast_natAbs, abs_of_pos n0]
          have e2 : (e.num : ℝ) ≠ 0 := by exact_mod_cast n0.ne'
          rw [e1]; push_cast; field_simp
        rw [this, Real.rpow_one]
      exact_mod_cast h2
    obtain ⟨T, hT, cT⟩ := PrimeFac.canon_ofNumber (D := D) ht
    obtain ⟨S, hS, cS⟩ := PrimeFac.canon_toThe cT (n := e.den) e.den_pos h.small.2
    have hdef : defPreFacPrimesInPower (⟨.rat b, .rat e, .rat q⟩ : Payload D) = .ok (S, ⟨.rat b, .rat e, .rat 1⟩) := by
      unfold defPreFacPrimesInPower
      simp only [numerator, denominator, hix, hr, bind, Except.bind, isDouble, Bool.false_eq_true, if_false, hT, hS]
      rfl
    have cN := PrimeFac.canon_multiply cP cS
    have hxt : Cross b t := Cross.of_pow (k := e.num.natAbs) (by omega) (by rw [htk]; exact hx)
    obtain ⟨m1, m2⟩ := hxt.mul_pow h.pos ht e.den
    obtain ⟨X, R, s, hE, pX, hs0, vX, cR, hv, c1, c2, -⟩ := PrimeFac.extract_run2 (D := D) cN h.epos n1 h.small.1
    have hbn : b.num.natAbs ≠ 0 := by have := Rat.num_pos.2 h.pos; omega
    have htn : t.num.natAbs ≠ 0 := by have := Rat.num_pos.2 ht; omega
    obtain ⟨p1, p2⟩ := cP.nums
    have p1' : P.num.prod = b.num.natAbs := by rw [← p1, Int.natAbs_natCast]
    obtain ⟨q1, q2⟩ := cN.nums
    have q1' : (P.multiply S).num.prod = (b * t ^ e.den).num.natAbs := by rw [← q1, Int.natAbs_natCast]
    have d1 : ∀ z, R.num.count z = P.num.count z := fun z => by
      rw [c1, PrimeFac.count_fact cN.pn q1', m1, Nat.factorization_mul hbn (pow_ne_zero _ htn), Finsupp.add_apply, Nat.factorization_pow,
        Finsupp.smul_apply, smul_eq_mul, Nat.add_mul_mod_self_left, ← PrimeFac.count_fact cP.pn p1', Nat.mod_eq_of_lt (k1 z)]
    have d2 : ∀ z, R.den.count z = P.den.count z := fun z => by
      rw [c2, PrimeFac.count_fact cN.pd q2, m2, Nat.factorization_mul b.den_nz (pow_ne_zero _ t.den_nz), Finsupp.add_apply, Nat.factorization_pow,
        Finsupp.smul_apply, smul_eq_mul, Nat.add_mul_mod_self_left, ← PrimeFac.count_fact cP.pd p2, Nat.mod_eq_of_lt (k2 z)]
    have hRP := cP.unique cR d1 d2
    rw [hRP] at hE hv
    have hst : s = t := by
      rw [cP.val] at hv
      have := mul_left_cancel₀ h.pos.ne' hv
      exact (pow_left_inj₀ hs0.le ht.le e.den_nz).1 this.symm
    have hXq : X.value = q := by
      rw [vX, hst, ← htk, ← zpow_natCast, hk0]
    unfold cancel
    simp only [hP, bind, Except.bind, hdef, hE, eval_eq pX, hXq, hghost, hcoll, Number.mul, one_mul, hprim, hadj]
    rfl

theorem Cross.neg {b q : ℚ} (h : Cross b q) : Cross b (-q) := by
  unfold Cross at *
  rw [Rat.neg_num, Rat.neg_den, Int.natAbs_neg]; exact h

theorem computePos_num {max : ℤ} {b e q : ℚ} (h : Stable max b e) (hq : q ≠ 0) (hx : SmallQ max b → SmallQ max q → Cross b q) :
    computePosExp max (⟨.rat b, .rat e, .rat q⟩ : Payload D) = .ok (⟨.rat b, .rat e, .rat q⟩, true) := by
  have hb' : ¬ b < 0 := not_lt.2 h.pos.le
  have he1 : ¬ (e = 1) := h.elt.ne
  have hint : (Number.rat e : Number D).isInt = false := by
    have := (exp_parts h.epos h.elt).2.1
    simp only [Number.isInt, Number.denominator, Number.isDouble]
    simp; omega
  have key : ∀ {q : ℚ} (s : Bool), 0 < q → (SmallQ max b → SmallQ max q → Cross b q) →
      computeAllPos max s (⟨.rat b, .rat e, .rat q⟩ : Payload D) = .ok (shiftPreFacSignBack s ⟨.rat b, .rat e, .rat q⟩, true) := by
    intro q s hq hx
    unfold computeAllPos
    by_cases hs : SmallQ max b ∧ SmallQ max q
    · have hsm : areValuesSmallEnough max (⟨.rat b, .rat e, .rat q⟩ : Payload D) = true := small_iff.2 hs
      simp only [hsm, if_true, cancel_num h hs.1 hq (hx hs.1 hs.2), bind, Except.bind, pure, Except.pure]
    · have hsm : areValuesSmallEnough max (⟨.rat b, .rat e, .rat q⟩ : Payload D) = false := by
        rw [Bool.eq_false_iff]; intro h'; exact hs (small_iff.1 h')
      simp only [hsm, hint, Bool.false_eq_true, if_false, bind, Except.bind, pure, Except.pure]
  unfold computePosExp computePosExpPosBase
  simp only [rat_lt_zero, hb', decide_false, Bool.false_eq_true, if_false, bind, Except.bind, pure, Except.pure, decide_eq_true_eq]
  by_cases hn : q < 0
  · have hm : (Number.rat q : Number D).mul (.neg 1) = .rat (-q) := by rw [Number.neg_one_def]; simp [Number.mul]
    have hm' : (Number.rat (-q) : Number D).mul (.neg 1) = .rat q := by rw [Number.neg_one_def]; simp [Number.mul]
    simp only [hn, if_true, hm]
    rw [key true (neg_pos.2 hn) fun h1 h2 => Cross.neg (hx h1 (by simpa using h2.neg))]
    simp only [shiftPreFacSignBack, Bool.not_true, Bool.false_eq_true, if_false, rat_eqv_one, he1, decide_false, hm']
  · simp only [hn, if_false]
    rw [key false (lt_of_le_of_ne (not_lt.1 hn) (Ne.symm hq)) hx]
    simp only [shiftPreFacSignBack, Bool.not_false, if_true]

/-- The payload of a number times a root. -/
def rootPayQ (b e q : ℚ) : Payload D := if b.num = 1 then ⟨.rat b⁻¹, .rat (-e), .rat q⟩ else ⟨.rat b, .rat e, .rat q⟩

theorem compute_num {max : ℤ} {b e q : ℚ} (h : Stable max b e) (hq : q ≠ 0) (hx : SmallQ max b → SmallQ max q → Cross b q) :
    compute max (⟨.rat b, .rat e, .rat q⟩ : Payload D) = .ok (rootPayQ b e q, true) := by
  have hb' : ¬ b < 0 := not_lt.2 h.pos.le
  have hv : isInputValid (⟨.rat b, .rat e, .rat q⟩ : Payload D) = true := by simp [isInputValid, rat_lt_zero, hb']
  have hh : ¬ (e < 0) := not_lt.2 h.epos.le
  have he1 : ¬ (e = 1) := h.elt.ne
  have hm' : (Number.rat e : Number D).mul (.neg 1) = .rat (-e) := by rw [Number.neg_one_def]; simp [Number.mul]
  unfold compute computeRational
  simp only [hv, Bool.not_true, Bool.false_eq_true, if_false, Number.isDouble, Bool.or_self, rat_lt_zero, hh, decide_false,
    computePos_num h hq hx, bind, Except.bind]
  unfold adjustExpSignAndBase rootPayQ
  by_cases e2 : b.num = 1
  · have e3 : ((Number.rat b : Number D).numerator == 1) = true := by simpa [Number.numerator] using e2
    simp only [e2, if_true, e3, rat_eqv_one, toThe_negone h.pos.ne', bind, Except.bind, pure, Except.pure, hm', he1, decide_false,
      Bool.not_false, Bool.and_true, Bool.true_or]
  · have e3 : ((Number.rat b : Number D).numerator == 1) = false := by simpa [Number.numerator] using e2
    simp only [e2, if_false, e3, rat_eqv_one, rat_lt_zero, hh, decide_false, Bool.false_and, Bool.or_self, Bool.false_eq_true, pure, Except.pure]

theorem Cross.inv' {b q : ℚ} (hb : 0 < b) (hq : q ≠ 0) (h : Cross b⁻¹ q) : Cross b q⁻¹ := by
  rcases lt_or_gt_of_ne hq with h1 | h1
  · have := Cross.neg (Cross.inv (inv_pos.2 hb) (neg_pos.2 h1) (Cross.neg h))
    rwa [inv_inv, inv_neg, neg_neg] at this
  · have := Cross.inv (inv_pos.2 hb) h1 h
    rwa [inv_inv] at this

theorem compute_nnum {max : ℤ} {b e q : ℚ} (h : Stable max b e) (hq : q ≠ 0) (hx : SmallQ max b⁻¹ → SmallQ max q → Cross b⁻¹ q) :
    compute max (⟨.rat b, .rat (-e), .rat q⟩ : Payload D) = .ok (rootPayQ b⁻¹ e q, true) := by
  have hb' : ¬ b < 0 := not_lt.2 h.pos.le
  have hv : isInputValid (⟨.rat b, .rat (-e), .rat q⟩ : Payload D) = true := by simp [isInputValid, rat_lt_zero, hb']
  have hh : -e < 0 := neg_lt_zero.2 h.epos
  have he1 : ¬ (e = 1) := h.elt.ne
  have he1' : ¬ (-e = 1) := by have := h.epos; intro h; linarith
  have hm : (Number.rat (-e) : Number D).mul (.neg 1) = .rat e := by rw [Number.neg_one_def]; simp [Number.mul]
  have hm' : (Number.rat e : Number D).mul (.neg 1) = .rat (-e) := by rw [Number.neg_one_def]; simp [Number.mul]
  have hqi : q⁻¹ ≠ 0 := inv_ne_zero hq
  have hx' : SmallQ max b → SmallQ max q⁻¹ → Cross b q⁻¹ := fun h1 h2 =>
    Cross.inv' h.pos hq (hx (h1.inv h.pos.ne') ((SmallQ.inv_iff hq).1 h2))
  have b1 : 0 < b.num := Rat.num_pos.2 h.pos
  have hn1 : b⁻¹.num = b.den := by rw [Rat.num_inv, Int.sign_eq_one_of_pos b1]; simp
  unfold compute computeRational computeNegExp
  simp only [hv, Bool.not_true, Bool.false_eq_true, if_false, Number.isDouble, Bool.or_self, rat_lt_zero, hh, decide_true, if_true,
    bind, Except.bind, toThe_negone hq, hm, computePos_num h hqi hx', toThe_negone hqi, rat_eqv_zero, h.pos.ne', decide_false, rat_eqv_one, he1, hm', pure,
    Except.pure, inv_inv]
  unfold adjustExpSignAndBase rootPayQ
  simp only [rat_eqv_one, he1', decide_false, Bool.not_false, Bool.and_true, rat_lt_zero, hh, decide_true, Bool.true_and,
    isFraction_rat, Number.numerator, toThe_negone h.pos.ne', hm, bind, Except.bind, inv_inv, pure, Except.pure]
  by_cases e2 : b⁻¹.num = 1
  · have e3 : b.den = 1 := by omega
    have e4 : ¬ b.num = 1 := fun h4 => h.ne (one_num_den h4 e3)
    simp only [e2, e3, if_true, ne_eq, not_true_eq_false, decide_false, Bool.or_false, beq_iff_eq, e4, if_false]
  · have e3 : ¬ b.den = 1 := fun h => e2 (by omega)
    simp only [e2, e3, if_false, ne_eq, not_false_eq_true, decide_true, Bool.or_true, if_true]

end NumPowerSimpl

section

variable {D : Type} [Flt D] [LawfulFlt D] {cfg : Cfg D}

theorem rootN_cases (b e : ℚ) : ∃ B X : ℚ, (rootN b e : Expr D) = npow B X ∧ ((b.num = 1 ∧ B = b⁻¹ ∧ X = -e) ∨ (b.num ≠ 1 ∧ B = b ∧ X = e)) := by
  unfold rootN
  by_cases h : b.num = 1
  · exact ⟨_, _, if_pos h, .inl ⟨h, rfl, rfl⟩⟩
  · exact ⟨_, _, if_neg h, .inr ⟨h, rfl, rfl⟩⟩

/-- The root as it is stored. -/
theorem tot_pow_rootN {b e B X : ℚ} (h : Stable cfg.maxPrime b e) (hB : (rootN b e : Expr D) = npow B X) :
    Tot cfg (fun E => powCreate E (num (.rat B)) (num (.rat X))) (rootN b e : Expr D) := by
  obtain ⟨B', X', h1, h2⟩ := rootN_cases (D := D) b e
  rw [h1] at hB
  cases hB
  rcases h2 with ⟨_, rfl, rfl⟩ | ⟨_, rfl, rfl⟩
  · have := tot_powN_neg (D := D) h.inv
    rwa [inv_inv] at this
  · exact tot_powN h

/-- A number and a root. -/
theorem tot_numRootN {b e q : ℚ} (h : Stable cfg.maxPrime b e) (hq : q ≠ 0) (hq1 : q ≠ 1) (hx : SmallQ cfg.maxPrime b → SmallQ cfg.maxPrime q → Cross b q) :
    Tot cfg (fun E => simplNumAndConst E (.rat q) (rootN b e : Expr D)) [num (.rat q), rootN b e] := by
  obtain ⟨B, X, hB, hcase⟩ := rootN_cases (D := D) b e
  have hB0 : B ≠ 0 := by
    rcases hcase with ⟨_, rfl, _⟩ | ⟨_, rfl, _⟩
    · exact inv_ne_zero h.pos.ne'
    · exact h.pos.ne'
  have hX0 : X ≠ 0 := by rcases hcase with ⟨_, _, rfl⟩ | ⟨_, _, rfl⟩ <;> [exact h.en.2.2.1; exact h.en.1]
  have hr : compute cfg.maxPrime (⟨.rat B, .rat X, .rat q⟩ : Payload D) = .ok (⟨.rat B, .rat X, .rat q⟩, true) := by
    rcases hcase with ⟨hn, rfl, rfl⟩ | ⟨hn, rfl, rfl⟩
    · have := compute_nnum (D := D) h.inv hq (by rwa [inv_inv])
      rwa [inv_inv, rootPayQ, if_pos hn] at this
    · have := compute_num (D := D) h hq hx
      rwa [rootPayQ, if_neg hn] at this
  have hp := tot_pow_rootN (cfg := cfg) h hB
  rw [hB] at hp ⊢
  simp only [simplNumAndConst]
  unfold simplNumAndNumPowN
  refine tot_bind (a := ((⟨.rat B, .rat X, .rat q⟩ : Payload D), true))
    (tot_maxPrime (f := fun k => M.lift (NumPowerSimpl.compute k ⟨.rat B, .rat X, .rat q⟩)) (tot_lift hr)) ?_
  simp only [Bool.not_true, rat_eqv_zero, hB0, hX0, hq, decide_false, Bool.or_self]
  refine tot_bind (tot_logIf rfl) (tot_bind (tot_pow hp) ?_)
  simp only [isOne_ratE, hq1, decide_false, Bool.false_eq_true, if_false]
  exact tot_pure _

/-- The product of a number and a root stays a product. -/
theorem tot_prod_numRootN {b e q : ℚ} (h : Stable cfg.maxPrime b e) (hq : q ≠ 0) (hq1 : q ≠ 1)
    (hx : SmallQ cfg.maxPrime b → SmallQ cfg.maxPrime q → Cross b q) :
    Tot cfg (fun E => prodCreate E [num (.rat q), (rootN b e : Expr D)]) (.prod [num (.rat q), rootN b e]) ∧
    Tot cfg (fun E => prodCreate E [(rootN b e : Expr D), num (.rat q)]) (.prod [num (.rat q), rootN b e]) := by
  have key := tot_numRootN (D := D) h hq hq1 hx
  obtain ⟨B, X, hB, hcase⟩ := rootN_cases (D := D) b e
  rw [hB] at key ⊢
  have u1 : (num (.rat q) : Expr D).isUndefined = false := rfl
  have hz : (num (.rat q) : Expr D).isZero = false := by rw [isZero_ratE]; simpa using hq
  have ho : (num (.rat q) : Expr D).isOne = false := by rw [isOne_ratE]; simpa using hq1
  have hpp : (num (.rat q) : Expr D).isProduct = false := rfl
  have hcst : (num (.rat q) : Expr D).isConst = true := by simp [isConst]
  have u : (npow B X : Expr D).isUndefined = false ∧ (npow B X : Expr D).isZero = false ∧ (npow B X : Expr D).isProduct = false ∧
      (npow B X : Expr D).isOne = false ∧ (npow B X : Expr D).isConst = true := ⟨rfl, rfl, rfl, rfl, by simp [isConst]⟩
  have hextract : ∀ u : List (Expr D), (∀ x ∈ u, x = num (.rat q) ∨ x = npow B X) → Tot cfg (fun E => extractProducts E u) u ∧
      Tot cfg (fun E => contractTrigonometrics E u) u := by
    intro u hu
    constructor
    · have : u.flatMap factors = u := by
        induction u with
        | nil => rfl
        | cons x u ih =>
          rw [List.flatMap_cons, ih (fun y hy => hu y (by simp [hy]))]
          rcases hu x (by simp) with rfl | rfl <;> rfl
      have h := tot_extract (cfg := cfg) (u := u) (by
        intro l hl
        rcases hu _ hl with e | e <;> cases e)
      rwa [this] at h
    · refine tot_contract (simpl := fun E => contractTrigFctPowers E) fun x hx y hy => ?_
      unfold areContractableTrigFctPowers
      rcases hu x hx with rfl | rfl <;> rfl
  have hlast : Tot cfg (fun E => (match [num (.rat q), (npow B X : Expr D)] with
      | [] => pure one
      | [r] => pure r
      | r => if needsExpansion r then E.expandAsProduct r else pure (.prod r) : M D (Expr D))) (.prod [num (.rat q), npow B X]) := by
    have hne : needsExpansion [num (.rat q), (npow B X : Expr D)] = false := by
      simp [needsExpansion, constElements, nonConstElements, isConst, isSum]
    simp only [hne, Bool.false_eq_true, if_false]
    exact tot_pure _
  constructor
  · simp only [prodCreate, List.any_cons, List.any_nil, u1, hz, u.1, u.2.1, Bool.or_self, Bool.false_eq_true, if_false]
    refine tot_bind (a := [num (.rat q), npow B X]) (tot_prodSimplify ?_) hlast
    unfold simplProd
    obtain ⟨t1, t2⟩ := hextract [num (.rat q), npow B X] (by simp)
    refine tot_bind t1 (tot_bind t2 ?_)
    simp only [simplTwoFactors, hpp, u.2.2.1, Bool.or_self, Bool.false_eq_true, if_false, simplTwoFactorsWithoutProduct, ho, u.2.2.2.1,
      hcst, u.2.2.2.2, Bool.and_self, if_true]
    exact key
  · simp only [prodCreate, List.any_cons, List.any_nil, u1, hz, u.1, u.2.1, Bool.or_self, Bool.false_eq_true, if_false]
    refine tot_bind (a := [num (.rat q), npow B X]) (tot_prodSimplify ?_) hlast
    unfold simplProd
    obtain ⟨t1, t2⟩ := hextract [npow B X, num (.rat q)] (by simp)
    refine tot_bind t1 (tot_bind t2 ?_)
    simp only [simplTwoFactors, hpp, u.2.2.1, Bool.or_self, Bool.false_eq_true, if_false, simplTwoFactorsWithoutProduct, ho, u.2.2.2.1,
      hcst, u.2.2.2.2, Bool.and_self, if_true]
    exact key

/-! ## Powers -/

theorem Supp.cross {b B Q : ℚ} (hB : Supp b B) (hQ : Supp b Q) : Cross B Q := by
  constructor
  · refine Nat.coprime_of_dvd fun k hk h1 h2 => ?_
    exact Nat.not_coprime_of_dvd_of_dvd hk.one_lt ((hQ k hk).1 h1) ((hB k hk).2 h2) b.reduced
  · refine Nat.coprime_of_dvd fun k hk h1 h2 => ?_
    exact Nat.not_coprime_of_dvd_of_dvd hk.one_lt ((hB k hk).1 h2) ((hQ k hk).2 h1) b.reduced

/-- The last steps of the simplification of a power. -/
theorem NumPowerSimpl.compute_of_pos {max : ℤ} {b e B X Q : ℚ} {g : Bool} (hb : 0 < b) (he : 0 < e) (hB : 0 < B) (hQ : 0 < Q) (hX : 0 < X)
    (h1 : X = 1 → Q = 1) (h2 : X ≠ 1 → B ≠ 1)
    (h : computePosExp max (⟨.rat b, .rat e, .rat 1⟩ : Payload D) = .ok (⟨.rat B, .rat X, .rat Q⟩, g)) :
    compute max (⟨.rat b, .rat e, .rat 1⟩ : Payload D) = .ok (if X = 1 then ⟨.rat B, .rat 1, .rat 1⟩ else rootPayQ B X Q, g) ∧
    compute max (⟨.rat b, .rat (-e), .rat 1⟩ : Payload D) = .ok (if X = 1 then ⟨.rat B⁻¹, .rat 1, .rat 1⟩ else rootPayQ B⁻¹ X Q⁻¹, g) := by
  have hb' : ¬ b < 0 := not_lt.2 hb.le
  have hn : -e < 0 := neg_lt_zero.2 he
  have hp : ¬ e < 0 := not_lt.2 he.le
  have hXp : ¬ X < 0 := not_lt.2 hX.le
  have hXn : -X < 0 := neg_lt_zero.2 hX
  have hv : ∀ x : ℚ, isInputValid (⟨.rat b, .rat x, .rat 1⟩ : Payload D) = true := fun x => by simp [isInputValid, rat_lt_zero, hb']
  have hm : ∀ x : ℚ, (Number.rat x : Number D).mul (.neg 1) = .rat (-x) := fun x => by rw [Number.neg_one_def]; simp [Number.mul]
  have hone : Number.toThe (.rat 1 : Number D) (Number.neg 1) = .ok (.rat 1) := by simpa using toThe_negone (D := D) (q := 1) one_ne_zero
  have hadj1 : ∀ x : ℚ, adjustExpSignAndBase (⟨.rat x, .rat 1, .rat 1⟩ : Payload D) = .ok ⟨.rat x, .rat 1, .rat 1⟩ := by
    intro x
    unfold adjustExpSignAndBase
    have h10 : ¬ ((1 : ℚ) < 0) := by norm_num
    simp only [rat_eqv_one, rat_lt_zero, h10, decide_true, decide_false, Bool.not_true, Bool.and_false, Bool.false_and, Bool.or_self, Bool.false_eq_true, if_false]
    rfl
  have b1 : 0 < B.num := Rat.num_pos.2 hB
  have hn1 : B⁻¹.num = B.den := by rw [Rat.num_inv, Int.sign_eq_one_of_pos b1]; simp
  constructor
  · unfold compute computeRational
    simp only [hv, Bool.not_true, Bool.false_eq_true, if_false, Number.isDouble, Bool.or_self, rat_lt_zero, hp, decide_false, h, bind, Except.bind]
    by_cases e1 : X = 1
    · simp only [e1, if_true, h1 e1, hadj1, pure, Except.pure]
    · unfold adjustExpSignAndBase rootPayQ
      simp only [e1, if_false]
      by_cases e2 : B.num = 1
      · have e3 : ((Number.rat B : Number D).numerator == 1) = true := by simpa [Number.numerator] using e2
        simp only [e2, if_true, e3, rat_eqv_one, toThe_negone hB.ne', bind, Except.bind, pure, Except.pure, hm, e1, decide_false,
          Bool.not_false, Bool.and_true, Bool.true_or]
      · have e3 : ((Number.rat B : Number D).numerator == 1) = false := by simpa [Number.numerator] using e2
        simp only [e2, if_false, e3, rat_eqv_one, rat_lt_zero, hXp, decide_false, Bool.false_and, Bool.or_self, Bool.false_eq_true, pure, Except.pure]
  · unfold compute computeRational computeNegExp
    simp only [hv, Bool.not_true, Bool.false_eq_true, if_false, Number.isDouble, Bool.or_self, rat_lt_zero, hn, decide_true, if_true,
      bind, Except.bind, hone, hm, neg_neg, h, toThe_negone hQ.ne', rat_eqv_zero, hB.ne', decide_false, rat_eqv_one, pure, Except.pure]
    by_cases e1 : X = 1
    · simp only [e1, decide_true, if_true, toThe_negone hB.ne', h1 e1, inv_one, hadj1]
    · have he1' : ¬ (-X = 1) := by intro h; linarith
      simp only [e1, decide_false, Bool.false_eq_true, if_false]
      unfold adjustExpSignAndBase rootPayQ
      simp only [rat_eqv_one, he1', decide_false, Bool.not_false, Bool.and_true, rat_lt_zero, hXn, decide_true, Bool.true_and,
        isFraction_rat, Number.numerator, toThe_negone hB.ne', hm, neg_neg, bind, Except.bind, inv_inv, pure, Except.pure]
      by_cases e2 : B⁻¹.num = 1
      · have e3 : B.den = 1 := by omega
        have e4 : ¬ B.num = 1 := fun h4 => h2 e1 (one_num_den h4 e3)
        simp only [e2, e3, if_true, ne_eq, not_true_eq_false, decide_false, Bool.or_false, beq_iff_eq, e4, if_false]
      · have e3 : ¬ B.den = 1 := fun h => e2 (by omega)
        simp only [e2, e3, if_false, ne_eq, not_false_eq_true, decide_true, Bool.or_true, if_true]

/-- From some depth on the call returns `a` with these conditions. -/
def TotC (cfg : Cfg D) (cs : List (Cond D)) {α : Type} (f : Eng D → M D α) (a : α) : Prop := ∃ N, ∀ n, N ≤ n → f (eng cfg n) = .ok (a, cs)

theorem totC_bind {α β : Type} {f : Eng D → M D α} {g : Eng D → α → M D β} {a : α} {b : β} {cs ds : List (Cond D)}
    (hf : TotC cfg cs f a) (hg : TotC cfg ds (fun E => g E a) b) : TotC cfg (cs ++ ds) (fun E => f E >>= g E) b := by
  obtain ⟨N, hN⟩ := hf
  obtain ⟨K, hK⟩ := hg
  refine ⟨max N K, fun n hn => ?_⟩
  change M.bind (f (eng cfg n)) (g (eng cfg n)) = _
  rw [hN n (by omega)]
  simp only [M.bind]
  have := hK n (by omega)
  dsimp only at this
  rw [this]

theorem totC_bind_tot {α β : Type} {f : Eng D → M D α} {g : Eng D → α → M D β} {a : α} {b : β} {cs : List (Cond D)}
    (hf : TotC cfg cs f a) (hg : Tot cfg (fun E => g E a) b) : TotC cfg cs (fun E => f E >>= g E) b := by
  have := totC_bind hf (ds := []) (g := g) (b := b) hg
  rwa [List.append_nil] at this

theorem totC_succ {α : Type} {f g : Eng D → M D α} {a : α} {cs : List (Cond D)} (h : ∀ n, g (eng cfg (n + 1)) = f (eng cfg n))
    (hf : TotC cfg cs f a) : TotC cfg cs g a := by
  obtain ⟨N, hN⟩ := hf
  refine ⟨N + 1, fun n hn => ?_⟩
  obtain ⟨m, rfl⟩ : ∃ m, n = m + 1 := ⟨n - 1, by omega⟩
  rw [h, hN m (by omega)]

/-- A power of numbers, with the condition of the ghost flag. -/
theorem totC_powNT {b e : ℚ} (hb : b ≠ 0) (hcx : Tot cfg (fun E => doesInvolveComplexNumbers E (num (.rat b)) (num (.rat e))) false) (he : e ≠ 0) {B X P : ℚ} {g : Bool}
    (hr : compute cfg.maxPrime (⟨.rat b, .rat e, .rat 1⟩ : Payload D) = .ok (⟨.rat B, .rat X, .rat P⟩, g)) {v : Expr D}
    (h1 : P = 1 → v = if X = 1 then num (.rat B) else if B = 1 then one else .pow (num (.rat B)) (num (.rat X)))
    (h2 : P ≠ 1 → ∃ w, Tot cfg (fun E => powCreate E (num (.rat B)) (num (.rat X))) w ∧ Tot cfg (fun E => prodCreate E [num (.rat P), w]) v) :
    TotC cfg (if g then [] else [.fail]) (fun E => powCreateNonTrivial E (num (.rat b)) (num (.rat e))) v := by
  unfold powCreateNonTrivial
  have hstart : ∀ {p : Expr D × Expr D}, Tot cfg (fun E =>
      (if (Expr.num (.rat P : Number D)).isOne then (pure (.num (.rat B), .num (.rat X)) : M D (Expr D × Expr D))
        else do
          let p ← E.powCreate (.num (.rat B)) (.num (.rat X))
          let q ← E.prodCreate [.num (.rat P), p]
          pure (q, one))) p → TotC cfg (if g then [] else [.fail]) (fun E => simplPow E (num (.rat b)) (num (.rat e))) p := by
    intro p hp
    unfold simplPow
    refine totC_bind (cs := []) hcx ?_
    simp only [Bool.false_eq_true, if_false]
    unfold simplifyNumericPower
    refine totC_bind (cs := []) (a := ((⟨.rat B, .rat X, .rat P⟩ : Payload D), g))
      (tot_maxPrime (f := fun k => M.lift (NumPowerSimpl.compute k ⟨.rat b, .rat e, 1⟩)) (tot_lift hr)) ?_
    simp only [rat_eqv_zero, hb, he, decide_false, Bool.or_false]
    have hl : TotC cfg (if g then [] else [.fail]) (fun _ => M.logIf (!g) (.fail : Cond D)) () := by
      refine ⟨0, fun n _ => ?_⟩
      cases g <;> rfl
    exact totC_bind_tot hl hp
  by_cases hP : P = 1
  · have hv := h1 hP
    have hs := totC_succ (cfg := cfg) (g := fun E => E.simplPow (num (.rat b)) (num (.rat e))) (fun _ => rfl) (hstart (p := (num (.rat B), num (.rat X))) (by
      simp only [isOne_ratE, hP, decide_true, if_true]; exact tot_pure _))
    refine totC_bind_tot hs (g := fun _ r => pure (if r.2.isOne then r.1 else if r.1.isOne then one else .pow r.1 r.2)) (b := v) (by
      simp only [isOne_ratE, decide_eq_true_eq]
      rw [hv]
      exact tot_pure _)
  · obtain ⟨w, hw1, hw2⟩ := h2 hP
    have hs := totC_succ (cfg := cfg) (g := fun E => E.simplPow (num (.rat b)) (num (.rat e))) (fun _ => rfl) (hstart (p := (v, one)) (by
      simp only [isOne_ratE, hP, decide_false, Bool.false_eq_true, if_false]
      exact tot_bind (tot_pow hw1) (tot_bind (tot_prod hw2) (tot_pure _))))
    refine totC_bind_tot hs (g := fun _ r => pure (if r.2.isOne then r.1 else if r.1.isOne then one else .pow r.1 r.2)) (b := v) (by
      simp only [one_eq, isOne_ratE, decide_true, if_true]
      exact tot_pure _)

/-- The same for Power::create. -/
theorem totC_powQ {b e : ℚ} (hb : b ≠ 0) (hcx : Tot cfg (fun E => doesInvolveComplexNumbers E (num (.rat b)) (num (.rat e))) false) (hb1 : b ≠ 1)
    (he : e ≠ 0) (he1 : e ≠ 1) {B X P : ℚ} {g : Bool}
    (hr : compute cfg.maxPrime (⟨.rat b, .rat e, .rat 1⟩ : Payload D) = .ok (⟨.rat B, .rat X, .rat P⟩, g)) {v : Expr D}
    (h1 : P = 1 → v = if X = 1 then num (.rat B) else if B = 1 then one else .pow (num (.rat B)) (num (.rat X)))
    (h2 : P ≠ 1 → ∃ w, Tot cfg (fun E => powCreate E (num (.rat B)) (num (.rat X))) w ∧ Tot cfg (fun E => prodCreate E [num (.rat P), w]) v) :
    TotC cfg (if g then [] else [.fail]) (fun E => powCreate E (num (.rat b)) (num (.rat e))) v := by
  have u1 : (num (.rat b) : Expr D).isUndefined = false := rfl
  have u2 : (num (.rat e) : Expr D).isUndefined = false := rfl
  simp only [powCreate, u1, u2, isZero_ratE, isOne_ratE, hb, hb1, he, he1, Bool.or_self, Bool.false_eq_true, if_false, decide_false]
  exact totC_powNT hb hcx he hr h1 h2

/-- A number times a root, with one left out. -/
def numRootN (q r f : ℚ) : Expr D := if q = 1 then rootN r f else .prod [num (.rat q), rootN r f]

theorem totC_pow_root {b e B X Q : ℚ} {g : Bool} (hb : 0 < b) (hb1 : b ≠ 1) (he : e ≠ 0) (he1 : e ≠ 1) (hS : Stable cfg.maxPrime B X) (hQ : 0 < Q)
    (hx : Cross B Q) (hr : compute cfg.maxPrime (⟨.rat b, .rat e, .rat 1⟩ : Payload D) = .ok (rootPayQ B X Q, g)) :
    TotC cfg (if g then [] else [.fail]) (fun E => powCreate E (num (.rat b)) (num (.rat e))) (numRootN Q B X : Expr D) := by
  obtain ⟨B', X', hB, hc⟩ := rootN_cases (D := D) B X
  have hpay : (rootPayQ B X Q : Payload D) = ⟨.rat B', .rat X', .rat Q⟩ := by
    unfold rootPayQ
    rcases hc with ⟨h, rfl, rfl⟩ | ⟨h, rfl, rfl⟩
    · rw [if_pos h]
    · rw [if_neg h]
  rw [hpay] at hr
  have hX1 : X' ≠ 1 := by rcases hc with ⟨_, _, rfl⟩ | ⟨_, _, rfl⟩ <;> [exact hS.en.2.2.2; exact hS.en.2.1]
  have hB1 : B' ≠ 1 := by
    rcases hc with ⟨_, rfl, _⟩ | ⟨_, rfl, _⟩
    · simpa using hS.ne
    · exact hS.ne
  refine totC_powQ hb.ne' (tot_noComplex_pos hb _) hb1 he he1 hr (fun hq => ?_) (fun hq => ⟨rootN B X, tot_pow_rootN hS hB, ?_⟩)
  · rw [numRootN, if_pos hq, hB, if_neg hX1, if_neg hB1]
  · rw [numRootN, if_neg hq]
    exact (tot_prod_numRootN hS hQ.ne' hq fun _ _ => hx).1

/-- Rational powers of rational numbers within the limit for primes. -/
theorem totC_pow_small {b x : ℚ} (hb : 0 < b) (hb1 : b ≠ 1) (hx : 0 < x) (hd : 2 ≤ x.den) (hk : x.num < Number.unsignedMax)
    (hdm : (x.den : ℤ) < Number.unsignedMax) (hs : SmallQ cfg.maxPrime b) :
    ∃ (B X Q : ℚ) (g : Bool), computePosExp cfg.maxPrime (⟨.rat b, .rat x, .rat 1⟩ : Payload D) = .ok (⟨.rat B, .rat X, .rat Q⟩, g) ∧ 0 < B ∧ 0 < Q ∧
      ((Q : ℝ) * (B : ℝ) ^ (X : ℝ) = (b : ℝ) ^ (x : ℝ) ↔ g = true) ∧
      ((X = 1 ∧ Q = 1 ∧ TotC cfg (if g then [] else [.fail]) (fun E => powCreate E (num (.rat b)) (num (.rat x))) (num (.rat B) : Expr D) ∧
        TotC cfg (if g then [] else [.fail]) (fun E => powCreate E (num (.rat b)) (num (.rat (-x)))) (num (.rat B⁻¹) : Expr D)) ∨
      ((∀ max, Stable max B X) ∧ Cross B Q ∧ TotC cfg (if g then [] else [.fail]) (fun E => powCreate E (num (.rat b)) (num (.rat x))) (numRootN Q B X : Expr D) ∧
        TotC cfg (if g then [] else [.fail]) (fun E => powCreate E (num (.rat b)) (num (.rat (-x)))) (numRootN Q⁻¹ B⁻¹ X : Expr D))) := by
  obtain ⟨P, R, s, B, X, Q, g, h1, cP, cR, hs0, hv, hB, hQ, c1, c2, -, hg, hform, -⟩ := cancel_run (D := D) hb hx hk hdm (fun h => by omega)
  obtain ⟨sQ, hX⟩ := hform hd
  have hb' : ¬ b < 0 := not_lt.2 hb.le
  have h10 : ¬ ((1 : ℚ) < 0) := by norm_num
  have hsm : areValuesSmallEnough cfg.maxPrime (⟨.rat b, .rat x, .rat 1⟩ : Payload D) = true := small_iff.2 ⟨hs, hs.one⟩
  have hpos : computePosExp cfg.maxPrime (⟨.rat b, .rat x, .rat 1⟩ : Payload D) = .ok (⟨.rat B, .rat X, .rat Q⟩, g) := by
    unfold computePosExp computePosExpPosBase
    simp only [rat_lt_zero, hb', h10, decide_false, Bool.false_eq_true, if_false, bind, Except.bind, pure, Except.pure, decide_eq_true_eq, computeAllPos,
      hsm, if_true, h1, shiftPreFacSignBack, Bool.not_false]
  have hx1 : x ≠ 1 := by rintro rfl; simp at hd
  have hxn1 : -x ≠ 1 := by intro h; linarith
  have hxn0 : -x ≠ 0 := by linarith
  refine ⟨B, X, Q, g, hpos, hB, hQ, hg, ?_⟩
  rcases hX with ⟨rfl, rfl⟩ | ⟨sB, hS⟩
  · obtain ⟨r1, r2⟩ := NumPowerSimpl.compute_of_pos hb hx hB hQ one_pos (fun _ => rfl) (fun h => absurd rfl h) hpos
    simp only [if_true] at r1 r2
    exact .inl ⟨rfl, rfl, totC_powQ hb.ne' (tot_noComplex_pos hb _) hb1 hx.ne' hx1 r1 (fun _ => by rw [if_pos rfl]) (fun h => absurd rfl h),
      totC_powQ hb.ne' (tot_noComplex_pos hb _) hb1 hxn0 hxn1 r2 (fun _ => by rw [if_pos rfl]) (fun h => absurd rfl h)⟩
  · have hS1 := hS cfg.maxPrime
    obtain ⟨r1, r2⟩ := NumPowerSimpl.compute_of_pos hb hx hB hQ hS1.epos (fun h => absurd h hS1.elt.ne) (fun _ => hS1.ne) hpos
    simp only [hS1.elt.ne, if_false] at r1 r2
    have hc := sB.cross sQ
    exact .inr ⟨hS, hc, totC_pow_root hb hb1 hx.ne' hx1 hS1 hQ hc r1, totC_pow_root hb hb1 hxn0 hxn1 hS1.inv (inv_pos.2 hQ) (hc.inv hB hQ) r2⟩

/-- Rational powers of rational numbers above the limit for primes. -/
theorem tot_pow_large {b x : ℚ} (hb : 0 < b) (hb1 : b ≠ 1) (hx : 0 < x) (hd : 2 ≤ x.den) (hs : ¬ SmallQ cfg.maxPrime b) :
    Tot cfg (fun E => powCreate E (num (.rat b)) (num (.rat x))) (rootN b x : Expr D) ∧
    Tot cfg (fun E => powCreate E (num (.rat b)) (num (.rat (-x)))) (rootN b⁻¹ x : Expr D) := by
  have hb' : ¬ b < 0 := not_lt.2 hb.le
  have h10 : ¬ ((1 : ℚ) < 0) := by norm_num
  have hsm : areValuesSmallEnough cfg.maxPrime (⟨.rat b, .rat x, .rat 1⟩ : Payload D) = false := by
    rw [Bool.eq_false_iff]; intro h'; exact hs (small_iff.1 h').1
  have hint : (Number.rat x : Number D).isInt = false := by
    simp only [Number.isInt, Number.denominator, Number.isDouble]
    simp; omega
  have hpos : computePosExp cfg.maxPrime (⟨.rat b, .rat x, .rat 1⟩ : Payload D) = .ok (⟨.rat b, .rat x, .rat 1⟩, true) := by
    unfold computePosExp computePosExpPosBase
    simp only [rat_lt_zero, hb', h10, decide_false, Bool.false_eq_true, if_false, bind, Except.bind, pure, Except.pure, decide_eq_true_eq, computeAllPos,
      hsm, hint, shiftPreFacSignBack, Bool.not_false, if_true]
  have hx1 : x ≠ 1 := by rintro rfl; simp at hd
  have hxn1 : -x ≠ 1 := by intro h; linarith
  have hxn0 : -x ≠ 0 := by linarith
  obtain ⟨r1, r2⟩ := NumPowerSimpl.compute_of_pos hb hx hb one_pos hx (fun h => absurd h hx1) (fun _ => hb1) hpos
  simp only [hx1, if_false, inv_one] at r1 r2
  have hi1 : b⁻¹ ≠ 1 := by simpa using hb1
  have key : ∀ {c y : ℚ}, y ≠ 0 → y ≠ 1 → c ≠ 1 → compute cfg.maxPrime (⟨.rat b, .rat y, .rat 1⟩ : Payload D) = .ok (rootPayQ c x 1, true) →
      Tot cfg (fun E => powCreate E (num (.rat b)) (num (.rat y))) (rootN c x : Expr D) := by
    intro c y y0 y1 hc hr
    obtain ⟨B', X', hB, hcs⟩ := rootN_cases (D := D) c x
    have hpay : (rootPayQ c x 1 : Payload D) = ⟨.rat B', .rat X', .rat 1⟩ := by
      unfold rootPayQ
      rcases hcs with ⟨h, rfl, rfl⟩ | ⟨h, rfl, rfl⟩
      · rw [if_pos h]
      · rw [if_neg h]
    rw [hpay] at hr
    refine tot_powQ hb hb1 y0 y1 hr (fun _ => ?_) (fun h => absurd rfl h)
    rcases hcs with ⟨_, rfl, rfl⟩ | ⟨_, rfl, rfl⟩
    · rw [hB, if_neg hxn1, if_neg (by simpa using hc)]
    · rw [hB, if_neg hx1, if_neg hc]
  exact ⟨key hx.ne' hx1 hb1 r1, key hxn0 hxn1 hi1 r2⟩

end

end Tsym
