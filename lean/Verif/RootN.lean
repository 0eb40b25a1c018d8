import Verif.SqrtMul

set_option autoImplicit false
set_option linter.unusedSectionVars false
set_option linter.unusedSimpArgs false
set_option linter.unusedVariables false

/-!
# Helper lemmas: roots of any degree of rational numbers
-/

namespace Tsym

open Expr NumPowerSimpl

variable {D : Type} [Flt D] [ExactLt D] {cfg : Cfg D}

namespace PrimeFac

/-- Nothing is extracted if each prime occurs less often than the degree of the root. -/
theorem extractLoop_keep (d : ℕ) : ∀ (xs pre : List ℕ) (prime n : ℕ), n + xs.count prime < d → (∀ z, xs.count z < d) →
    extractLoop d pre prime n xs = (pre.reverse ++ xs, []) := by
  intro xs
  induction xs with
  | nil => intro pre prime n _ _; simp [extractLoop]
  | cons x xs ih =>
    intro pre prime n h1 h2
    unfold extractLoop
    have h3 : ∀ z, xs.count z < d := fun z => lt_of_le_of_lt (List.count_le_count_cons) (h2 z)
    by_cases e : prime = x
    · subst e
      rw [List.count_cons_self] at h1
      rw [if_neg (by simp), if_neg (by omega), ih _ _ _ (by omega) h3]
      simp
    · rw [if_pos e, ih _ _ _ (by have := h2 x; rw [List.count_cons_self] at this; omega) h3]
      simp

end PrimeFac

/-- A number whose roots with the exponent `e` stay as they are. -/
structure Stable (max : ℤ) (b e : ℚ) : Prop where
  pos : 0 < b
  ne : b ≠ 1
  epos : 0 < e
  elt : e < 1
  small : e.num < Number.unsignedMax ∧ (e.den : ℤ) < Number.unsignedMax
  keep : SmallQ max b → ∀ P : PrimeFac, P.Canon b → (∀ z, P.num.count z < e.den) ∧ (∀ z, P.den.count z < e.den) ∧ ∃ c, P.equalCount = .ok c ∧ c ≤ 1

namespace NumPowerSimpl

open Number

theorem exp_parts {e : ℚ} (h0 : 0 < e) (h1 : e < 1) : 0 < e.num ∧ 2 ≤ e.den ∧ e.num < e.den := by
  have hn := Rat.num_pos.2 h0
  have hd := e.den_pos
  have hlt : e.num < e.den := by
    have := Rat.num_div_den e
    rw [← this, div_lt_one (by exact_mod_cast hd)] at h1
    exact_mod_cast h1
  exact ⟨hn, by omega, hlt⟩

theorem defPreFac_one {b e : ℚ} (h0 : 0 < e) (hd : (e.den : ℤ) < unsignedMax) :
    defPreFacPrimesInPower (⟨.rat b, .rat e, .rat 1⟩ : Payload D) = .ok (PrimeFac.one, ⟨.rat b, .rat e, .rat 1⟩) := by
  have hn := Rat.num_pos.2 h0
  have hdp := e.den_pos
  have h3 : PrimeFac.ofNumber (.rat 1 : Number D) = .ok PrimeFac.one := by
    have hlt : (Number.rat 1 : Number D).lt 0 = false := by
      rw [Number.zero_def, lt_rat]; simp
    unfold PrimeFac.ofNumber
    simp only [Number.isDouble, hlt, Bool.or_self, Bool.false_eq_true, if_false, Number.numerator, Number.denominator]
    rfl
  have h4 : PrimeFac.toThe PrimeFac.one (e.den : ℤ) = .ok PrimeFac.one := by
    unfold PrimeFac.toThe PrimeFac.duplicate
    have a1 : ¬ (e.den : ℤ) = 0 := by omega
    have a2 : 0 < (e.den : ℤ) ∧ (e.den : ℤ) < unsignedMax := ⟨by omega, hd⟩
    have a3 : ¬ (e.den : ℤ) < 0 := by omega
    simp only [a1, a3, if_false, Int.natAbs_natCast, a2, and_self, if_true, bind, Except.bind]
    rfl
  unfold defPreFacPrimesInPower
  simp only [numerator, denominator, ofInts_eq (show e.num ≠ 0 by omega), one_toThe, isDouble, Bool.false_eq_true, if_false, h3, h4, bind, Except.bind]
  rfl

theorem extract_keep {P : PrimeFac} {e : ℚ} (h0 : 0 < e) (hk : e.num < unsignedMax) (hn : ∀ z, P.num.count z < e.den) (hd : ∀ z, P.den.count z < e.den) :
    P.extract (.rat e : Number D) = .ok (PrimeFac.one, P) := by
  have hnum := Rat.num_pos.2 h0
  have hdp := e.den_pos
  have e1 := PrimeFac.extractLoop_keep e.den P.num [] 0 0 (by have := hn 0; omega) hn
  have e2 := PrimeFac.extractLoop_keep e.den P.den [] 0 0 (by have := hd 0; omega) hd
  have e3 : PrimeFac.toThe ⟨[], []⟩ e.num = .ok PrimeFac.one := by
    unfold PrimeFac.toThe PrimeFac.duplicate
    have a1 : ¬ e.num = 0 := by omega
    have a2 : 0 < (e.num.natAbs : ℤ) ∧ (e.num.natAbs : ℤ) < unsignedMax := ⟨by omega, by omega⟩
    have a3 : ¬ e.num < 0 := by omega
    simp only [a1, a3, if_false, a2, and_self, if_true, bind, Except.bind]
    rfl
  unfold PrimeFac.extract
  simp only [numerator, denominator, Int.toNat_natCast, e1, e2, e3, bind, Except.bind]
  rfl

theorem canon_nil {P : PrimeFac} {b : ℚ} (h : P.Canon b) (hb : b ≠ 1) : ¬ (P.num = [] ∧ P.den = []) := by
  rintro ⟨h1, h2⟩
  apply hb
  rw [← h.val]; simp [PrimeFac.value, h1, h2]

theorem one_eval : (PrimeFac.one.eval : Except Err (Number D)) = .ok (.rat 1) := by
  have := eval_eq (D := D) (p := PrimeFac.one) ⟨by simp [PrimeFac.one], by simp [PrimeFac.one]⟩
  rw [this]; simp [PrimeFac.value, PrimeFac.one]

/-- The number stays below the root. -/
theorem cancel_stable {max : ℤ} {b e : ℚ} (h : Stable max b e) (hs : SmallQ max b) :
    cancel (⟨.rat b, .rat e, .rat 1⟩ : Payload D) = .ok (⟨.rat b, .rat e, .rat 1⟩, true) := by
  obtain ⟨P, hP, cP⟩ := PrimeFac.canon_ofNumber (D := D) h.pos
  obtain ⟨k1, k2, c, hc, hc1⟩ := h.keep hs P cP
  have hmul : P.multiply PrimeFac.one = P := by unfold PrimeFac.multiply; rw [if_pos ⟨rfl, rfl⟩]
  have hghost : collectExact P = true := by unfold collectExact; rw [hc]; simp; omega
  have hcoll : P.collectToNewExp (.rat e : Number D) = .ok (P, .rat e) := by
    unfold PrimeFac.collectToNewExp
    have : ¬ 1 < c := by omega
    simp only [hc, bind, Except.bind, this, if_false, canon_nil cP h.ne]
    rfl
  have hprim : primesToComponents P (⟨.rat b, .rat e, .rat 1⟩ : Payload D) = .ok ⟨.rat b, .rat e, .rat 1⟩ := by
    unfold primesToComponents
    simp only [eval_eq cP.pos, cP.val, bind, Except.bind, rat_eqv_one, h.ne, decide_false, Bool.false_eq_true, if_false]
    rfl
  have hadj : adjustExpGreaterThanOne (⟨.rat b, .rat e, .rat 1⟩ : Payload D) = .ok ⟨.rat b, .rat e, .rat 1⟩ := by
    unfold adjustExpGreaterThanOne
    have := h.epos; have := h.elt
    have h1 : ¬ 1 < e := by linarith
    have h2 : ¬ e < -1 := by linarith
    simp only [one_lt_rat, rat_lt_negone, h1, h2, decide_false, Bool.or_self, Bool.false_eq_true, if_false]
    rfl
  unfold cancel
  simp only [hP, bind, Except.bind, defPreFac_one h.epos h.small.2, hmul, extract_keep h.epos h.small.1 k1 k2, one_eval, hghost, hcoll, Number.mul,
    one_mul, hprim, hadj]
  rfl

theorem computePos_stable {max : ℤ} {b e : ℚ} (h : Stable max b e) :
    computePosExp max (⟨.rat b, .rat e, .rat 1⟩ : Payload D) = .ok (⟨.rat b, .rat e, .rat 1⟩, true) := by
  have hb' : ¬ b < 0 := not_lt.2 h.pos.le
  have h10 : ¬ ((1 : ℚ) < 0) := by norm_num
  unfold computePosExp computePosExpPosBase
  simp only [rat_lt_zero, hb', h10, decide_false, Bool.false_eq_true, if_false, bind, Except.bind, pure, Except.pure, decide_eq_true_eq, computeAllPos]
  by_cases hs : SmallQ max b
  · have hsm : areValuesSmallEnough max (⟨.rat b, .rat e, .rat 1⟩ : Payload D) = true := small_iff.2 ⟨hs, hs.one⟩
    simp only [hsm, if_true, cancel_stable h hs, shiftPreFacSignBack, Bool.not_false]
  · have hsm : areValuesSmallEnough max (⟨.rat b, .rat e, .rat 1⟩ : Payload D) = false := by
      rw [Bool.eq_false_iff]; intro h'; exact hs (small_iff.1 h').1
    have hint : (Number.rat e : Number D).isInt = false := by
      have := (exp_parts h.epos h.elt).2.1
      simp only [Number.isInt, Number.denominator, Number.isDouble]
      simp; omega
    simp only [hsm, Bool.false_eq_true, if_false, hint, shiftPreFacSignBack, Bool.not_false, if_true]

/-- The payload of a root: no fraction with the numerator one, and no negative exponent of a fraction. -/
def rootPayN (b e : ℚ) : Payload D := if b.num = 1 then ⟨.rat b⁻¹, .rat (-e), .rat 1⟩ else ⟨.rat b, .rat e, .rat 1⟩

theorem compute_stable {max : ℤ} {b e : ℚ} (h : Stable max b e) :
    compute max (⟨.rat b, .rat e, .rat 1⟩ : Payload D) = .ok (rootPayN b e, true) := by
  have hb' : ¬ b < 0 := not_lt.2 h.pos.le
  have hv : isInputValid (⟨.rat b, .rat e, .rat 1⟩ : Payload D) = true := by simp [isInputValid, rat_lt_zero, hb']
  have hh : ¬ (e < 0) := not_lt.2 h.epos.le
  have he1 : ¬ (e = 1) := h.elt.ne
  have hm' : (Number.rat e : Number D).mul (.neg 1) = .rat (-e) := by rw [Number.neg_one_def]; simp [Number.mul]
  unfold compute computeRational
  simp only [hv, Bool.not_true, Bool.false_eq_true, if_false, Number.isDouble, Bool.or_self, rat_lt_zero, hh, decide_false,
    computePos_stable h, bind, Except.bind]
  unfold adjustExpSignAndBase rootPayN
  by_cases e2 : b.num = 1
  · have e3 : ((Number.rat b : Number D).numerator == 1) = true := by simpa [Number.numerator] using e2
    simp only [e2, if_true, e3, rat_eqv_one, toThe_negone h.pos.ne', bind, Except.bind, pure, Except.pure, hm', he1, decide_false,
      Bool.not_false, Bool.and_true, Bool.true_or]
  · have e3 : ((Number.rat b : Number D).numerator == 1) = false := by simpa [Number.numerator] using e2
    simp only [e2, if_false, e3, rat_eqv_one, rat_lt_zero, hh, decide_false, Bool.false_and, Bool.or_self, Bool.false_eq_true, pure, Except.pure]

theorem compute_nstable {max : ℤ} {b e : ℚ} (h : Stable max b e) :
    compute max (⟨.rat b, .rat (-e), .rat 1⟩ : Payload D) = .ok (rootPayN b⁻¹ e, true) := by
  have hb' : ¬ b < 0 := not_lt.2 h.pos.le
  have hv : isInputValid (⟨.rat b, .rat (-e), .rat 1⟩ : Payload D) = true := by simp [isInputValid, rat_lt_zero, hb']
  have hh : -e < 0 := neg_lt_zero.2 h.epos
  have he1 : ¬ (e = 1) := h.elt.ne
  have he1' : ¬ (-e = 1) := by have := h.epos; intro h; linarith
  have hm : (Number.rat (-e) : Number D).mul (.neg 1) = .rat e := by rw [Number.neg_one_def]; simp [Number.mul]
  have hm' : (Number.rat e : Number D).mul (.neg 1) = .rat (-e) := by rw [Number.neg_one_def]; simp [Number.mul]
  have hone : Number.toThe (.rat 1 : Number D) (Number.neg 1) = .ok (.rat 1) := by simpa using toThe_negone (D := D) (q := 1) one_ne_zero
  have b1 : 0 < b.num := Rat.num_pos.2 h.pos
  have hn1 : b⁻¹.num = b.den := by rw [Rat.num_inv, Int.sign_eq_one_of_pos b1]; simp
  unfold compute computeRational computeNegExp
  simp only [hv, Bool.not_true, Bool.false_eq_true, if_false, Number.isDouble, Bool.or_self, rat_lt_zero, hh, decide_true, if_true,
    bind, Except.bind, hone, hm, computePos_stable h, rat_eqv_zero, h.pos.ne', decide_false, rat_eqv_one, he1, hm', pure, Except.pure]
  unfold adjustExpSignAndBase rootPayN
  simp only [rat_eqv_one, he1', decide_false, Bool.not_false, Bool.and_true, rat_lt_zero, hh, decide_true, Bool.true_and,
    isFraction_rat, Number.numerator, toThe_negone h.pos.ne', hm, bind, Except.bind, inv_inv, pure, Except.pure]
  by_cases e2 : b⁻¹.num = 1
  · have e3 : b.den = 1 := by omega
    have e4 : ¬ b.num = 1 := fun h4 => h.ne (one_num_den h4 e3)
    simp only [e2, e3, if_true, ne_eq, not_true_eq_false, decide_false, Bool.or_false, beq_iff_eq, e4, if_false]
  · have e3 : ¬ b.den = 1 := fun h => e2 (by omega)
    simp only [e2, e3, if_false, ne_eq, not_false_eq_true, decide_true, Bool.or_true, if_true]

end NumPowerSimpl

/-- The power of `b` with an exponent between 0 and 1 as it is stored. -/
def rootN (b e : ℚ) : Expr D :=
  if b.num = 1 then .pow (.num (.rat b⁻¹)) (.num (.rat (-e))) else .pow (.num (.rat b)) (.num (.rat e))

theorem Stable.en {max : ℤ} {b e : ℚ} (h : Stable max b e) : e ≠ 0 ∧ e ≠ 1 ∧ -e ≠ 0 ∧ -e ≠ 1 :=
  ⟨h.epos.ne', h.elt.ne, neg_ne_zero.2 h.epos.ne', by have := h.epos; intro h; linarith⟩

theorem tot_powN {b e : ℚ} (h : Stable cfg.maxPrime b e) : Tot cfg (fun E => powCreate E (num (.rat b)) (num (.rat e))) (rootN b e : Expr D) := by
  have k := compute_stable (D := D) h
  obtain ⟨h0, h1, h2, h3⟩ := h.en
  have hi : b⁻¹ ≠ 1 := by simpa using h.ne
  unfold rootPayN at k
  unfold rootN
  by_cases e1 : b.num = 1
  · simp only [e1, if_true] at k ⊢
    refine tot_powQ h.pos h.ne h0 h1 k (fun _ => ?_) (fun h => absurd rfl h)
    rw [if_neg h3, if_neg hi]
  · simp only [e1, if_false] at k ⊢
    refine tot_powQ h.pos h.ne h0 h1 k (fun _ => ?_) (fun h => absurd rfl h)
    rw [if_neg h1, if_neg h.ne]

theorem tot_powN_neg {b e : ℚ} (h : Stable cfg.maxPrime b e) :
    Tot cfg (fun E => powCreate E (num (.rat b)) (num (.rat (-e)))) (rootN b⁻¹ e : Expr D) := by
  have k := compute_nstable (D := D) h
  obtain ⟨h0, h1, h2, h3⟩ := h.en
  have hi : b⁻¹ ≠ 1 := by simpa using h.ne
  unfold rootPayN at k
  unfold rootN
  simp only [inv_inv] at k ⊢
  by_cases e1 : b⁻¹.num = 1
  · simp only [e1, if_true] at k ⊢
    refine tot_powQ h.pos h.ne h2 h3 k (fun _ => ?_) (fun h => absurd rfl h)
    rw [if_neg h3, if_neg h.ne]
  · simp only [e1, if_false] at k ⊢
    refine tot_powQ h.pos h.ne h2 h3 k (fun _ => ?_) (fun h => absurd rfl h)
    rw [if_neg h1, if_neg hi]

end Tsym
