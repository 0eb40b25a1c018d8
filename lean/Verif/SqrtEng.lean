import Verif.SqrtNum
import Verif.PowNum

set_option autoImplicit false
set_option linter.unusedSectionVars false
set_option linter.unusedSimpArgs false
set_option linter.unusedVariables false

/-!
# Helper lemmas: Power::create and Product::create for square roots of rational numbers
-/

namespace Tsym

open Expr NumPowerSimpl

variable {D : Type} [Flt D] [ExactLt D] {cfg : Cfg D}

/-- The square root of `r` as it is stored: no fraction with the numerator one below the root. -/
def rootE (r : ℚ) : Expr D :=
  if r.num = 1 then .pow (.num (.rat r⁻¹)) (.num (.rat (-(1 / 2)))) else .pow (.num (.rat r)) (.num (.rat (1 / 2)))

/-- A rational multiple `s` of the square root of `r` as it is stored. -/
def surd (s r : ℚ) : Expr D :=
  if r = 1 then .num (.rat s) else if s = 1 then rootE r else .prod [.num (.rat s), rootE r]

/-- What the library makes of `p` times the square root of `b`: `s` times the square root of `r`. -/
inductive RootOf (max : ℤ) (b p s r : ℚ) : Prop
  | small (s0 : ℚ) (h1 : SmallQ max b) (h2 : SmallQ max p) (h3 : SqSplit (b * p ^ 2) s0 r) (h4 : s = if p < 0 then -s0 else s0)
  | large (h : ¬ (SmallQ max b ∧ SmallQ max p)) (h1 : s = p) (h2 : r = b)

theorem NumPowerSimpl.SmallQ.inv_iff {max : ℤ} {q : ℚ} (hq : q ≠ 0) : SmallQ max q⁻¹ ↔ SmallQ max q :=
  ⟨fun h => by simpa using h.inv (inv_ne_zero hq), fun h => h.inv hq⟩

theorem NumPowerSimpl.SmallQ.neg_iff {max : ℤ} {q : ℚ} : SmallQ max (-q) ↔ SmallQ max q := ⟨fun h => by simpa using h.neg, fun h => h.neg⟩

theorem NumPowerSimpl.SmallQ.one {max : ℤ} {b : ℚ} (h : SmallQ max b) : SmallQ max 1 := by
  unfold SmallQ at *
  have := b.den_pos
  simp; omega

theorem computePos_large {max : ℤ} {b pf : ℚ} (hb : 0 < b) (h : ¬ (SmallQ max b ∧ SmallQ max pf)) :
    computePosExp max (⟨.rat b, .rat (1 / 2), .rat pf⟩ : Payload D) = .ok (⟨.rat b, .rat (1 / 2), .rat pf⟩, true) := by
  have hb' : ¬ b < 0 := not_lt.2 hb.le
  have hint : (Number.rat (1 / 2) : Number D).isInt = false := by
    simp only [Number.isInt, Number.denominator, Number.isDouble, half_den]; rfl
  unfold computePosExp computePosExpPosBase
  simp only [rat_lt_zero, hb', decide_false, Bool.false_eq_true, if_false, bind, Except.bind, pure, Except.pure, decide_eq_true_eq]
  by_cases h0 : pf < 0
  · have hm : (Number.rat pf : Number D).mul (.neg 1) = .rat (-pf) := by rw [Number.neg_one_def]; simp [Number.mul]
    have hm2 : (Number.rat (-pf) : Number D).mul (.neg 1) = .rat pf := by rw [Number.neg_one_def]; simp [Number.mul]
    have hsm : areValuesSmallEnough max (⟨.rat b, .rat (1 / 2), .rat (-pf)⟩ : Payload D) = false := by
      rw [Bool.eq_false_iff]; intro h'
      obtain ⟨x, y⟩ := small_iff.1 h'
      exact h ⟨x, SmallQ.neg_iff.1 y⟩
    have hhalf : ¬ ((1 : ℚ) / 2 = 1) := by norm_num
    simp only [h0, if_true, computeAllPos, hm, hsm, Bool.false_eq_true, if_false, hint, bind, Except.bind, pure, Except.pure, shiftPreFacSignBack,
      Bool.not_true, rat_eqv_one, hhalf, decide_false, hm2]
  · have hsm : areValuesSmallEnough max (⟨.rat b, .rat (1 / 2), .rat pf⟩ : Payload D) = false := by
      rw [Bool.eq_false_iff]; intro h'
      exact h (small_iff.1 h')
    simp only [h0, if_false, computeAllPos, hsm, Bool.false_eq_true, hint, bind, Except.bind, pure, Except.pure, shiftPreFacSignBack, Bool.not_false, if_true]

/-- NumPowerSimpl for the exponent one half. -/
theorem compute_root {max : ℤ} {b p s r : ℚ} (hb : 0 < b) (hb1 : b ≠ 1) (hp : p ≠ 0) (h : RootOf max b p s r) :
    compute max (⟨.rat b, .rat (1 / 2), .rat p⟩ : Payload D) = .ok (rootOut s r, true) := by
  rcases h with ⟨s0, h1, h2, h3, rfl⟩ | ⟨h, rfl, rfl⟩
  · exact compute_half hb hp h3 h1 h2
  · have hb' : ¬ r < 0 := not_lt.2 hb.le
    have hv : isInputValid (⟨.rat r, .rat (1 / 2), .rat s⟩ : Payload D) = true := by simp [isInputValid, rat_lt_zero, hb']
    have hh : ¬ ((1 : ℚ) / 2 < 0) := by norm_num
    have hm' : (Number.rat (1 / 2) : Number D).mul (.neg 1) = .rat (-(1 / 2)) := by rw [Number.neg_one_def]; simp [Number.mul]
    have hhalf : ¬ ((1 : ℚ) / 2 = 1) := by norm_num
    unfold compute computeRational
    simp only [hv, Bool.not_true, Bool.false_eq_true, if_false, Number.isDouble, Bool.or_self, rat_lt_zero, hh, decide_false,
      computePos_large hb h, bind, Except.bind]
    unfold adjustExpSignAndBase rootOut
    by_cases e2 : r.num = 1
    · have e3 : ((Number.rat r : Number D).numerator == 1) = true := by simpa [Number.numerator] using e2
      simp only [hb1, if_false, e2, if_true, e3, rat_eqv_one, toThe_negone hb.ne', bind, Except.bind, pure, Except.pure, hm', hhalf, decide_false,
        Bool.not_false, Bool.and_true, Bool.true_or]
    · have e3 : ((Number.rat r : Number D).numerator == 1) = false := by simpa [Number.numerator] using e2
      simp only [hb1, if_false, e2, e3, rat_eqv_one, rat_lt_zero, hh, decide_false, Bool.false_and, Bool.or_self, Bool.false_eq_true, pure, Except.pure]

/-- NumPowerSimpl for the exponent minus one half. -/
theorem compute_nroot {max : ℤ} {b p s r : ℚ} (hb : 0 < b) (hb1 : b ≠ 1) (hp : p ≠ 0) (h : RootOf max b⁻¹ p s r) :
    compute max (⟨.rat b, .rat (-(1 / 2)), .rat p⟩ : Payload D) = .ok (rootOut s r, true) := by
  rcases h with ⟨s0, h1, h2, h3, rfl⟩ | ⟨h, rfl, rfl⟩
  · exact compute_neghalf hb hp h3 ((SmallQ.inv_iff hb.ne').1 h1) h2
  · have hb' : ¬ b < 0 := not_lt.2 hb.le
    have hv : isInputValid (⟨.rat b, .rat (-(1 / 2)), .rat s⟩ : Payload D) = true := by simp [isInputValid, rat_lt_zero, hb']
    have hh : -((1 : ℚ) / 2) < 0 := by norm_num
    have hm : (Number.rat (-(1 / 2)) : Number D).mul (.neg 1) = .rat (1 / 2) := by rw [Number.neg_one_def]; simp [Number.mul]
    have hm' : (Number.rat (1 / 2) : Number D).mul (.neg 1) = .rat (-(1 / 2)) := by rw [Number.neg_one_def]; simp [Number.mul]
    have h' : ¬ (SmallQ max b ∧ SmallQ max s⁻¹) := by
      rwa [SmallQ.inv_iff hp, ← SmallQ.inv_iff hb.ne']
    have hhalf : ¬ ((1 : ℚ) / 2 = 1) := by norm_num
    have hhalf' : ¬ (-((1 : ℚ) / 2) = 1) := by norm_num
    have b1 : 0 < b.num := Rat.num_pos.2 hb
    have hn1 : b⁻¹.num = b.den := by rw [Rat.num_inv, Int.sign_eq_one_of_pos b1]; simp
    have e' : ¬ b⁻¹ = 1 := by simpa using hb1
    unfold compute computeRational computeNegExp
    simp only [hv, Bool.not_true, Bool.false_eq_true, if_false, Number.isDouble, Bool.or_self, rat_lt_zero, hh, decide_true, if_true,
      bind, Except.bind, toThe_negone hp, hm, computePos_large hb h', toThe_negone (inv_ne_zero hp), inv_inv, rat_eqv_zero, hb.ne', decide_false,
      rat_eqv_one, hhalf, hm', pure, Except.pure]
    unfold adjustExpSignAndBase rootOut
    simp only [e', if_false, rat_eqv_one, hhalf', decide_false, Bool.not_false, Bool.and_true, rat_lt_zero, hh, decide_true, Bool.true_and,
      isFraction_rat, Number.numerator, toThe_negone hb.ne', hm, bind, Except.bind, inv_inv, pure, Except.pure]
    by_cases e2 : b⁻¹.num = 1
    · have e3 : b.den = 1 := by omega
      have e4 : ¬ b.num = 1 := fun h4 => hb1 (one_num_den h4 e3)
      simp only [e2, e3, if_true, ne_eq, not_true_eq_false, decide_false, Bool.or_false, beq_iff_eq, e4, if_false]
    · have e3 : ¬ b.den = 1 := fun h => e2 (by omega)
      simp only [e2, e3, if_false, ne_eq, not_false_eq_true, decide_true, Bool.or_true, if_true]

/-! ## The engine -/

theorem tot_noComplex_pos {b : ℚ} (hb : 0 < b) (e : ℚ) :
    Tot cfg (fun E => doesInvolveComplexNumbers E (num (.rat b)) (num (.rat e))) false := by
  unfold doesInvolveComplexNumbers
  have hneg : Tot cfg (fun E => isNeg E (num (.rat b) : Expr D)) false := by
    simp only [isNeg, rat_lt_zero, not_lt.2 hb.le, decide_false]; exact tot_pure _
  refine tot_whenTrue (tot_bind (tot_lift (numEval_rat e)) (tot_bind (tot_isNeg hneg) ?_))
  simp only [Bool.false_and, Bool.false_eq_true, if_false]
  exact tot_pure _

/-- Power::create for numbers whose NumPowerSimpl result is known. -/
theorem tot_powQ {b e : ℚ} (hb : 0 < b) (hb1 : b ≠ 1) (he : e ≠ 0) (he1 : e ≠ 1) {B X P : ℚ}
    (hr : compute cfg.maxPrime (⟨.rat b, .rat e, .rat 1⟩ : Payload D) = .ok (⟨.rat B, .rat X, .rat P⟩, true)) {v : Expr D}
    (h1 : P = 1 → v = if X = 1 then num (.rat B) else if B = 1 then one else .pow (num (.rat B)) (num (.rat X)))
    (h2 : P ≠ 1 → ∃ w, Tot cfg (fun E => powCreate E (num (.rat B)) (num (.rat X))) w ∧ Tot cfg (fun E => prodCreate E [num (.rat P), w]) v) :
    Tot cfg (fun E => powCreate E (num (.rat b)) (num (.rat e))) v := by
  have u1 : (num (.rat b) : Expr D).isUndefined = false := rfl
  have u2 : (num (.rat e) : Expr D).isUndefined = false := rfl
  simp only [powCreate, u1, u2, isZero_ratE, isOne_ratE, hb.ne', hb1, he, he1, Bool.or_self, Bool.false_eq_true, if_false, decide_false]
  unfold powCreateNonTrivial
  have hstart : ∀ {p : Expr D × Expr D}, Tot cfg (fun E =>
      (if (Expr.num (.rat P : Number D)).isOne then (pure (.num (.rat B), .num (.rat X)) : M D (Expr D × Expr D))
        else do
          let p ← E.powCreate (.num (.rat B)) (.num (.rat X))
          let q ← E.prodCreate [.num (.rat P), p]
          pure (q, one))) p → Tot cfg (fun E => simplPow E (num (.rat b)) (num (.rat e))) p := by
    intro p hp
    unfold simplPow
    refine tot_bind (tot_noComplex_pos hb e) ?_
    simp only [Bool.false_eq_true, if_false]
    unfold simplifyNumericPower
    refine tot_bind (a := ((⟨.rat B, .rat X, .rat P⟩ : Payload D), true))
      (tot_maxPrime (f := fun k => M.lift (NumPowerSimpl.compute k ⟨.rat b, .rat e, 1⟩)) (tot_lift hr)) ?_
    simp only [Bool.not_true, rat_eqv_zero, hb.ne', he, decide_false, Bool.or_self]
    exact tot_bind (tot_logIf rfl) hp
  by_cases hP : P = 1
  · have hv := h1 hP
    refine tot_bind (tot_simplPow (hstart (p := (num (.rat B), num (.rat X))) ?_)) ?_
    · simp only [isOne_ratE, hP, decide_true, if_true]; exact tot_pure _
    · simp only [isOne_ratE, decide_eq_true_eq]
      rw [hv]
      exact tot_pure _
  · obtain ⟨w, hw1, hw2⟩ := h2 hP
    refine tot_bind (tot_simplPow (hstart (p := (v, one)) ?_)) ?_
    · simp only [isOne_ratE, hP, decide_false, Bool.false_eq_true, if_false]
      exact tot_bind (tot_pow hw1) (tot_bind (tot_prod hw2) (tot_pure _))
    · simp only [one_eq, isOne_ratE, decide_true, if_true]
      exact tot_pure _

/-- A number below a root that stays as it is. -/
def Simple (max : ℤ) (r : ℚ) : Prop := 0 < r ∧ r ≠ 1 ∧ (SmallQ max r → Squarefree r.num.natAbs ∧ Squarefree r.den)

theorem Simple.rootOf {max : ℤ} {r : ℚ} (h : Simple max r) : RootOf max r 1 1 r := by
  by_cases hs : SmallQ max r
  · refine .small 1 hs hs.one ?_ (by norm_num)
    have := h.2.2 hs
    refine ⟨one_pos, h.1, by simp, by simp, this.1, this.2⟩
  · exact .large (fun h => hs h.1) rfl rfl

theorem RootOf.simple {max : ℤ} {b p s r : ℚ} (hb : 0 < b) (hb1 : Simple max b) (h : RootOf max b p s r) (hr : r ≠ 1) : Simple max r := by
  rcases h with ⟨s0, h1, h2, h3, rfl⟩ | ⟨h, rfl, rfl⟩
  · exact ⟨h3.rpos, hr, fun _ => ⟨h3.sfn, h3.sfd⟩⟩
  · exact hb1

/-- Roots that stay as they are. -/
theorem tot_rootE {r : ℚ} (h : Simple cfg.maxPrime r) :
    Tot cfg (fun E => powCreate E (num (.rat r)) (num (.rat (1 / 2)))) (rootE r : Expr D) ∧
    Tot cfg (fun E => powCreate E (num (.rat r⁻¹)) (num (.rat (-(1 / 2))))) (rootE r : Expr D) := by
  have hi1 : r⁻¹ ≠ 1 := by simpa using h.2.1
  have k1 := compute_root (D := D) h.1 h.2.1 one_ne_zero h.rootOf
  have k2 := compute_nroot (D := D) (inv_pos.2 h.1) hi1 one_ne_zero (by rw [inv_inv]; exact h.rootOf)
  unfold rootOut at k1 k2
  unfold rootE
  simp only [h.2.1, if_false] at k1 k2
  by_cases e : r.num = 1
  · simp only [e, if_true] at k1 k2 ⊢
    constructor
    · refine tot_powQ h.1 h.2.1 (by norm_num) (by norm_num) k1 (fun _ => ?_) (fun h => absurd rfl h)
      rw [if_neg (by norm_num), if_neg hi1]
    · refine tot_powQ (inv_pos.2 h.1) hi1 (by norm_num) (by norm_num) k2 (fun _ => ?_) (fun h => absurd rfl h)
      rw [if_neg (by norm_num), if_neg hi1]
  · simp only [e, if_false] at k1 k2 ⊢
    constructor
    · refine tot_powQ h.1 h.2.1 (by norm_num) (by norm_num) k1 (fun _ => ?_) (fun h => absurd rfl h)
      rw [if_neg (by norm_num), if_neg h.2.1]
    · refine tot_powQ (inv_pos.2 h.1) hi1 (by norm_num) (by norm_num) k2 (fun _ => ?_) (fun h => absurd rfl h)
      rw [if_neg (by norm_num), if_neg h.2.1]

theorem rootE_cases (r : ℚ) : ∃ b e : ℚ, (rootE r : Expr D) = .pow (.num (.rat b)) (.num (.rat e)) ∧
    ((r.num = 1 ∧ b = r⁻¹ ∧ e = -(1 / 2)) ∨ (r.num ≠ 1 ∧ b = r ∧ e = 1 / 2)) := by
  unfold rootE
  by_cases h : r.num = 1
  · exact ⟨_, _, by rw [if_pos h], .inl ⟨h, rfl, rfl⟩⟩
  · exact ⟨_, _, by rw [if_neg h], .inr ⟨h, rfl, rfl⟩⟩

/-- The factors of a multiple of a root. -/
def surdList (s r : ℚ) : List (Expr D) := if r = 1 then [num (.rat s)] else if s = 1 then [rootE r] else [num (.rat s), rootE r]

/-- A number times a root: the list of factors. -/
theorem tot_numRoot {b : ℚ} (hb : Simple cfg.maxPrime b) {p s r : ℚ} (hp : p ≠ 0) (h : RootOf cfg.maxPrime b p s r) :
    Tot cfg (fun E => simplNumAndConst E (.rat p) (rootE b : Expr D)) (surdList s r) := by
  unfold surdList
  obtain ⟨B, X, hB, hcase⟩ := rootE_cases (D := D) b
  rw [hB]
  have hB0 : B ≠ 0 := by
    rcases hcase with ⟨_, rfl, _⟩ | ⟨_, rfl, _⟩
    · exact inv_ne_zero hb.1.ne'
    · exact hb.1.ne'
  have hX0 : X ≠ 0 := by rcases hcase with ⟨_, _, rfl⟩ | ⟨_, _, rfl⟩ <;> norm_num
  have hr : compute cfg.maxPrime (⟨.rat B, .rat X, .rat p⟩ : Payload D) = .ok (rootOut s r, true) := by
    rcases hcase with ⟨_, rfl, rfl⟩ | ⟨_, rfl, rfl⟩
    · exact compute_nroot (inv_pos.2 hb.1) (by simpa using hb.2.1) hp (by rwa [inv_inv])
    · exact compute_root hb.1 hb.2.1 hp h
  simp only [simplNumAndConst]
  unfold simplNumAndNumPowN
  refine tot_bind (a := ((rootOut s r : Payload D), true))
    (tot_maxPrime (f := fun k => M.lift (NumPowerSimpl.compute k ⟨.rat B, .rat X, .rat p⟩)) (tot_lift hr)) ?_
  simp only [Bool.not_true, rat_eqv_zero, hB0, hX0, hp, decide_false, Bool.or_self]
  refine tot_bind (tot_logIf rfl) ?_
  by_cases e : r = 1
  · simp only [rootOut, e, if_true]
    refine tot_bind (a := num (.rat s)) (tot_pow ?_) ?_
    · have u1 : (num (.rat s) : Expr D).isUndefined = false := rfl
      have u2 : (num (.rat 1) : Expr D).isUndefined = false := rfl
      have h10 : (1 : ℚ) ≠ 0 := one_ne_zero
      have hs0 : s ≠ 0 := by
        rcases h with ⟨s0, h1, h2, h3, rfl⟩ | ⟨h, rfl, rfl⟩
        · have := h3.spos; split <;> linarith
        · exact hp
      simp only [powCreate, u1, u2, isZero_ratE, isOne_ratE, hs0, h10, decide_true, decide_false, Bool.or_self, Bool.false_or, Bool.false_eq_true,
        if_false, if_true]
      by_cases h1 : s = 1
      · simp only [h1, decide_true, if_true, one_eq]; exact tot_pure _
      · simp only [h1, decide_false, Bool.false_eq_true, if_false]; exact tot_pure _
    · simp only [isOne_ratE, decide_true, if_true]
      exact tot_pure _
  · obtain ⟨t1, t2⟩ := tot_rootE (cfg := cfg) (h.simple hb.1 hb e)
    have hw : Tot cfg (fun E => E.powCreate (.num (rootOut s r : Payload D).base) (.num (rootOut s r : Payload D).exp)) (rootE r : Expr D) ∧
        (rootOut s r : Payload D).preFactor = .rat s := by
      unfold rootOut
      by_cases e2 : r.num = 1
      · simp only [e, e2, if_false, if_true]; exact ⟨tot_pow t2, trivial⟩
      · simp only [e, e2, if_false]; exact ⟨tot_pow t1, trivial⟩
    refine tot_bind hw.1 ?_
    simp only [hw.2, isOne_ratE, e, if_false, decide_eq_true_eq]
    exact tot_pure _

theorem rootE_isUndefined (r : ℚ) : (rootE r : Expr D).isUndefined = false := by
  obtain ⟨B, X, hB, _⟩ := rootE_cases (D := D) r; rw [hB]; rfl
theorem rootE_isProduct (r : ℚ) : (rootE r : Expr D).isProduct = false := by
  obtain ⟨B, X, hB, _⟩ := rootE_cases (D := D) r; rw [hB]; rfl
theorem rootE_isSum (r : ℚ) : (rootE r : Expr D).isSum = false := by
  obtain ⟨B, X, hB, _⟩ := rootE_cases (D := D) r; rw [hB]; rfl
theorem rootE_isZero (r : ℚ) : (rootE r : Expr D).isZero = false := by
  obtain ⟨B, X, hB, _⟩ := rootE_cases (D := D) r; rw [hB]; rfl
theorem rootE_isOne (r : ℚ) : (rootE r : Expr D).isOne = false := by
  obtain ⟨B, X, hB, _⟩ := rootE_cases (D := D) r; rw [hB]; rfl
theorem rootE_isConst (r : ℚ) : (rootE r : Expr D).isConst = true := by
  obtain ⟨B, X, hB, _⟩ := rootE_cases (D := D) r; rw [hB]; simp [isConst]
theorem rootE_factors (r : ℚ) : factors (rootE r : Expr D) = [rootE r] := by
  obtain ⟨B, X, hB, _⟩ := rootE_cases (D := D) r; rw [hB]; rfl
theorem rootE_trig (r : ℚ) : isContractableTrigFctPower (rootE r : Expr D) = pure false := by
  obtain ⟨B, X, hB, _⟩ := rootE_cases (D := D) r; rw [hB]; rfl

theorem tot_surdList (s r : ℚ) : Tot cfg (fun E => (match (surdList s r : List (Expr D)) with
      | [] => pure one
      | [r] => pure r
      | r => if needsExpansion r then E.expandAsProduct r else pure (.prod r) : M D (Expr D))) (surd s r) := by
  unfold surdList surd
  by_cases e : r = 1
  · simp only [e, if_true]; exact tot_pure _
  · by_cases e2 : s = 1
    · simp only [e, e2, if_true, if_false]; exact tot_pure _
    · have hne : needsExpansion [num (.rat s), (rootE r : Expr D)] = false := by
        obtain ⟨B', X', hB', _⟩ := rootE_cases (D := D) r
        rw [hB']
        simp [needsExpansion, constElements, nonConstElements, isConst, isSum]
      simp only [e, e2, if_false, hne, Bool.false_eq_true]
      exact tot_pure _

/-- The product of a number and a root. -/
theorem tot_prod_numRoot {b : ℚ} (hb : Simple cfg.maxPrime b) {p s r : ℚ} (hp : p ≠ 0) (hp1 : p ≠ 1) (h : RootOf cfg.maxPrime b p s r) :
    Tot cfg (fun E => prodCreate E [num (.rat p), (rootE b : Expr D)]) (surd s r) ∧
    Tot cfg (fun E => prodCreate E [(rootE b : Expr D), num (.rat p)]) (surd s r) := by
  have u1 : (num (.rat p) : Expr D).isUndefined = false := rfl
  have hz : (num (.rat p) : Expr D).isZero = false := by rw [isZero_ratE]; simpa using hp
  have ho : (num (.rat p) : Expr D).isOne = false := by rw [isOne_ratE]; simpa using hp1
  have hpp : (num (.rat p) : Expr D).isProduct = false := rfl
  have hfac : factors (num (.rat p) : Expr D) = [num (.rat p)] := rfl
  have hcst : (num (.rat p) : Expr D).isConst = true := by simp [isConst]
  obtain ⟨B, X, hB, _⟩ := rootE_cases (D := D) b
  have hextract : ∀ u : List (Expr D), (∀ x ∈ u, x = num (.rat p) ∨ x = rootE b) → Tot cfg (fun E => extractProducts E u) u ∧
      Tot cfg (fun E => contractTrigonometrics E u) u := by
    intro u hu
    constructor
    · have : u.flatMap factors = u := by
        induction u with
        | nil => rfl
        | cons x u ih =>
          rw [List.flatMap_cons, ih (fun y hy => hu y (by simp [hy]))]
          rcases hu x (by simp) with rfl | rfl
          · rfl
          · rw [rootE_factors]; rfl
      have h := tot_extract (cfg := cfg) (u := u) (by
        intro l hl
        rcases hu _ hl with e | e
        · cases e
        · have := rootE_isProduct (D := D) b; rw [← e] at this; cases this)
      rwa [this] at h
    · refine tot_contract (simpl := fun E => contractTrigFctPowers E) fun x hx y hy => ?_
      unfold areContractableTrigFctPowers
      rcases hu x hx with rfl | rfl
      · rfl
      · rw [rootE_trig]; rfl
  have key := tot_numRoot hb hp h
  constructor
  · simp only [prodCreate, List.any_cons, List.any_nil, u1, hz, rootE_isUndefined, rootE_isZero, Bool.or_self, Bool.false_eq_true, if_false]
    refine tot_bind (a := surdList s r) (tot_prodSimplify ?_) (tot_surdList s r)
    unfold simplProd
    obtain ⟨t1, t2⟩ := hextract [num (.rat p), rootE b] (by simp)
    refine tot_bind t1 (tot_bind t2 ?_)
    simp only [simplTwoFactors, hpp, rootE_isProduct, Bool.or_self, Bool.false_eq_true, if_false, simplTwoFactorsWithoutProduct, ho, rootE_isOne,
      hcst, rootE_isConst, Bool.and_self, if_true]
    rw [hB] at key ⊢
    exact key
  · simp only [prodCreate, List.any_cons, List.any_nil, u1, hz, rootE_isUndefined, rootE_isZero, Bool.or_self, Bool.false_eq_true, if_false]
    refine tot_bind (a := surdList s r) (tot_prodSimplify ?_) (tot_surdList s r)
    unfold simplProd
    obtain ⟨t1, t2⟩ := hextract [rootE b, num (.rat p)] (by simp)
    refine tot_bind t1 (tot_bind t2 ?_)
    simp only [simplTwoFactors, hpp, rootE_isProduct, Bool.or_self, Bool.false_eq_true, if_false, simplTwoFactorsWithoutProduct, ho, rootE_isOne,
      hcst, rootE_isConst, Bool.and_self, if_true]
    rw [hB] at key ⊢
    exact key

/-- Square roots of positive rational numbers. -/
theorem tot_sqrt {b : ℚ} (hb : 0 < b) {s r : ℚ} (h : RootOf cfg.maxPrime b 1 s r) :
    Tot cfg (fun E => powCreate E (num (.rat b)) (num (.rat (1 / 2)))) (surd s r : Expr D) ∧
    Tot cfg (fun E => powCreate E (num (.rat b⁻¹)) (num (.rat (-(1 / 2))))) (surd s r : Expr D) := by
  by_cases hb1 : b = 1
  · subst hb1
    have hsr : s = 1 ∧ r = 1 := by
      rcases h with ⟨s0, h1, h2, h3, rfl⟩ | ⟨h, rfl, rfl⟩
      · obtain ⟨e1, e2⟩ := h3.unique (s' := 1) (r' := 1) ⟨one_pos, one_pos, by norm_num, by norm_num, by simp, by simp⟩
        subst e1 e2; norm_num
      · exact ⟨rfl, rfl⟩
    obtain ⟨rfl, rfl⟩ := hsr
    have u1 : (num (.rat 1) : Expr D).isUndefined = false := rfl
    have u2 : ∀ e : ℚ, (num (.rat e) : Expr D).isUndefined = false := fun _ => rfl
    simp only [surd, if_true, inv_one, powCreate, u1, u2, isOne_ratE, decide_true, Bool.or_true, Bool.or_self, Bool.false_eq_true, if_false, one_eq]
    exact ⟨tot_pure _, tot_pure _⟩
  have hi1 : b⁻¹ ≠ 1 := by simpa using hb1
  have k1 := compute_root (D := D) hb hb1 one_ne_zero h
  have k2 := compute_nroot (D := D) (inv_pos.2 hb) hi1 one_ne_zero (by rw [inv_inv]; exact h)
  have hs0 : 0 < s := by
    rcases h with ⟨s0, h1, h2, h3, rfl⟩ | ⟨h, rfl, rfl⟩
    · exact h3.spos
    · exact one_pos
  -- what is left is simple and gives the same again
  have hsimple : r ≠ 1 → Simple cfg.maxPrime r := by
    intro hr
    rcases h with ⟨s0, h1, h2, h3, rfl⟩ | ⟨h, rfl, rfl⟩
    · exact ⟨h3.rpos, hr, fun _ => ⟨h3.sfn, h3.sfd⟩⟩
    · exact ⟨hb, hr, fun hs => absurd ⟨hs, hs.one⟩ h⟩
  have hagain : s ≠ 1 → RootOf cfg.maxPrime r s s r := by
    intro hs1
    rcases h with ⟨s0, h1, h2, h3, e⟩ | ⟨h, rfl, rfl⟩
    · rw [if_neg (by norm_num)] at e
      subst e
      simp only [one_pow, mul_one] at h3
      obtain ⟨l1, l2, l3, l4⟩ := h3.le
      have n1 := h3.snum; have n2 := h3.rnum; have n3 : 0 < b.num := Rat.num_pos.2 hb
      unfold SmallQ at h1
      refine .small s ⟨by omega, by omega⟩ ⟨by omega, by omega⟩ ?_ (by rw [if_neg (not_lt.2 hs0.le)])
      rw [mul_comm, ← h3.value]; exact h3
    · exact absurd rfl hs1
  have main : ∀ (B X : ℚ), 0 < B → B ≠ 1 → X ≠ 0 → X ≠ 1 →
      compute cfg.maxPrime (⟨.rat B, .rat X, .rat 1⟩ : Payload D) = .ok (rootOut s r, true) →
      Tot cfg (fun E => powCreate E (num (.rat B)) (num (.rat X))) (surd s r : Expr D) := by
    intro B X hB hB1 hX hX1 k
    unfold rootOut at k
    by_cases e : r = 1
    · simp only [e, if_true] at k
      refine tot_powQ hB hB1 hX hX1 k (fun _ => ?_) (fun h => absurd rfl h)
      simp [surd, e]
    · obtain ⟨t1, t2⟩ := tot_rootE (cfg := cfg) (hsimple e)
      by_cases e2 : r.num = 1
      · simp only [e, e2, if_true, if_false] at k
        refine tot_powQ hB hB1 hX hX1 k (fun hs => ?_) (fun hs => ⟨rootE r, t2, ?_⟩)
        · have : r⁻¹ ≠ 1 := by simpa using e
          simp only [surd, e, hs, if_false, if_true, rootE, e2, this]
          rw [if_neg (by norm_num)]
        · exact (tot_prod_numRoot (hsimple e) hs0.ne' hs (hagain hs)).1
      · simp only [e, e2, if_false] at k
        refine tot_powQ hB hB1 hX hX1 k (fun hs => ?_) (fun hs => ⟨rootE r, t1, ?_⟩)
        · simp only [surd, e, hs, if_false, if_true, rootE, e2]
          rw [if_neg (by norm_num)]
        · exact (tot_prod_numRoot (hsimple e) hs0.ne' hs (hagain hs)).1
  exact ⟨main _ _ hb hb1 (by norm_num) (by norm_num) k1, main _ _ (inv_pos.2 hb) hi1 (by norm_num) (by norm_num) k2⟩

end Tsym
