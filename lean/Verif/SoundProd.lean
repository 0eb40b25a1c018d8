import Verif.SoundSum

set_option autoImplicit false
set_option linter.unusedSectionVars false
set_option linter.unusedSimpArgs false

/-!
# Values of results: products
-/

namespace Tsym

open Expr

variable {D : Type} [Flt D] [LawfulFlt D] {E : Eng D} {σ : Asg}

/-- The simplification of a numeric power keeps the value. -/
theorem compute_pow {p r : Payload D} {max : ℤ} {w : ℝ} (h : NumPowerSimpl.compute max p = .ok (r, true))
    (hb : p.base.val ≠ 0) (he : p.exp.val ≠ 0) (hpf : p.preFactor.val ≠ 0)
    (hw : Spec.pow p.base.val p.exp.val = some w) :
    ∃ w', Spec.pow r.base.val r.exp.val = some w' ∧ r.preFactor.val * w' = p.preFactor.val * w := by
  by_cases hv : NumPowerSimpl.isInputValid p = true
  · obtain ⟨⟨-, -, h3⟩, hval⟩ := NumPowerSimpl.compute_ok h hv hb he hpf
    have hd : Spec.pow r.base.val r.exp.val = some (r.base.val ^ r.exp.val) := by
      rcases h3 with h3 | h3
      · exact Spec.pow_pos' h3
      · rw [h3, Spec.pow_one, Real.rpow_one]
    refine ⟨_, hd, ?_⟩
    rw [(Spec.pow_some hw).2]
    exact hval
  · unfold NumPowerSimpl.compute at h
    simp only [hv, Bool.not_false, if_true] at h
    cases h
    exact ⟨w, hw, rfl⟩

theorem wp_failIf {b : Bool} {Q : Prop} (h : b = false → Q) :
    wp (Cond.holds σ) (M.logIf b (.fail : Cond D)) fun _ => Q :=
  wp_logIf fun hb => h (by
    cases b
    · rfl
    · exact (hb rfl).elim)

theorem simplNumAndNumPowN_vl (hE : Sound E) (hσ : σ.Respects) {p b e : Number D} {w : ℝ}
    (hw : Spec.pow b.val e.val = some w) : VlProd σ (simplNumAndNumPowN E p b e) (p.val * w) := by
  unfold simplNumAndNumPowN
  refine wp_bind (wp_lift fun a h => h) fun r hr => ?_
  refine wp_bind (wp_failIf fun h => h) fun _ h => ?_
  simp only [Bool.or_eq_false_iff, Bool.not_eq_false', Number.eqv_false, Number.val_zero] at h
  obtain ⟨⟨⟨h1, h2⟩, h3⟩, h4⟩ := h
  obtain ⟨r, g⟩ := r
  simp only at h1
  subst h1
  obtain ⟨w', hw', heq⟩ := compute_pow (p := ⟨b, e, p⟩) hr h3 h4 h2 hw
  refine wp_bind (hE.pow hσ (den_num _) (den_num _) hw') fun q hq => wp_pure ?_
  simp only at heq hq
  split
  · rename_i ho
    have := den_isOne (σ := σ) ho
    simp only [den_num, Option.some.injEq] at this
    rw [denProd_one, hq, ← heq, this, one_mul]
  · rw [denProd_two (den_num _) hq, heq]

theorem simplNumAndConst_vl (hE : Sound E) (hσ : σ.Respects) {n : Number D} {c : Expr D} {v : ℝ}
    (hc : den σ c = some v) : VlProd σ (simplNumAndConst E n c) (n.val * v) := by
  unfold simplNumAndConst
  split
  · obtain ⟨x, y, hx, hy, h⟩ := den_pow.1 hc
    simp only [den_num, Option.some.injEq] at hx hy
    subst hx hy
    exact simplNumAndNumPowN_vl hE hσ h
  · exact wp_err
  · exact wp_pure (denProd_two (den_num _) hc)

theorem simplTwoEqualBases_vl (hE : Sound E) (hσ : σ.Respects) {f1 f2 : Expr D} {v w : ℝ}
    (h1 : den σ f1 = some v) (h2 : den σ f2 = some w) (hb : haveEqualBases f1 f2 = true) :
    VlProd σ (simplTwoEqualBases E f1 f2) (v * w) := by
  obtain ⟨x1, y1, hx1, hy1, hp1⟩ := den_base_exp h1
  obtain ⟨x2, y2, hx2, hy2, hp2⟩ := den_base_exp h2
  have heq := isEqual_den σ _ _ hb
  rw [hx1, hx2] at heq
  simp only [Option.some.injEq] at heq
  subst heq
  unfold simplTwoEqualBases
  refine wp_bind (hE.sum hσ (denSum_two hy1 hy2)) fun s hs => ?_
  refine wp_bind wp_true fun _ _ => wp_bind wp_true fun _ _ => wp_bind wp_true fun _ _ => ?_
  refine wp_ite (fun _ => wp_pure (denProd_two h1 h2)) fun _ => ?_
  refine wp_bind (hE.pow hσ hx1 hs (Spec.pow_add hp1 hp2)) fun p hp => wp_pure ?_
  rw [denProd_one, hp]

theorem simplTwoEqualExp_vl (hE : Sound E) (hσ : σ.Respects) {f1 f2 : Expr D} {v w : ℝ}
    (h1 : den σ f1 = some v) (h2 : den σ f2 = some w) (hb : areNumPowersWithEqualExp f1 f2 = true) :
    VlProd σ (simplTwoEqualExp E f1 f2) (v * w) := by
  unfold simplTwoEqualExp
  split
  · obtain ⟨x1, y1, hx1, hy1, hp1⟩ := den_pow.1 h1
    obtain ⟨x2, y2, hx2, hy2, hp2⟩ := den_pow.1 h2
    unfold areNumPowersWithEqualExp at hb
    simp only [Bool.and_eq_true, Expr.exp] at hb
    have heq := isEqual_den σ _ _ hb.2
    rw [hy1, hy2] at heq
    simp only [den_num, Option.some.injEq] at hx1 hx2 hy1 heq
    subst hx1 hx2 hy1 heq
    have hp := Spec.pow_mul hp1 hp2
    rw [← Number.val_mul] at hp
    have := simplNumAndNumPowN_vl (p := 1) hE hσ hp
    rwa [Number.val_one, one_mul] at this
  · exact wp_err

theorem Spec.pow_inv {x y v : ℝ} (h : Spec.pow x y = some v) (hx : x ≠ 0) :
    Spec.pow x⁻¹ y = some v⁻¹ := by
  rw [Spec.pow_iff] at *
  obtain ⟨h, rfl⟩ := h
  rcases h with h | h | ⟨h, n, rfl⟩
  · exact ⟨.inl (inv_pos.2 h), (Real.inv_rpow h.le y).symm⟩
  · exact absurd h.1 hx
  · refine ⟨.inr (.inr ⟨inv_lt_zero.2 h, n, rfl⟩), ?_⟩
    rw [Real.rpow_intCast, Real.rpow_intCast, inv_zpow]

theorem Number.toThe_neg_one_ne {b r : Number D} (h : b.toThe (Number.neg 1) = .ok r) : b.val ≠ 0 := by
  intro h0
  unfold Number.toThe Number.toTheAux Number.trivialPower at h
  have h1 : b.eqv 0 = true := by rw [Number.eqv_iff, h0, Number.val_zero]
  have h2 : (Number.neg 1 : Number D).numerator = -1 := by rw [Number.neg_one_def]; simp [Number.numerator]
  simp [h1, h2] at h
  cases h

theorem simplTwoZeroSumExp_vl (hE : Sound E) (hσ : σ.Respects) {f1 f2 : Expr D} {v w : ℝ}
    (h1 : den σ f1 = some v) (h2 : den σ f2 = some w)
    (hb : ∀ y1 y2, den σ f1.exp = some y1 → den σ f2.exp = some y2 → y1 + y2 = 0) :
    VlProd σ (simplTwoZeroSumExp E f1 f2) (v * w) := by
  unfold simplTwoZeroSumExp
  split
  · obtain ⟨x1, y1, hx1, hy1, hp1⟩ := den_pow.1 h1
    obtain ⟨x2, y2, hx2, hy2, hp2⟩ := den_pow.1 h2
    have hz := hb y1 y2 hy1 hy2
    simp only [den_num, Option.some.injEq] at hx1 hx2
    refine wp_bind (wp_lift fun a h => h) fun i hi => ?_
    have hne := Number.toThe_neg_one_ne hi
    have hival := Number.toThe_neg_one hi hne
    subst hx1 hx2
    have hy : y2 = -y1 := by linarith
    subst hy
    have k1 := Spec.pow_neg hp2 hne
    rw [neg_neg] at k1
    have k2 := Spec.pow_inv k1 hne
    rw [inv_inv] at k2
    refine wp_bind (hE.pow (v := v * w) hσ (den_num _) hy1 (by
      rw [Number.val_mul, hival]; exact Spec.pow_mul hp1 k2)) fun p hp => wp_pure ?_
    rw [denProd_one, hp]
  · exact wp_err

theorem areNumPowersWithZeroSumExp_wp (hE : Sound E) (hσ : σ.Respects) {f1 f2 : Expr D} {y1 y2 : ℝ}
    (h1 : den σ f1.exp = some y1) (h2 : den σ f2.exp = some y2) :
    wp (Cond.holds σ) (areNumPowersWithZeroSumExp E f1 f2) fun b => b = true → y1 + y2 = 0 := by
  unfold areNumPowersWithZeroSumExp
  refine wp_ite (fun _ => ?_) fun _ => wp_pure (by simp)
  refine wp_bind (hE.sum hσ (denSum_two h1 h2)) fun s hs => wp_pure fun hz => ?_
  rw [den_isZero hz] at hs
  simpa using hs.symm

/-- The numerator and the denominator of a power with integer exponent. -/
theorem evalExp_ok {q : ℚ} {k n d : ℤ} (hq : 0 < q) (hn : evalExpNumerator (.rat q : Number D) k = .ok n)
    (hd : evalExpNumerator (.rat q⁻¹ : Number D) k = .ok d) : 0 < n ∧ 0 < d ∧ (n : ℝ) / d = (q : ℝ) ^ k := by
  unfold evalExpNumerator at hn hd
  split at hn
  · cases hn
  · split at hd
    · cases hd
    · simp only [Except.ok.injEq, Number.numerator, Number.denominator] at hn hd
      have e1 : (q⁻¹).num = q.den := by
        rw [Rat.num_inv, Int.sign_eq_one_of_pos (Rat.num_pos.2 hq), one_mul]
      have e2 : ((q⁻¹).den : ℤ) = q.num := by
        rw [Rat.den_inv_of_ne_zero hq.ne', Int.natCast_natAbs, abs_of_pos (Rat.num_pos.2 hq)]
      have p1 : (0 : ℤ) < q.num := Rat.num_pos.2 hq
      have p2 : (0 : ℤ) < q.den := by exact_mod_cast q.den_pos
      rw [e1, e2] at hd
      have hv : (q : ℝ) = (q.num : ℝ) / ((q.den : ℤ) : ℝ) := by
        conv_lhs => rw [← Rat.num_div_den q]
        push_cast; rfl
      by_cases hk : 0 < k
      · simp only [hk, if_true] at hn hd
        subst hn hd
        refine ⟨pow_pos p1 _, pow_pos p2 _, ?_⟩
        obtain ⟨m, rfl⟩ := Int.eq_ofNat_of_zero_le hk.le
        rw [hv]
        push_cast
        simp [div_pow]
      · simp only [hk, if_false] at hn hd
        subst hn hd
        refine ⟨pow_pos p2 _, pow_pos p1 _, ?_⟩
        obtain ⟨m, hm⟩ := Int.eq_ofNat_of_zero_le (show 0 ≤ -k by omega)
        obtain rfl : k = -(m : ℤ) := by omega
        rw [hv]
        push_cast
        simp [div_pow]

theorem evalDenom_ok {b e : Number D} {d : ℤ} (hb : isNnRat b = true)
    (h : evalDenomExpNumerator b e = .ok d) : ∃ q : ℚ, b = .rat q ∧ 0 < q ∧
      evalExpNumerator (.rat q⁻¹ : Number D) e.numerator = .ok d := by
  unfold evalDenomExpNumerator at h
  simp only [Except.bind_ok] at h
  obtain ⟨r, hr, h⟩ := h
  cases b with
  | dbl x => simp [isNnRat] at hb
  | rat q =>
    have hne := Number.toThe_neg_one_ne hr
    have hq : 0 < q := by
      simp only [isNnRat, decide_eq_true_eq] at hb
      rcases hb.lt_or_eq with h | h
      · exact h
      · exact absurd (by simp [← h]) hne
    refine ⟨q, rfl, hq, ?_⟩
    rw [Number.neg_one_def] at hr
    have := Number.toThe_int (n := -1) (by simpa using hr)
    rw [(this (by simp)).2] at h
    simpa using h

theorem simplTwoEqualExpDenom_vl (hE : Sound E) (hσ : σ.Respects) {f1 f2 : Expr D} {v w : ℝ}
    (h1 : den σ f1 = some v) (h2 : den σ f2 = some w) (hb : areNumPowersWithEqualExpDenom f1 f2 = true) :
    VlProd σ (simplTwoEqualExpDenom E f1 f2) (v * w) := by
  unfold simplTwoEqualExpDenom
  split
  · rename_i b1 e1 b2 e2
    obtain ⟨x1, y1, hx1, hy1, hp1⟩ := den_pow.1 h1
    obtain ⟨x2, y2, hx2, hy2, hp2⟩ := den_pow.1 h2
    simp only [den_num, Option.some.injEq] at hx1 hx2 hy1 hy2
    subst hx1 hx2 hy1 hy2
    refine wp_bind (wp_lift fun a h => h) fun ne hne => ?_
    refine wp_bind (wp_lift fun a h => h) fun d1 hd1 => ?_
    refine wp_bind (wp_lift fun a h => h) fun d2 hd2 => ?_
    refine wp_bind (wp_lift fun a h => h) fun n1 hn1 => ?_
    refine wp_bind (wp_lift fun a h => h) fun n2 hn2 => ?_
    refine wp_bind (wp_lift fun a h => h) fun nb hnb => ?_
    refine wp_ite (fun _ => wp_pure (denProd_two h1 h2)) fun _ => ?_
    refine wp_bind (wp_failIf fun h => h) fun _ h => ?_
    simp only [Bool.not_eq_false', Bool.and_eq_true] at h
    obtain ⟨⟨⟨hb1, hb2⟩, he1⟩, he2⟩ := h
    obtain ⟨q1, rfl, hq1, hd1⟩ := evalDenom_ok hb1 hd1
    obtain ⟨q2, rfl, hq2, hd2⟩ := evalDenom_ok hb2 hd2
    cases e1 with
    | dbl _ => simp [Number.isRational] at he1
    | rat k1 =>
    cases e2 with
    | dbl _ => simp [Number.isRational] at he2
    | rat k2 =>
    obtain ⟨pn1, pd1, hv1⟩ := evalExp_ok hq1 hn1 hd1
    obtain ⟨pn2, pd2, hv2⟩ := evalExp_ok hq2 hn2 hd2
    obtain ⟨-, rfl⟩ := Number.ofInts_ok hne
    obtain ⟨-, rfl⟩ := Number.ofInts_ok hnb
    simp only [areNumPowersWithEqualExpDenom, beq_iff_eq, Number.denominator] at hb
    have hden : k1.den = k2.den := by exact_mod_cast hb
    simp only [Number.numerator, Number.denominator, Number.val_rat] at *
    have r1 : (0 : ℝ) < q1 := by exact_mod_cast hq1
    have r2 : (0 : ℝ) < q2 := by exact_mod_cast hq2
    have hbase : (((n1 * n2 : ℤ) : ℚ) / ((d1 * d2 : ℤ) : ℚ) : ℚ) = ((q1 : ℝ) ^ k1.num * (q2 : ℝ) ^ k2.num : ℝ) := by
      rw [← hv1, ← hv2]
      push_cast
      have : (d1 : ℝ) ≠ 0 := by exact_mod_cast pd1.ne'
      have : (d2 : ℝ) ≠ 0 := by exact_mod_cast pd2.ne'
      field_simp
    have hpos : (0 : ℝ) < (q1 : ℝ) ^ k1.num * (q2 : ℝ) ^ k2.num :=
      mul_pos (zpow_pos r1 _) (zpow_pos r2 _)
    have e1 := (Spec.pow_some hp1).2
    have e2 := (Spec.pow_some hp2).2
    refine wp_bind (hE.pow (v := v * w) hσ (den_num _) (den_num _) ?_) fun p hp => wp_pure ?_
    · rw [Number.val_rat, Number.val_rat, hbase, Spec.pow_pos' hpos, e1, e2]
      rw [Real.mul_rpow (zpow_pos r1 _).le (zpow_pos r2 _).le, ← Real.rpow_intCast, ← Real.rpow_intCast,
        ← Real.rpow_mul r1.le, ← Real.rpow_mul r2.le]
      have hk1 : (k1 : ℝ) = k1.num * ((1 : ℚ) / (k1.den : ℤ) : ℚ) := by
        conv_lhs => rw [← Rat.num_div_den k1]
        push_cast; ring
      have hk2 : (k2 : ℝ) = k2.num * ((1 : ℚ) / (k1.den : ℤ) : ℚ) := by
        rw [hden]
        conv_lhs => rw [← Rat.num_div_den k2]
        push_cast; ring
      rw [hk1, hk2]
      simp
    · rw [denProd_one, hp]
  · exact wp_err

theorem mulNumerics_den {a b : Number D} : denProd σ (mulNumerics a b) = some (a.val * b.val) := by
  unfold mulNumerics
  split
  · rename_i h
    rw [Number.eqv_iff, Number.val_mul, Number.val_one] at h
    simp [denProd, h]
  · rw [denProd_one]
    simp

theorem simplTwoConst_vl (hE : Sound E) (hσ : σ.Respects) {f1 f2 : Expr D} {v w : ℝ}
    (h1 : den σ f1 = some v) (h2 : den σ f2 = some w) : VlProd σ (simplTwoConst E f1 f2) (v * w) := by
  unfold simplTwoConst
  split
  · simp only [den_num, Option.some.injEq] at h1 h2
    subst h1 h2
    exact wp_pure mulNumerics_den
  · simp only [den_num, Option.some.injEq] at h1
    subst h1
    exact simplNumAndConst_vl hE hσ h2
  · simp only [den_num, Option.some.injEq] at h2
    subst h2
    rw [mul_comm]
    exact simplNumAndConst_vl hE hσ h1
  · refine wp_ite (fun hb => simplTwoEqualBases_vl hE hσ h1 h2 hb) fun _ => ?_
    refine wp_ite (fun hb => simplTwoEqualExp_vl hE hσ h1 h2 hb) fun _ => ?_
    obtain ⟨x1, y1, hx1, hy1, hp1⟩ := den_base_exp h1
    obtain ⟨x2, y2, hx2, hy2, hp2⟩ := den_base_exp h2
    refine wp_bind (wp_whenTrue (areNumPowersWithZeroSumExp_wp hE hσ hy1 hy2)) fun z hz => ?_
    refine wp_ite (fun h => ?_) fun _ => wp_ite (fun hb => ?_) fun _ => ?_
    · refine simplTwoZeroSumExp_vl hE hσ h1 h2 fun a b ha hb => ?_
      rw [hy1] at ha; rw [hy2] at hb
      cases ha; cases hb
      exact hz h
    · exact simplTwoEqualExpDenom_vl hE hσ h1 h2 hb
    · exact wp_pure (denProd_ordered h1 h2)

theorem denProd_factors {e : Expr D} : denProd σ (factors e) = den σ e := by
  unfold factors
  split
  · rfl
  · exact denProd_one

theorem simplTwoFactors_vl (hE : Sound E) (hσ : σ.Respects) {f1 f2 : Expr D} {v w : ℝ}
    (h1 : den σ f1 = some v) (h2 : den σ f2 = some w) : VlProd σ (simplTwoFactors E f1 f2) (v * w) := by
  unfold simplTwoFactors
  refine wp_ite (fun _ => ?_) fun _ => ?_
  · exact hE.mergeProd hσ (by rw [denProd_factors, h1]) (by rw [denProd_factors, h2])
  unfold simplTwoFactorsWithoutProduct
  refine wp_ite (fun ho => wp_pure ?_) fun _ => wp_ite (fun ho => wp_pure ?_) fun _ => ?_
  · rw [den_isOne ho] at h1
    cases h1
    rw [denProd_one, h2, one_mul]
  · rw [den_isOne ho] at h2
    cases h2
    rw [denProd_one, h1, mul_one]
  refine wp_ite (fun _ => simplTwoConst_vl hE hσ h1 h2) fun _ => ?_
  refine wp_ite (fun hb => simplTwoEqualBases_vl hE hσ h1 h2 hb) fun _ => ?_
  exact wp_pure (denProd_ordered h1 h2)

theorem mergeProd_vl (hE : Sound E) (hσ : σ.Respects) {l m : List (Expr D)} {v w : ℝ}
    (hl : denProd σ l = some v) (hm : denProd σ m = some w) : VlProd σ (mergeProd E l m) (v * w) := by
  unfold mergeProd
  split
  · simp only [denProd, Option.some.injEq] at hl
    exact wp_pure (by rw [hm, ← hl, one_mul])
  · simp only [denProd, Option.some.injEq] at hm
    exact wp_pure (by rw [hl, ← hm, mul_one])
  · rename_i p1 pR q1 qR
    obtain ⟨x1, y1, hx1, hy1, rfl⟩ := denProd_cons.1 hl
    obtain ⟨x2, y2, hx2, hy2, rfl⟩ := denProd_cons.1 hm
    have hmul : x1 * y1 * (x2 * y2) = x1 * x2 * (y1 * y2) := by ring
    refine wp_bind (simplTwoFactors_vl hE hσ hx1 hx2) fun res hres => ?_
    split
    · simp only [denProd, Option.some.injEq] at hres
      refine wp_mono (hE.mergeProd hσ hy1 hy2) fun r hr => ?_
      rw [hr, hmul, ← hres, one_mul]
    · rename_i r
      rw [denProd_one] at hres
      refine wp_ite (fun hz => ?_) fun _ => ?_
      · rw [den_isOne hz] at hres
        simp only [Option.some.injEq] at hres
        refine wp_mono (hE.mergeProd hσ hy1 hy2) fun r hr => ?_
        rw [hr, hmul, ← hres, one_mul]
      · refine wp_bind (hE.mergeProd hσ hy1 hy2) fun m hm => wp_pure ?_
        exact denProd_cons.2 ⟨_, _, hres, hm, by ring⟩
    · refine wp_ite (fun _ => ?_) fun _ => wp_ite (fun _ => ?_) fun _ => ?_
      · refine wp_bind (hE.mergeProd hσ hy1 hm) fun m hm => wp_pure ?_
        exact denProd_cons.2 ⟨_, _, hx1, hm, by ring⟩
      · refine wp_bind (hE.mergeProd hσ hl hy2) fun m hm => wp_pure ?_
        exact denProd_cons.2 ⟨_, _, hx2, hm, by ring⟩
      · exact wp_bind (P := fun _ => False) (wp_log fun h => h) fun _ h => h.elim

theorem extractFirst_den {l r : List (Expr D)} (h : extractFirst l = some r) :
    denProd σ r = denProd σ l := by
  induction l generalizing r with
  | nil => simp [extractFirst] at h
  | cons a l ih =>
    have gen : (extractFirst l).map (a :: ·) = some r → denProd σ r = denProd σ (a :: l) := by
      intro h
      simp only [Option.map_eq_some_iff] at h
      obtain ⟨r', h1, rfl⟩ := h
      simp only [denProd, ih h1]
    cases a
    case prod ops =>
      simp only [extractFirst, Option.some.injEq] at h
      subst h
      apply Option.ext
      intro v
      rw [denProd_append, denProd_cons]
      simp only [den_prod]
    all_goals exact gen h

theorem extractProducts_vl {l : List (Expr D)} {v : ℝ} (h : denProd σ l = some v) :
    VlProd σ (extractProducts E l) v := by
  unfold extractProducts
  refine wp_loop (I := fun l => denProd σ l = some v) (fun u hu => wp_pure ?_) _ _ h
  split
  · exact ⟨by simp, fun x hx => by cases hx; exact hu⟩
  · rename_i u' hu'
    exact ⟨fun x hx => by cases hx; rw [extractFirst_den hu', hu], by simp⟩

theorem minus_vl (hE : Sound E) (hσ : σ.Respects) {e : Expr D} {v : ℝ} (h : den σ e = some v) :
    Vl σ (E.minus e) (-v) := by
  unfold Eng.minus
  have := hE.prod hσ (denProd_two den_mOne h)
  rwa [neg_one_mul] at this

theorem oneOver_vl (hE : Sound E) (hσ : σ.Respects) {e : Expr D} {v : ℝ} (h : den σ e = some v)
    (hv : v ≠ 0) : Vl σ (E.oneOver e) v⁻¹ := hE.pow hσ h den_mOne (Spec.pow_neg_one hv)

theorem sqrt_vl (hE : Sound E) (hσ : σ.Respects) {e : Expr D} {v : ℝ} (h : den σ e = some v)
    (hv : 0 ≤ v) : Vl σ (E.sqrt e) (Real.sqrt v) := hE.pow hσ h den_half (Spec.pow_half hv)

end Tsym
