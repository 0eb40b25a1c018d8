import Verif.SoundContract

set_option autoImplicit false
set_option linter.unusedSectionVars false
set_option linter.unusedSimpArgs false

/-!
# Values of results: powers, logarithms and signs
-/

namespace Tsym

open Expr

variable {D : Type} [Flt D] [LawfulFlt D] {E : Eng D} {σ : Asg}

/-! ## Facts about numbers and powers -/

theorem Number.isInt_of_val {n : Number D} (hr : n.isRational = true) {k : ℤ} (h : n.val = k) :
    n.isInt = true := by
  cases n with
  | dbl d => simp [Number.isRational] at hr
  | rat q =>
    simp only [Number.val_rat] at h
    have : q = k := by exact_mod_cast h
    subst this
    simp [Number.isInt, Number.isRational, Number.denominator]

theorem Number.not_int_of_frac {n : Number D} (h : n.isFraction = true) (k : ℤ) : n.val ≠ k := by
  intro hk
  cases n with
  | dbl d => simp [Number.isFraction, Number.denominator] at h
  | rat q =>
    have := Number.isInt_of_val (n := .rat q) rfl hk
    simp [Number.isFraction, Number.isInt] at h this
    exact h this.2

theorem isInteger_val {e : Expr D} {b : Bool} {y : ℝ} (h : isInteger e = .ok b) (hy : den σ e = some y) :
    b = true → ∃ n : ℤ, y = n := by
  rintro rfl
  exact C45_isInteger σ e y h hy

theorem Spec.log_some {x v : ℝ} (h : Spec.log x = some v) : 0 < x ∧ v = Real.log x := by
  unfold Spec.log at h
  split at h
  · simp at h; exact ⟨‹_›, h.symm⟩
  · simp at h

theorem Spec.log_def {x : ℝ} (h : 0 < x) : Spec.log x = some (Real.log x) := by
  unfold Spec.log
  rw [if_pos h]

namespace Spec

/-- (b^s)^t = b^(s*t) if b is not negative. -/
theorem pow_pow_nn {b s t x v : ℝ} (h1 : Spec.pow b s = some x) (h2 : Spec.pow x t = some v)
    (hb : 0 ≤ b) : Spec.pow b (s * t) = some v := by
  rcases hb.lt_or_eq with hb | hb
  · have e1 := (pow_some h1).2
    subst e1
    have e2 := (pow_some h2).2
    rw [pow_pos' hb, e2, Real.rpow_mul hb.le]
  · subst hb
    obtain ⟨rfl, hs⟩ := zero_pow_of h1
    obtain ⟨rfl, ht⟩ := zero_pow_of h2
    have := mul_pos hs ht
    rw [pow_def (.inr (.inl ⟨rfl, this⟩)), Real.zero_rpow this.ne']

theorem pow_neg_int {b s x : ℝ} (h : Spec.pow b s = some x) (hb : b < 0) :
    ∃ m : ℤ, s = m ∧ x = b ^ m := by
  obtain ⟨h1, h2⟩ := pow_some h
  rcases h1 with h1 | h1 | ⟨_, m, rfl⟩
  · linarith
  · linarith [h1.1]
  · exact ⟨m, rfl, by rw [h2, Real.rpow_intCast]⟩

theorem pow_pow_int {b s t x v : ℝ} (h1 : Spec.pow b s = some x) (h2 : Spec.pow x t = some v)
    {m n : ℤ} (hs : s = m) (ht : t = n) : Spec.pow b (s * t) = some v := by
  by_cases hb : 0 ≤ b
  · exact pow_pow_nn h1 h2 hb
  · subst hs ht
    have hb : b ≠ 0 := fun h => hb h.ge
    rw [pow_int _ hb] at h1
    cases h1
    rw [pow_int _ (zpow_ne_zero _ hb)] at h2
    cases h2
    have := pow_int (m * n) hb
    push_cast at this
    rw [this, zpow_mul]

/-- An even power does not see the sign. -/
theorem pow_neg_even {b s x : ℝ} {m : ℤ} (h : Spec.pow b s = some x) (hs : s = m) (hm : m % 2 = 0) :
    Spec.pow (-b) s = some x := by
  subst hs
  by_cases hb : b = 0
  · subst hb; simpa using h
  · rw [pow_int _ hb] at h
    rw [pow_int _ (neg_ne_zero.2 hb), Even.neg_zpow (Int.even_iff.2 hm), h]

end Spec

/-! ## Powers -/

theorem doesInvolveComplex_wp (hE : Sound E) (hσ : σ.Respects) {b e : Expr D} {x y v : ℝ}
    (hb : den σ b = some x) (he : den σ e = some y) (hp : Spec.pow x y = some v) :
    wp (Cond.holds σ) (doesInvolveComplexNumbers E b e) fun r => r = true → False := by
  unfold doesInvolveComplexNumbers
  refine wp_whenTrue ?_
  refine wp_bind (wp_lift fun a h => h) fun n hn => ?_
  refine wp_bind (hE.isNeg hσ hb) fun neg hneg => ?_
  split
  · rename_i k
    have hk := numEval_val σ e k y hn he
    refine wp_ite (fun h => ?_) fun _ => wp_pure (by simp)
    simp only [Bool.and_eq_true, Bool.not_eq_true'] at h
    have hx := hneg h.1
    refine wp_bind (P := fun _ => x ≠ 0) (wp_log fun h => ?_) fun _ hne => ?_
    · obtain ⟨w, hw, hw'⟩ := h
      rw [hb] at hw; cases hw; exact hw'
    obtain ⟨m, hm, -⟩ := Spec.pow_neg_int hp (lt_of_le_of_ne hx hne)
    refine wp_bind (P := fun _ => k.isDouble = false) (wp_logIf fun h => ?_) fun _ hd => wp_pure fun _ => ?_
    · cases hd : k.isDouble
      · rfl
      · obtain ⟨w, hw, hw'⟩ := h hd
        rw [he] at hw; cases hw
        exact absurd hm (hw' m)
    · have : k.isInt = true := by
        refine Number.isInt_of_val ?_ (hk.trans hm)
        cases k <;> simp_all [Number.isDouble, Number.isRational]
      rw [this] at h
      exact absurd h.2 (by simp)
  · exact wp_pure (by simp)

/-- What is to be shown of a pair of base and exponent. -/
theorem pair_one {q : Expr D} {v : ℝ} (h : den σ q = some v) : den σ (.pow q one) = some v :=
  den_pow.2 ⟨_, _, h, den_one, Spec.pow_one v⟩

theorem simplifyNumericPower_vl (hE : Sound E) (hσ : σ.Respects) {b e : Number D} {v : ℝ}
    (h : Spec.pow b.val e.val = some v) : wp (Cond.holds σ) (simplifyNumericPower E b e) fun r =>
      den σ (.pow r.1 r.2) = some v := by
  unfold simplifyNumericPower
  refine wp_bind (wp_lift fun a h => h) fun r hr => ?_
  refine wp_bind (wp_failIf fun h => h) fun _ hf => ?_
  simp only [Bool.or_eq_false_iff, Bool.not_eq_false', Number.eqv_false, Number.val_zero] at hf
  obtain ⟨⟨h1, h2⟩, h3⟩ := hf
  obtain ⟨r, g⟩ := r
  simp only at h1
  subst h1
  obtain ⟨w', hw', heq⟩ := compute_pow (p := ⟨b, e, 1⟩) hr h2 h3 (by simp) h
  simp only [Number.val_one, one_mul] at heq
  refine wp_ite (fun ho => wp_pure ?_) fun _ => ?_
  · have := den_isOne (σ := σ) ho
    simp only [den_num, Option.some.injEq] at this
    rw [this, one_mul] at heq
    subst heq
    exact den_pow.2 ⟨_, _, den_num _, den_num _, hw'⟩
  · refine wp_bind (hE.pow hσ (den_num _) (den_num _) hw') fun p hp => ?_
    refine wp_bind (hE.prod hσ (denProd_two (den_num _) hp)) fun q hq => wp_pure ?_
    rw [heq] at hq
    exact pair_one hq

theorem doContractExpFirst_wp (hE : Sound E) (hσ : σ.Respects) {base e1 e2 : Expr D} {b s t x v : ℝ}
    (hb : den σ base = some b) (h1 : den σ e1 = some s) (h2 : den σ e2 = some t)
    (hp1 : Spec.pow b s = some x) (hp2 : Spec.pow x t = some v) :
    wp (Cond.holds σ) (doContractExpFirst E base e1 e2) fun r => r = true → Spec.pow b (s * t) = some v := by
  unfold doContractExpFirst
  refine wp_bind (wp_lift fun a h => h) fun i1 hi1 => ?_
  refine wp_bind (P := fun i2 => i2 = true → (∃ n : ℤ, s = n) ∧ ∃ n : ℤ, t = n) ?_ fun i2 hi2 => ?_
  · refine wp_ite (fun h => ?_) fun _ => wp_pure (by simp)
    exact wp_lift fun a ha hat => ⟨isInteger_val hi1 h1 h, isInteger_val ha h2 hat⟩
  refine wp_ite (fun h => wp_pure fun _ => ?_) fun _ => wp_ite (fun h => wp_pure fun _ => ?_) fun _ => ?_
  · obtain ⟨⟨m, hm⟩, n, hn⟩ := hi2 h
    exact Spec.pow_pow_int hp1 hp2 hm hn
  · unfold areTwoFractionExpWithOddDenom at h
    split at h
    · simp only [Bool.and_eq_true] at h
      simp only [den_num, Option.some.injEq] at h1
      subst h1
      refine Spec.pow_pow_nn hp1 hp2 ?_
      by_contra hneg
      obtain ⟨m, hm, -⟩ := Spec.pow_neg_int hp1 (not_le.1 hneg)
      exact Number.not_int_of_frac h.1.1.1 m hm
    · cases h
  · refine wp_whenTrue (wp_mono (hE.isPos hσ hb) fun r hr hrt => ?_)
    exact Spec.pow_pow_nn hp1 hp2 (hr hrt)

theorem doesChangeSign_wp (hE : Sound E) (hσ : σ.Respects) {base e1 : Expr D} {b s t x v : ℝ}
    (hb : den σ base = some b) (h1 : den σ e1 = some s)
    (hp1 : Spec.pow b s = some x) (hp2 : Spec.pow x t = some v) :
    wp (Cond.holds σ) (doesChangeSign E base e1) fun r => r = true → Spec.pow (-b) (s * t) = some v := by
  unfold doesChangeSign
  refine wp_whenTrue ?_
  refine wp_bind (hE.isNeg hσ hb) fun n hn => ?_
  refine wp_ite (fun h => wp_pure fun hev => ?_) fun _ => wp_pure (by simp)
  have hb := hn h
  split at hev
  · rename_i a
    simp only [den_num, Option.some.injEq] at h1
    subst h1
    simp only [Number.isEvenInt, Bool.and_eq_true, beq_iff_eq] at hev
    have := Spec.pow_neg_even hp1 (Number.val_of_isInt a hev.1) hev.2
    exact Spec.pow_pow_nn this hp2 (by linarith)
  · cases hev

theorem doContractExpSecond_wp {base e1 e2 : Expr D} {b s t x v : ℝ}
    (hb : den σ base = some b) (h1 : den σ e1 = some s) (h2 : den σ e2 = some t)
    (hp1 : Spec.pow b s = some x) (hp2 : Spec.pow x t = some v) :
    wp (Cond.holds σ) (doContractExpSecond base e1 e2) fun r => r = true → Spec.pow b (s * t) = some v := by
  unfold doContractExpSecond
  refine wp_bind (wp_lift fun a h => h) fun n1 hn1 => ?_
  refine wp_bind (wp_lift fun a h => h) fun n2 hn2 => ?_
  split
  · rename_i a c
    have ha := numEval_val σ e1 a s hn1 h1
    have hc := numEval_val σ e2 c t hn2 h2
    refine wp_ite (fun h => ?_) fun _ => wp_pure (by simp)
    refine wp_bind (P := fun _ => a.isRational = false → 0 ≤ b ∨ ∀ n : ℤ, s ≠ n) (wp_logIf fun h => ?_)
      fun _ hl => wp_pure fun _ => ?_
    · intro hr
      rcases h (by simp [hr]) with ⟨w, hw, hw'⟩ | ⟨w, hw, hw'⟩
      · rw [hb] at hw; cases hw; exact .inl hw'
      · rw [h1] at hw; cases hw; exact .inr hw'
    · by_cases hbn : 0 ≤ b
      · exact Spec.pow_pow_nn hp1 hp2 hbn
      have hbn := not_le.1 hbn
      obtain ⟨m, hm, hxm⟩ := Spec.pow_neg_int hp1 hbn
      have har : a.isRational = true := by
        cases hr : a.isRational
        · rcases hl hr with h | h
          · linarith
          · exact absurd hm (h m)
        · rfl
      have hai := Number.isInt_of_val har (ha.trans hm)
      have hnm : (a.numerator : ℝ) = m := by
        rw [← Number.val_of_isInt a hai, ha, hm]
      have hnm : a.numerator = m := by exact_mod_cast hnm
      unfold doContractExpSecondN at h
      by_cases hodd : a.isOddInt = true
      · simp only [Number.isOddInt, hai, Bool.true_and, bne_iff_ne, hnm] at hodd
        have hx : x < 0 := by
          rw [hxm]
          exact Odd.zpow_neg (Int.odd_iff.2 (by omega)) hbn
        obtain ⟨n, hn, -⟩ := Spec.pow_neg_int hp2 hx
        exact Spec.pow_pow_int hp1 hp2 hm hn
      · have heven : a.isEvenInt = true := by
          simp only [Number.isOddInt, Number.isEvenInt, hai, Bool.true_and, bne_iff_ne, beq_iff_eq] at hodd ⊢
          omega
        simp only [hodd, heven, if_true] at h
        have h : (a.mul c).isEvenInt = true := by simpa using h
        simp only [Number.isEvenInt, hai, Bool.true_and, beq_iff_eq, hnm, Bool.and_eq_true] at h heven
        have k1 := Spec.pow_neg_even hp1 hm heven
        have k2 := Spec.pow_pow_nn k1 hp2 (by linarith)
        have hst : s * t = ((a.mul c).numerator : ℤ) := by
          rw [← Number.val_of_isInt _ h.1, Number.val_mul, ha, hc]
        have := Spec.pow_neg_even k2 hst h.2
        rwa [neg_neg] at this
  · exact wp_pure (by simp)

theorem newPowerBase_wp (hE : Sound E) (hσ : σ.Respects) {base e1 e2 : Expr D} {b s t x v : ℝ}
    (hb : den σ base = some b) (h1 : den σ e1 = some s) (h2 : den σ e2 = some t)
    (hp1 : Spec.pow b s = some x) (hp2 : Spec.pow x t = some v) :
    wp (Cond.holds σ) (newPowerBase E base e1 e2) fun r => ∀ nb, r = some nb →
      ∃ z, den σ nb = some z ∧ Spec.pow z (s * t) = some v := by
  unfold newPowerBase
  refine wp_bind (doContractExpFirst_wp hE hσ hb h1 h2 hp1 hp2) fun r hr => ?_
  refine wp_ite (fun h => wp_pure fun nb hnb => ?_) fun _ => ?_
  · cases hnb; exact ⟨b, hb, hr h⟩
  refine wp_bind (doesChangeSign_wp hE hσ hb h1 hp1 hp2) fun r hr => ?_
  refine wp_ite (fun h => ?_) fun _ => ?_
  · refine wp_bind (minus_vl hE hσ hb) fun m hm => wp_pure fun nb hnb => ?_
    cases hnb; exact ⟨-b, hm, hr h⟩
  refine wp_bind (doContractExpSecond_wp hb h1 h2 hp1 hp2) fun r hr => ?_
  refine wp_ite (fun h => wp_pure fun nb hnb => ?_) fun _ => wp_pure (by simp)
  cases hnb; exact ⟨b, hb, hr h⟩

theorem simplifyPowerBase_vl (hE : Sound E) (hσ : σ.Respects) {base e1 e2 : Expr D} {x t v : ℝ}
    (hb : den σ (.pow base e1) = some x) (h2 : den σ e2 = some t) (hp : Spec.pow x t = some v) :
    wp (Cond.holds σ) (simplifyPowerBase E base e1 e2) fun r => den σ (.pow r.1 r.2) = some v := by
  unfold simplifyPowerBase
  obtain ⟨b, s, hb', h1, hp1⟩ := den_pow.1 hb
  refine wp_bind (newPowerBase_wp hE hσ hb' h1 h2 hp1 hp) fun nb hnb => ?_
  split
  · exact wp_pure (den_pow.2 ⟨_, _, hb, h2, hp⟩)
  · rename_i newBase
    obtain ⟨z, hz, hzp⟩ := hnb newBase rfl
    refine wp_bind (hE.prod hσ (denProd_two h1 h2)) fun ne hne => ?_
    refine wp_ite (fun h => wp_pure ?_) fun _ => hE.simplPow hσ hz hne hzp
    rw [den_isZero h] at hne
    have : s * t = 0 := by simpa using hne.symm
    rw [this] at hzp
    rw [Spec.pow_zero_of hzp]
    exact pair_one den_one

theorem splitFactors_wp (hE : Sound E) (hσ : σ.Respects) {all : Bool} {exp : Expr D} {y : ℝ}
    (he : den σ exp = some y) (hall : all = true → ∃ n : ℤ, y = n) {l : List (Expr D)} :
    ∀ {x : ℝ}, denProd σ l = some x → (x ≠ 0 ∨ 0 < y) →
    wp (Cond.holds σ) (splitFactors E all exp l) fun r =>
      ∃ P Q R, denProd σ r.1 = some P ∧ denProd σ r.2.1 = some Q ∧ denProd σ r.2.2 = some R ∧
        x = P * R ∧ Spec.pow P y = some Q ∧ (all = true ∨ 0 ≤ P) := by
  induction l with
  | nil =>
    intro x hx _
    simp only [denProd, Option.some.injEq] at hx
    subst hx
    exact wp_pure ⟨1, 1, 1, rfl, rfl, rfl, by simp, Spec.one_pow y, .inr zero_le_one⟩
  | cons f l ih =>
    intro x hx hxy
    obtain ⟨z, w, hz, hw, rfl⟩ := denProd_cons.1 hx
    have hxy' : w ≠ 0 ∨ 0 < y := hxy.imp_left right_ne_zero_of_mul
    have hzy : z ≠ 0 ∨ 0 < y := hxy.imp_left left_ne_zero_of_mul
    unfold splitFactors
    refine wp_bind (P := fun b => b = true → all = true ∨ 0 ≤ z) ?_ fun b hb => ?_
    · refine wp_ite (fun h => wp_pure fun _ => .inl h) fun _ => ?_
      exact wp_whenTrue (wp_mono (hE.isPos hσ hz) fun r hr h => .inr (hr h))
    refine wp_ite (fun h => ?_) fun hnb => ?_
    · have hb := hb h
      have hd : Spec.pow z y = some (z ^ y) := by
        refine Spec.pow_def ?_
        rcases lt_trichotomy z 0 with h | h | h
        · rcases hb with hb | hb
          · exact .inr (.inr ⟨h, hall hb⟩)
          · linarith
        · exact .inr (.inl ⟨h, hzy.resolve_left (by simp [h])⟩)
        · exact .inl h
      refine wp_bind (hE.pow hσ hz he hd) fun p hp => ?_
      refine wp_bind (ih hw hxy') fun r hr => wp_pure ?_
      obtain ⟨P, Q, R, h1, h2, h3, h4, h5, h6⟩ := hr
      refine ⟨z * P, z ^ y * Q, R, denProd_cons.2 ⟨_, _, hz, h1, rfl⟩, denProd_cons.2 ⟨_, _, hp, h2, rfl⟩,
        h3, by rw [h4]; ring, Spec.pow_mul hd h5, ?_⟩
      rcases hb with hb | hb
      · exact .inl hb
      · exact h6.imp_right fun h => mul_nonneg hb h
    · refine wp_bind (ih hw hxy') fun r hr => wp_pure ?_
      obtain ⟨P, Q, R, h1, h2, h3, h4, h5, h6⟩ := hr
      exact ⟨P, Q, z * R, h1, h2, denProd_cons.2 ⟨_, _, hz, h3, rfl⟩, by rw [h4]; ring, h5, h6⟩

theorem simplifyProductBase_vl (hE : Sound E) (hσ : σ.Respects) {ops : List (Expr D)} {exp : Expr D}
    {x y v : ℝ} (hx : denProd σ ops = some x) (hy : den σ exp = some y) (hp : Spec.pow x y = some v) :
    wp (Cond.holds σ) (simplifyProductBase E ops exp) fun r => den σ (.pow r.1 r.2) = some v := by
  unfold simplifyProductBase
  refine wp_bind (wp_lift fun a h => h) fun all hall => ?_
  have hall' := isInteger_val hall hy
  have hxy : x ≠ 0 ∨ 0 < y := by
    rcases (Spec.pow_some hp).1 with h | h | h
    · exact .inl h.ne'
    · exact .inr h.2
    · exact .inl h.1.ne
  refine wp_bind (splitFactors_wp hE hσ hy hall' hx hxy) fun r hr => ?_
  obtain ⟨P, Q, R, h1, h2, h3, rfl, h5, h6⟩ := hr
  refine wp_ite (fun _ => wp_pure (den_pow.2 ⟨_, _, hx, hy, hp⟩)) fun _ => ?_
  refine wp_bind (P := fun _ => all = true ∨ R = 1 ∨ P ≠ 0 ∨ 0 ≤ R) (wp_logIf fun h => ?_) fun _ hc => ?_
  · by_cases ha : all = true
    · exact .inl ha
    by_cases hr : r.2.2.isEmpty = true
    · rw [List.isEmpty_iff] at hr
      rw [hr, denProd] at h3
      cases h3
      exact .inr (.inl rfl)
    rcases h (by simp [ha, hr]) with ⟨w, hw, hw'⟩ | ⟨w, hw, hw'⟩
    · rw [den_prod, h1] at hw; cases hw; exact .inr (.inr (.inl hw'))
    · rw [den_prod, h3] at hw; cases hw; exact .inr (.inr (.inr hw'))
  have hR : Spec.pow R y = some (R ^ y) := by
    refine Spec.pow_def ?_
    rcases lt_trichotomy R 0 with h | h | h
    · refine .inr (.inr ⟨h, ?_⟩)
      by_cases ha : all = true
      · exact hall' ha
      have hP0 := h6.resolve_left ha
      have hP : P ≠ 0 := by
        rcases hc with hc | hc | hc | hc
        · exact absurd hc ha
        · linarith
        · exact hc
        · linarith
      obtain ⟨m, hm, -⟩ := Spec.pow_neg_int hp (mul_neg_of_pos_of_neg (lt_of_le_of_ne hP0 hP.symm) h)
      exact ⟨m, hm⟩
    · exact .inr (.inl ⟨h, hxy.resolve_left (by simp [h])⟩)
    · exact .inl h
  have hv := Spec.pow_mul h5 hR
  rw [hp] at hv
  cases hv
  refine wp_bind (hE.prod hσ h3) fun k hk => ?_
  refine wp_bind (hE.pow hσ hk hy hR) fun kp hkp => ?_
  refine wp_bind (hE.prod hσ (denProd_append.2 ⟨_, _, h2, by rw [denProd_one]; exact hkp, rfl⟩)) fun p hp =>
    wp_pure (pair_one hp)

theorem simplifyConstantBase_vl (hE : Sound E) {c : Cst} {exp : Expr D} {y v : ℝ}
    (hy : den σ exp = some y) (hp : Spec.pow (Spec.cst c) y = some v) :
    wp (Cond.holds σ) (simplifyConstantBase E c exp) fun r => den σ (.pow r.1 r.2) = some v := by
  have keep : den σ (.pow (.cst c) exp : Expr D) = some v := den_pow.2 ⟨_, _, den_cst c, hy, hp⟩
  unfold simplifyConstantBase
  refine wp_ite (fun h => ?_) fun _ => wp_pure keep
  simp only [Bool.and_eq_true, isEqual, decide_eq_true_eq] at h
  split
  · rename_i a l hops
    refine wp_bind (wp_silent wp_true) fun lg _ => ?_
    refine wp_ite (fun _ => ?_) fun _ => wp_pure keep
    refine wp_bind (wp_failIf fun h => h) fun _ hl => wp_pure ?_
    simp only [Bool.not_eq_false'] at hl
    unfold isLog at hl
    split at hl
    · simp only [operands, List.cons.injEq] at hops
      obtain ⟨rfl, -⟩ := hops
      obtain ⟨w, hw, hlog⟩ := den_fn.1 hy
      obtain ⟨hpos, rfl⟩ := Spec.log_some hlog
      have hc : c = .e := by simpa using h.1
      subst hc
      have := (Spec.pow_some hp).2
      rw [Spec.cst, Real.exp_one_rpow, Real.exp_log hpos] at this
      subst this
      exact pair_one hw
    · cases hl
  · exact wp_err

theorem simplPow_vl (hE : Sound E) (hσ : σ.Respects) {b e : Expr D} {x y v : ℝ} (hb : den σ b = some x)
    (he : den σ e = some y) (hp : Spec.pow x y = some v) :
    wp (Cond.holds σ) (simplPow E b e) fun r => den σ (.pow r.1 r.2) = some v := by
  have keep : den σ (.pow b e) = some v := den_pow.2 ⟨_, _, hb, he, hp⟩
  unfold simplPow
  refine wp_bind (doesInvolveComplex_wp hE hσ hb he hp) fun c hc => ?_
  refine wp_ite (fun h => (hc h).elim) fun _ => ?_
  split
  · split
    · simp only [den_num, Option.some.injEq] at hb he
      subst hb he
      exact simplifyNumericPower_vl hE hσ hp
    · exact wp_pure keep
  · exact simplifyPowerBase_vl hE hσ hb he hp
  · exact simplifyProductBase_vl hE hσ hb he hp
  · simp at hb
  · simp only [den_cst, Option.some.injEq] at hb
    subst hb
    exact simplifyConstantBase_vl hE he hp
  · exact wp_pure keep

theorem powCreate_vl (hE : Sound E) (hσ : σ.Respects) {b e : Expr D} {x y v : ℝ} (hb : den σ b = some x)
    (he : den σ e = some y) (hp : Spec.pow x y = some v) : Vl σ (powCreate E b e) v := by
  unfold powCreate
  refine wp_ite (fun h => ?_) fun _ => wp_ite (fun h => wp_pure ?_) fun h1 => ?_
  · simp [not_undef hb, not_undef he] at h
  · rw [den_one]
    rcases Bool.or_eq_true_iff.1 h with h | h
    · rw [den_isZero h] at he
      cases he
      rw [Spec.pow_zero_of hp]
    · rw [den_isOne h] at hb
      cases hb
      rw [Spec.one_pow] at hp
      exact hp
  refine wp_ite (fun h => ?_) fun _ => wp_ite (fun h => wp_pure ?_) fun _ => ?_
  · rw [den_isZero h] at hb
    cases hb
    obtain ⟨rfl, hy⟩ := Spec.zero_pow_of hp
    refine wp_bind (wp_whenTrue (hE.isNeg hσ he)) fun n hn => wp_pure ?_
    split
    · linarith [hn ‹_›]
    · exact den_zero
  · rw [den_isOne h] at he
    cases he
    rw [Spec.pow_one] at hp
    rw [hb, hp]
  · unfold powCreateNonTrivial
    refine wp_bind (hE.simplPow hσ hb he hp) fun r hr => wp_pure ?_
    obtain ⟨p, q, hp', hq', hpq⟩ := den_pow.1 hr
    split
    · rename_i ho
      rw [den_isOne ho] at hq'
      cases hq'
      rw [Spec.pow_one] at hpq
      rw [hp', hpq]
    · split
      · rename_i ho
        rw [den_isOne ho] at hp'
        cases hp'
        rw [Spec.one_pow] at hpq
        rw [den_one, hpq]
      · exact hr

theorem powCreate_zero (hE : Sound E) (hσ : σ.Respects) {b e : Expr D} {x : ℝ} (hb : den σ b = some x)
    (he : e.isZero = true) : Vl σ (powCreate E b e) 1 := by
  unfold powCreate
  rw [not_undef hb, not_undef (den_isZero (σ := σ) he)]
  simp only [Bool.or_self, Bool.false_eq_true, if_false, he, Bool.true_or, if_true]
  exact wp_pure den_one

/-! ## Logarithms -/

theorem isInvalidArg_wp (hE : Sound E) (hσ : σ.Respects) {a : Expr D} {x : ℝ} (ha : den σ a = some x)
    (hx : 0 < x) : wp (Cond.holds σ) (isInvalidArg E a) fun r => r = true → False := by
  unfold isInvalidArg
  refine wp_ite (fun h => ?_) fun _ => wp_ite (fun _ => wp_pure (by simp)) fun _ => ?_
  · rcases Bool.or_eq_true_iff.1 h with h | h
    · rw [not_undef ha] at h; cases h
    · rw [den_isZero h] at ha
      cases ha
      exact (lt_irrefl _ hx).elim
  · refine wp_whenTrue ?_
    refine wp_bind (hE.isNeg hσ ha) fun n hn => ?_
    refine wp_ite (fun h => wp_pure fun _ => by linarith [hn h]) fun _ => ?_
    refine wp_mono evalsTo_val fun r hr h => ?_
    have := hr h σ x ha
    rw [Number.val_zero] at this
    linarith

theorem logCreate_vl (hE : Sound E) (hσ : σ.Respects) {a : Expr D} {x v : ℝ} (ha : den σ a = some x)
    (hv : Spec.log x = some v) : Vl σ (logCreate E a) v := by
  obtain ⟨hx, rfl⟩ := Spec.log_some hv
  have keep : den σ (.fn .log a) = some (Real.log x) := den_fn.2 ⟨x, ha, hv⟩
  unfold logCreate
  refine wp_bind (isInvalidArg_wp hE hσ ha hx) fun i hi => ?_
  refine wp_ite (fun h => (hi h).elim) fun _ => wp_ite (fun h => wp_pure ?_) fun _ => ?_
  · rw [den_isOne h] at ha
    cases ha
    simp
  split
  · rename_i n
    refine wp_pure ?_
    split
    · exact keep
    · simp only [den_num, Option.some.injEq] at ha
      subst ha
      rw [den_num, Number.val_ofDouble, LawfulFlt.log _ (by simpa using hx), Number.val_toDouble]
  · rename_i c _
    refine wp_pure ?_
    split
    · rename_i h
      simp only [isEqual, decide_eq_true_eq] at h
      have hc : c = .e := by simpa using h
      subst hc
      simp only [den_cst, Option.some.injEq, Spec.cst] at ha
      rw [den_one, ← ha, Real.log_exp]
    · exact keep
  · rename_i b e
    obtain ⟨p, q, hp, hq, hpq⟩ := den_pow.1 ha
    refine wp_bind (P := fun _ => 0 < p) (wp_log fun h => ?_) fun _ hpos => ?_
    · obtain ⟨w, hw, hw'⟩ := h
      rw [hp] at hw; cases hw; exact hw'
    refine wp_bind (hE.log hσ hp (Spec.log_def hpos)) fun l hl => ?_
    have := hE.prod hσ (denProd_two hq hl)
    rw [Spec.pow_pos' hpos] at hpq
    cases hpq
    rwa [Real.log_rpow hpos]
  · exact wp_pure keep

/-! ## Signs -/

theorem sign_ok {n : Number D} {s : ℤ} (h : n.sign = .ok s) :
    (0 < s → 0 ≤ n.val) ∧ (s < 0 → n.val ≤ 0) ∧ (s = 0 → n.val = 0) ∧ -1 ≤ s ∧ s ≤ 1 := by
  unfold Number.sign at h
  split at h
  · rename_i hl
    rw [Number.lt_iff, Number.val_zero] at hl
    cases h
    exact ⟨by simp, fun _ => hl.le, by simp, by simp, by simp⟩
  split at h
  · rename_i hl
    rw [Number.lt_iff, Number.val_zero] at hl
    cases h
    exact ⟨fun _ => hl.le, by simp, by simp, by simp, by simp⟩
  split at h
  · rename_i hl
    rw [Number.eqv_iff, Number.val_zero] at hl
    cases h
    exact ⟨by simp, by simp, fun _ => hl, by simp, by simp⟩
  · cases h

/-- The values of the numeric and of the other summands. -/
def SplitNum (σ : Asg) : List (Expr D) → ℝ → ℝ → Prop
  | [], n, s => n = 0 ∧ s = 0
  | a :: l, n, s => ∃ x n' s', den σ a = some x ∧ SplitNum σ l n' s' ∧
      (((∃ k, numEval a = .ok (some k)) ∧ n = x + n' ∧ s = s') ∨
        ((¬ ∃ k, numEval a = .ok (some k)) ∧ n = n' ∧ s = x + s'))

theorem splitNum_of {l : List (Expr D)} : ∀ {v : ℝ}, denSum σ l = some v →
    ∃ n s, SplitNum σ l n s ∧ v = n + s := by
  induction l with
  | nil =>
    intro v h
    simp only [denSum, Option.some.injEq] at h
    exact ⟨0, 0, ⟨rfl, rfl⟩, by simp [← h]⟩
  | cons a l ih =>
    intro v h
    obtain ⟨x, y, hx, hy, rfl⟩ := denSum_cons.1 h
    obtain ⟨n, s, hs, rfl⟩ := ih hy
    by_cases hk : ∃ k, numEval a = .ok (some k)
    · exact ⟨x + n, s, ⟨x, n, s, hx, hs, .inl ⟨hk, rfl, rfl⟩⟩, by ring⟩
    · exact ⟨n, x + s, ⟨x, n, s, hx, hs, .inr ⟨hk, rfl, rfl⟩⟩, by ring⟩

theorem signOfNumericParts_ok {l : List (Expr D)} : ∀ {acc : Number D} {n s : ℝ} {r : ℤ}, SplitNum σ l n s →
    signOfNumericParts acc l = .ok r →
    (0 < r → 0 ≤ acc.val + n) ∧ (r < 0 → acc.val + n ≤ 0) ∧ (r = 0 → acc.val + n = 0) ∧
      -1 ≤ r ∧ r ≤ 1 := by
  induction l with
  | nil =>
    intro acc n s r h hr
    obtain ⟨rfl, rfl⟩ := h
    simpa using sign_ok hr
  | cons a l ih =>
    intro acc n s r h hr
    obtain ⟨x, n', s', hx, hs, hc⟩ := h
    simp only [signOfNumericParts, Except.bind_ok] at hr
    obtain ⟨m, hm, hr⟩ := hr
    rcases hc with ⟨⟨k, hk⟩, rfl, rfl⟩ | ⟨hk, rfl, rfl⟩
    · rw [hk] at hm
      cases hm
      have := ih hs hr
      rw [Number.val_add, numEval_val σ a k x hk hx] at this
      simpa [add_assoc] using this
    · cases m with
      | some k => exact absurd ⟨k, hm⟩ hk
      | none => exact ih hs hr

theorem signOfSymbolicParts_wp (hE : Sound E) (hσ : σ.Respects) {l : List (Expr D)} :
    ∀ {acc : ℤ} {n s c : ℝ}, SplitNum σ l n s → (0 < acc → 0 ≤ c) → (acc < 0 → c ≤ 0) → (acc = 0 → c = 0) →
    -1 ≤ acc → acc ≤ 1 → wp (Cond.holds σ) (signOfSymbolicParts E acc l) fun r =>
      (0 < r → 0 ≤ c + s) ∧ (r < 0 → c + s ≤ 0) ∧ -1 ≤ r ∧ r ≤ 1 := by
  induction l with
  | nil =>
    intro acc n s c h h1 h2 h3 h4 h5
    obtain ⟨rfl, rfl⟩ := h
    exact wp_pure ⟨by simpa using h1, by simpa using h2, h4, h5⟩
  | cons a l ih =>
    intro acc n s c h h1 h2 h3 h4 h5
    obtain ⟨x, n', s', hx, hs, hc⟩ := h
    unfold signOfSymbolicParts
    refine wp_bind (wp_lift fun a h => h) fun m hm => ?_
    rcases hc with ⟨⟨k, hk⟩, rfl, rfl⟩ | ⟨hk, rfl, rfl⟩
    · rw [hk] at hm
      cases hm
      exact ih hs h1 h2 h3 h4 h5
    · cases m with
      | some k => exact absurd ⟨k, hm⟩ hk
      | none =>
        dsimp only
        refine wp_bind (wp_whenTrue (hE.isPos hσ hx)) fun p hp => ?_
        refine wp_ite (fun h => ?_) fun _ => ?_
        · simp only [Bool.and_eq_true, decide_eq_true_eq] at h
          have h0 := hp h.1
          have hc : 0 ≤ c := by
            rcases h.2.lt_or_eq with h | h
            · exact h1 h
            · exact (h3 h.symm).ge
          have := ih (acc := 1) (c := c + x) hs (fun _ => by linarith) (by simp) (by simp) (by simp)
            (by simp)
          simpa [add_assoc] using this
        · refine wp_bind (wp_whenTrue (hE.isNeg hσ hx)) fun p hp => ?_
          refine wp_ite (fun h => ?_) fun _ => wp_pure (by simp)
          simp only [Bool.and_eq_true, decide_eq_true_eq] at h
          have h0 := hp h.1
          have hc : c ≤ 0 := by
            rcases h.2.lt_or_eq with h | h
            · exact h2 h
            · exact (h3 h).le
          have := ih (acc := -1) (c := c + x) hs (by simp) (fun _ => by linarith) (by simp) (by simp)
            (by simp)
          simpa [add_assoc] using this

theorem signOfSum_wp (hE : Sound E) (hσ : σ.Respects) {l : List (Expr D)} {v : ℝ}
    (h : denSum σ l = some v) : wp (Cond.holds σ) (signOfSum E l) fun r =>
      (r = 1 → 0 ≤ v) ∧ (r = -1 → v ≤ 0) := by
  unfold signOfSum
  obtain ⟨n, s, hs, rfl⟩ := splitNum_of h
  refine wp_bind (wp_lift fun a h => h) fun a ha => ?_
  obtain ⟨a1, a2, a3, a4, a5⟩ := signOfNumericParts_ok hs ha
  simp only [Number.val_zero, zero_add] at a1 a2 a3
  refine wp_bind (signOfSymbolicParts_wp hE hσ (acc := 0) (c := 0) hs (by simp) (by simp) (by simp)
    (by simp) (by simp)) fun b hb => wp_pure ?_
  simp only [zero_add] at hb
  obtain ⟨b1, b2, b3, b4⟩ := hb
  split
  · rename_i h0
    have := a3 h0
    subst h0
    refine ⟨fun h => ?_, fun h => ?_⟩
    · have := b1 (by omega); linarith
    · have := b2 (by omega); linarith
  split
  · refine ⟨fun _ => ?_, by simp⟩
    have := b1 (by omega)
    have := a1 (by omega)
    linarith
  split
  · refine ⟨by simp, fun _ => ?_⟩
    have := b2 (by omega)
    have := a2 (by omega)
    linarith
  · simp

theorem signOfProduct_wp (hE : Sound E) (hσ : σ.Respects) {l : List (Expr D)} :
    ∀ {acc : ℤ} {v : ℝ}, denProd σ l = some v → acc = 1 ∨ acc = -1 →
    wp (Cond.holds σ) (signOfProduct E acc l) fun r => (r = 1 → 0 ≤ acc * v) ∧ (r = -1 → acc * v ≤ 0) := by
  induction l with
  | nil =>
    intro acc v h ha
    simp only [denProd, Option.some.injEq] at h
    subst h
    refine wp_pure ⟨?_, ?_⟩ <;> rintro rfl <;> simp
  | cons a l ih =>
    intro acc v h ha
    obtain ⟨x, y, hx, hy, rfl⟩ := denProd_cons.1 h
    unfold signOfProduct
    refine wp_bind (wp_whenTrue (hE.isPos hσ hx)) fun p hp => wp_ite (fun h => ?_) fun _ => ?_
    · refine wp_mono (ih hy ha) fun r hr => ⟨fun h1 => ?_, fun h1 => ?_⟩
      · have := mul_nonneg (hp h) (hr.1 h1)
        linarith
      · have := mul_nonpos_of_nonneg_of_nonpos (hp h) (hr.2 h1)
        linarith
    · refine wp_bind (wp_whenTrue (hE.isNeg hσ hx)) fun p hp => wp_ite (fun h => ?_) fun _ => wp_pure (by simp)
      refine wp_mono (ih (acc := acc * -1) hy (by omega)) fun r hr => ⟨fun h1 => ?_, fun h1 => ?_⟩
      · have := mul_nonneg (neg_nonneg.2 (hp h)) (hr.1 h1)
        push_cast at this
        linarith
      · have := mul_nonpos_of_nonneg_of_nonpos (neg_nonneg.2 (hp h)) (hr.2 h1)
        push_cast at this
        linarith

theorem evalIsPos_wp {C : Cond D → Prop} {e : Expr D} {v : ℝ} (h : den σ e = some v) :
    wp C (evalIsPos e) fun b => b = true → 0 ≤ v := by
  unfold evalIsPos
  refine wp_bind (wp_lift fun a h => h) fun n hn => ?_
  split
  · rename_i x
    refine wp_pure fun hl => ?_
    rw [Number.lt_iff, Number.val_zero, numEval_val σ e x v hn h] at hl
    exact hl.le
  · exact wp_pure (by simp)

theorem evalIsNeg_wp {C : Cond D → Prop} {e : Expr D} {v : ℝ} (h : den σ e = some v) :
    wp C (evalIsNeg e) fun b => b = true → v ≤ 0 := by
  unfold evalIsNeg
  refine wp_bind (wp_lift fun a h => h) fun n hn => ?_
  split
  · rename_i x
    refine wp_pure fun hl => ?_
    rw [Number.lt_iff, Number.val_zero, numEval_val σ e x v hn h] at hl
    exact hl.le
  · exact wp_pure (by simp)

theorem Spec.pow_nn {x y v : ℝ} (h : Spec.pow x y = some v) (hx : 0 ≤ x) : 0 ≤ v := by
  rw [(Spec.pow_some h).2]
  exact Real.rpow_nonneg hx y

theorem pow_even_nn {n : Number D} {x v : ℝ} (h : Spec.pow x n.val = some v) (hr : n.isRational = true)
    (he : n.numerator % 2 = 0) : 0 ≤ v := by
  by_cases hx : 0 ≤ x
  · exact Spec.pow_nn h hx
  · obtain ⟨m, hm, rfl⟩ := Spec.pow_neg_int h (not_le.1 hx)
    have hi := Number.isInt_of_val hr hm
    rw [Number.val_of_isInt n hi] at hm
    have : n.numerator = m := by exact_mod_cast hm
    exact Even.zpow_nonneg (Int.even_iff.2 (this ▸ he)) x

theorem isPos_wp (hE : Sound E) (hσ : σ.Respects) {a : Expr D} {v : ℝ} (h : den σ a = some v) :
    wp (Cond.holds σ) (isPos E a) fun b => b = true → 0 ≤ v := by
  unfold isPos
  split
  · rename_i n
    refine wp_pure fun hl => ?_
    simp only [den_num, Option.some.injEq] at h
    rw [Number.lt_iff, Number.val_zero, h] at hl
    exact hl.le
  · rename_i s
    simp only [den_sym, Option.some.injEq] at h
    exact wp_pure fun hs => h ▸ hσ s hs
  · rename_i c
    simp only [den_cst, Option.some.injEq] at h
    refine wp_pure fun _ => ?_
    subst h
    cases c
    · exact Real.pi_pos.le
    · exact (Real.exp_pos 1).le
  · simp at h
  · rename_i l
    refine wp_bind (wp_lift fun a h => h) fun n hn => ?_
    split
    · rename_i x
      refine wp_pure fun hl => ?_
      rw [Number.lt_iff, Number.val_zero, numEval_val σ _ x v hn h] at hl
      exact hl.le
    · refine wp_bind (signOfSum_wp hE hσ h) fun s hs => wp_pure fun hd => hs.1 (by simpa using hd)
  · refine wp_bind (signOfProduct_wp hE hσ (acc := 1) h (.inl rfl)) fun s hs => wp_pure fun hd => ?_
    simpa using hs.1 (by simpa using hd)
  · rename_i b e
    obtain ⟨p, q, hp, hq, hpq⟩ := den_pow.1 h
    refine wp_bind (wp_whenTrue (hE.isPos hσ hp)) fun t ht => ?_
    refine wp_ite (fun h => wp_pure fun _ => Spec.pow_nn hpq (ht h)) fun _ => ?_
    refine wp_bind (wp_lift fun a h => h) fun n hn => ?_
    split
    · rename_i x
      refine wp_pure fun hl => ?_
      simp only [Bool.and_eq_true, beq_iff_eq] at hl
      rw [← numEval_val σ e x q hn hq] at hpq
      exact pow_even_nn hpq hl.1 hl.2
    · exact wp_pure (by simp)
  · rename_i a
    obtain ⟨x, hx, hl⟩ := den_fn.1 h
    obtain ⟨hpos, rfl⟩ := Spec.log_some hl
    refine wp_bind (hE.sum hσ (denSum_two hx den_mOne)) fun s hs => ?_
    refine wp_mono (hE.isPos hσ hs) fun r hr hrt => Real.log_nonneg (by linarith [hr hrt])
  · rename_i a
    obtain ⟨x, hx, hl⟩ := den_fn.1 h
    simp only [Spec.fn, Option.some.injEq] at hl
    subst hl
    exact wp_mono (hE.isPos hσ hx) fun r hr hrt => Real.arctan_nonneg.2 (hr hrt)
  · exact evalIsPos_wp h
  · exact evalIsPos_wp h

theorem isNeg_wp (hE : Sound E) (hσ : σ.Respects) {a : Expr D} {v : ℝ} (h : den σ a = some v) :
    wp (Cond.holds σ) (isNeg E a) fun b => b = true → v ≤ 0 := by
  unfold isNeg
  split
  · rename_i n
    refine wp_pure fun hl => ?_
    simp only [den_num, Option.some.injEq] at h
    rw [Number.lt_iff, Number.val_zero, h] at hl
    exact hl.le
  · exact wp_pure (by simp)
  · exact wp_pure (by simp)
  · exact wp_pure (by simp)
  · rename_i l
    refine wp_bind (wp_lift fun a h => h) fun n hn => ?_
    split
    · rename_i x
      refine wp_pure fun hl => ?_
      rw [Number.lt_iff, Number.val_zero, numEval_val σ _ x v hn h] at hl
      exact hl.le
    · refine wp_bind (signOfSum_wp hE hσ h) fun s hs => wp_pure fun hd => hs.2 (by simpa using hd)
  · refine wp_bind (signOfProduct_wp hE hσ (acc := 1) h (.inl rfl)) fun s hs => wp_pure fun hd => ?_
    simpa using hs.2 (by simpa using hd)
  · exact wp_pure (by simp)
  · rename_i a
    obtain ⟨x, hx, hl⟩ := den_fn.1 h
    obtain ⟨hpos, rfl⟩ := Spec.log_some hl
    refine wp_bind (hE.sum hσ (denSum_two hx den_mOne)) fun s hs => ?_
    refine wp_mono (hE.isNeg hσ hs) fun r hr hrt => Real.log_nonpos hpos.le (by linarith [hr hrt])
  · rename_i a
    obtain ⟨x, hx, hl⟩ := den_fn.1 h
    simp only [Spec.fn, Option.some.injEq] at hl
    subst hl
    exact wp_mono (hE.isNeg hσ hx) fun r hr hrt => Real.arctan_le_zero.2 (hr hrt)
  · exact evalIsNeg_wp h
  · exact evalIsNeg_wp h

end Tsym
