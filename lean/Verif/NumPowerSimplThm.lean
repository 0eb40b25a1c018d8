import Verif.NumPowerSimpl
import Verif.PrimeFacThm

/-!
# Helper lemmas: the simplification of numeric powers keeps the value
-/

namespace Tsym

theorem Except.bind_ok {ε α β : Type} {x : Except ε α} {f : α → Except ε β} {b : β} :
    (x >>= f) = .ok b ↔ ∃ a, x = .ok a ∧ f a = .ok b := by
  cases x with
  | error e => simp [bind, Except.bind]
  | ok a => simp [bind, Except.bind]

theorem Except.pure_ok {ε α : Type} {a b : α} : (pure a : Except ε α) = .ok b ↔ a = b := by
  simp [pure, Except.pure]

namespace Number

variable {D : Type} [Flt D] [LawfulFlt D]

theorem toThe_neg_one {b r : Number D} (h : b.toThe (neg 1) = .ok r) (hb : b.val ≠ 0) :
    r.val = (b.val)⁻¹ := by
  have := toThe_val (z := b.val ^ (-1 : ℝ)) h (by
    unfold Spec.pow
    rw [val_neg, val_one, if_pos]
    rcases lt_trichotomy b.val 0 with h | h | h
    · right; right; exact ⟨h, -1, by simp⟩
    · exact absurd h hb
    · left; exact h)
  rw [this, Real.rpow_neg_one]

theorem toThe_pos {b e r : Number D} (h : b.toThe e = .ok r) (hb : 0 < b.val) :
    r.val = b.val ^ e.val := toThe_val h (by unfold Spec.pow; rw [if_pos]; left; exact hb)

end Number

namespace NumPowerSimpl

variable {D : Type} [Flt D] [LawfulFlt D]

open Number

/-- The real number a payload stands for. -/
noncomputable def value (p : Payload D) : ℝ := p.preFactor.val * p.base.val ^ p.exp.val

theorem adjustExpGreaterThanOne_ok {p r : Payload D} (h : adjustExpGreaterThanOne p = .ok r)
    (hb : 0 < p.base.val) (hp : p.preFactor.val ≠ 0) :
    0 < r.base.val ∧ r.preFactor.val ≠ 0 ∧ value r = value p := by
  unfold adjustExpGreaterThanOne at h
  split at h
  · simp only [Except.bind_ok, Except.pure_ok] at h
    obtain ⟨x, hx, rfl⟩ := h
    have hv := toThe_pos hx hb
    simp only [val_rat] at hv
    refine ⟨hb, ?_, ?_⟩
    · simp only [val_mul, hv]
      exact mul_ne_zero hp (Real.rpow_pos_of_pos hb _).ne'
    · simp only [value, val_mul, val_sub, hv, val_rat]
      rw [mul_assoc, ← Real.rpow_add hb]
      congr 2
      ring
  · simp only [Except.pure_ok] at h
    subst h
    exact ⟨hb, hp, rfl⟩

theorem defPreFac_ok {e : ℚ} {b pf : Number D} {P : PrimeFac} {r : Payload D}
    (h : defPreFacPrimesInPower ⟨b, .rat e, pf⟩ = .ok (P, r)) (he : 0 < e) (hpf : 0 < pf.val) :
    P.Pos ∧ 0 < r.preFactor.val ∧ r.base = b ∧ r.exp = .rat e ∧
      pf.val = r.preFactor.val * (P.value : ℝ) ^ (e : ℝ) := by
  unfold defPreFacPrimesInPower at h
  simp only [Except.bind_ok] at h
  obtain ⟨ex, hex, x, hx, h⟩ := h
  obtain ⟨h0, rfl⟩ := ofInts_ok hex
  have hxv := toThe_pos hx hpf
  split at h
  · simp only [Except.pure_ok, Prod.mk.injEq] at h
    obtain ⟨rfl, rfl⟩ := h
    exact ⟨PrimeFac.one_pos, hpf, rfl, rfl, by simp [PrimeFac.one_value]⟩
  · rename_i hd
    simp only [Except.bind_ok, Except.pure_ok, Prod.mk.injEq] at h
    obtain ⟨A, hA, B, hB, rfl, rfl⟩ := h
    cases x with
    | dbl d => simp [isDouble] at hd
    | rat q =>
      simp only [val_rat] at hxv
      have hq : (0 : ℝ) < q := by rw [hxv]; exact Real.rpow_pos_of_pos hpf _
      have hq' : (0 : ℚ) < q := by exact_mod_cast hq
      obtain ⟨hA1, hA2⟩ := PrimeFac.ofNumber_ok hq' hA
      obtain ⟨hB1, hB2⟩ := PrimeFac.toThe_ok hB hA1
      refine ⟨hB1, by simp, rfl, rfl, ?_⟩
      simp only [val_one, one_mul, hB2, hA2, denominator]
      push_cast
      rw [← Real.rpow_intCast, hxv, ← Real.rpow_mul hpf.le, ← Real.rpow_mul hpf.le]
      simp only [numerator]
      have hn : (e.num : ℝ) ≠ 0 := by
        have := Rat.num_pos.2 he
        exact_mod_cast this.ne'
      have hdn : (e.den : ℝ) ≠ 0 := by exact_mod_cast e.den_nz
      have : (e : ℝ) = e.num / e.den := by
        conv_lhs => rw [← Rat.num_div_den e]
        push_cast; rfl
      rw [this]
      push_cast
      have : (1 / (e.num : ℝ) * (e.den : ℝ) * ((e.num : ℝ) / (e.den : ℝ))) = 1 := by
        field_simp
      rw [this, Real.rpow_one]

theorem collect_ok {nb r : PrimeFac} {e : ℚ} {ne : Number D} (hnb : nb.Pos)
    (hg : collectExact nb = true)
    (h : nb.collectToNewExp (.rat e : Number D) = .ok (r, ne)) :
    r.Pos ∧ (r.value : ℝ) ^ ne.val = (nb.value : ℝ) ^ (e : ℝ) := by
  unfold PrimeFac.collectToNewExp at h
  simp only [Except.bind_ok] at h
  obtain ⟨c, hc, h⟩ := h
  split at h
  · rename_i h1
    simp only [Except.pure_ok, Prod.mk.injEq] at h
    obtain ⟨rfl, rfl⟩ := h
    have hq := PrimeFac.unique_pos hnb
    refine ⟨hq, ?_⟩
    unfold collectExact at hg
    rw [hc] at hg
    simp only [Bool.or_eq_true, decide_eq_true_eq, Bool.and_eq_true, beq_iff_eq] at hg
    rcases hg with hg | hg
    · omega
    · rw [PrimeFac.unique_value hnb c hg.1 hg.2]
      have : (0 : ℝ) < ((⟨PrimeFac.unique nb.num, PrimeFac.unique nb.den⟩ : PrimeFac).value : ℝ) := by
        exact_mod_cast hq.value_pos
      push_cast
      rw [val_mul, val_rat, val_rat, Real.rpow_mul this.le]
      congr 1
      push_cast
      exact Real.rpow_natCast _ _
  · split at h
    · rename_i h2
      simp only [Except.pure_ok, Prod.mk.injEq] at h
      obtain ⟨rfl, rfl⟩ := h
      refine ⟨hnb, ?_⟩
      simp [PrimeFac.value, h2.1, h2.2]
    · simp only [Except.pure_ok, Prod.mk.injEq] at h
      obtain ⟨rfl, rfl⟩ := h
      exact ⟨hnb, rfl⟩

theorem cancel_ok {b e : ℚ} {pf : Number D} {r : Payload D}
    (h : cancel ⟨.rat b, .rat e, pf⟩ = .ok (r, true)) (hb : 0 < b) (he : 0 < e) (hpf : 0 < pf.val) :
    0 < r.base.val ∧ r.preFactor.val ≠ 0 ∧ value r = pf.val * (b : ℝ) ^ (e : ℝ) := by
  unfold cancel at h
  simp only [Except.bind_ok] at h
  obtain ⟨nb, hnb, ⟨P, p1⟩, hP, ⟨E, R⟩, hER, pn, hpn, ⟨S, ne⟩, hS, p2, hp2, p3, hp3, h⟩ := h
  simp only [Except.pure_ok, Prod.mk.injEq] at h
  obtain ⟨rfl, hg⟩ := h
  obtain ⟨n1, n2⟩ := PrimeFac.ofNumber_ok hb hnb
  obtain ⟨q1, q2, q3, q4, q5⟩ := defPreFac_ok hP he hpf
  obtain ⟨m1, m2⟩ := PrimeFac.multiply_ok n1 q1
  simp only [q4] at hER hS hg
  obtain ⟨x1, x2, C, c1, c2, c3⟩ := PrimeFac.extract_ok hER m1
  have hpn' := PrimeFac.eval_ok hpn
  subst hpn'
  obtain ⟨s1, s2⟩ := collect_ok x2 hg hS
  have hE : (0 : ℝ) < (E.value : ℝ) := by exact_mod_cast x1.value_pos
  have hC : (0 : ℝ) < (C.value : ℝ) := by exact_mod_cast c1.value_pos
  have hR : (0 : ℝ) < (R.value : ℝ) := by exact_mod_cast x2.value_pos
  have hSv : (0 : ℝ) < (S.value : ℝ) := by exact_mod_cast s1.value_pos
  have hPv : (0 : ℝ) < (P.value : ℝ) := by exact_mod_cast q1.value_pos
  have hbr : (0 : ℝ) < b := by exact_mod_cast hb
  -- value after collection
  have key : p1.preFactor.val * (E.value : ℝ) * (S.value : ℝ) ^ ne.val = pf.val * (b : ℝ) ^ (e : ℝ) := by
    rw [s2, q5, c2]
    have e1 : (b : ℝ) * (P.value : ℝ) = (R.value : ℝ) * (C.value : ℝ) ^ e.den := by
      rw [n2] at m2; rw [m2] at c3; exact_mod_cast c3
    have e2 : ((b : ℝ) * (P.value : ℝ)) ^ (e : ℝ) = (R.value : ℝ) ^ (e : ℝ) * (C.value : ℝ) ^ (e.num : ℝ) := by
      rw [e1, Real.mul_rpow hR.le (by positivity), ← Real.rpow_natCast, ← Real.rpow_mul hC.le]
      congr 2
      have hdn : (e.den : ℝ) ≠ 0 := by exact_mod_cast e.den_nz
      have he' : (e : ℝ) = e.num / e.den := by
        conv_lhs => rw [← Rat.num_div_den e]
        push_cast; rfl
      rw [he']
      field_simp
    rw [Real.mul_rpow hbr.le hPv.le] at e2
    push_cast
    rw [← Real.rpow_intCast]
    calc p1.preFactor.val * (C.value : ℝ) ^ (e.num : ℝ) * (R.value : ℝ) ^ (e : ℝ)
        = p1.preFactor.val * ((R.value : ℝ) ^ (e : ℝ) * (C.value : ℝ) ^ (e.num : ℝ)) := by ring
      _ = _ := by rw [← e2]; ring
  -- primesToComponents
  have hp2' : 0 < p2.base.val ∧ p2.preFactor.val ≠ 0 ∧ value p2 = pf.val * (b : ℝ) ^ (e : ℝ) := by
    unfold primesToComponents at hp2
    simp only [Except.bind_ok] at hp2
    obtain ⟨bb, hbb, hp2⟩ := hp2
    have hbb' := PrimeFac.eval_ok hbb
    subst hbb'
    split at hp2
    · rename_i h1
      split at hp2
      · rename_i h2
        simp only [Except.pure_ok] at hp2
        subst hp2
        rw [eqv_iff, val_rat, val_one] at h1
        rw [eqv_iff, val_one] at h2
        refine ⟨?_, ?_, ?_⟩
        · simp only [val_mul, val_rat]; positivity
        · simp only [val_rat, h1]; norm_num
        · rw [← key]
          simp only [value, val_mul, val_rat, h1, h2, Real.rpow_one]
          ring
      · cases hp2
    · simp only [Except.pure_ok] at hp2
      subst hp2
      refine ⟨by simpa using hSv, ?_, ?_⟩
      · simp only [val_mul, val_rat]; positivity
      · rw [← key]; simp only [value, val_mul, val_rat]
  obtain ⟨z1, z2, z3⟩ := adjustExpGreaterThanOne_ok hp3 hp2'.1 hp2'.2.1
  exact ⟨z1, z2, z3.trans hp2'.2.2⟩

/-- Base is positive, or it is not zero and the exponent is one. -/
def Fine (r : Payload D) : Prop :=
  r.base.val ≠ 0 ∧ r.preFactor.val ≠ 0 ∧ (0 < r.base.val ∨ r.exp.val = 1)

theorem computeAllPos_ok {b e : ℚ} {pf : Number D} {r : Payload D} {max : ℤ} {neg : Bool}
    (h : computeAllPos max neg ⟨.rat b, .rat e, pf⟩ = .ok (r, true)) (hb : 0 < b) (he : 0 < e)
    (hpf : 0 < pf.val) :
    Fine r ∧ value r = (if neg then -1 else 1) * pf.val * (b : ℝ) ^ (e : ℝ) := by
  unfold computeAllPos at h
  simp only [Except.bind_ok] at h
  obtain ⟨⟨p, g⟩, hp, h⟩ := h
  simp only [Except.pure_ok, Prod.mk.injEq] at h
  obtain ⟨rfl, rfl⟩ := h
  have hbr : (0 : ℝ) < b := by exact_mod_cast hb
  have key : 0 < p.base.val ∧ p.preFactor.val ≠ 0 ∧ value p = pf.val * (b : ℝ) ^ (e : ℝ) := by
    split at hp
    · exact cancel_ok hp hb he hpf
    · split at hp
      · simp only [Except.bind_ok, Except.pure_ok, Prod.mk.injEq] at hp
        obtain ⟨x, hx, rfl, _⟩ := hp
        have := adjustExpGreaterThanOne_ok hx (by simpa using hb) hpf.ne'
        exact ⟨this.1, this.2.1, this.2.2.trans (by simp [value])⟩
      · simp only [Except.pure_ok, Prod.mk.injEq] at hp
        obtain ⟨rfl, _⟩ := hp
        exact ⟨by simpa using hb, hpf.ne', by simp [value]⟩
  obtain ⟨k1, k2, k3⟩ := key
  unfold shiftPreFacSignBack
  cases neg with
  | false =>
    simp only [Bool.not_false, if_true]
    exact ⟨⟨k1.ne', k2, Or.inl k1⟩, by rw [k3]; simp⟩
  | true =>
    simp only [Bool.not_true, Bool.false_eq_true, if_false, if_true]
    split
    · rename_i h1
      rw [eqv_iff, val_one] at h1
      refine ⟨⟨?_, k2, Or.inr h1⟩, ?_⟩
      · simpa using k1.ne'
      · rw [mul_assoc, ← k3]
        simp only [value, val_mul, val_neg, val_one, h1, Real.rpow_one]
        ring
    · refine ⟨⟨k1.ne', ?_, Or.inl k1⟩, ?_⟩
      · simpa using k2
      · rw [mul_assoc, ← k3]
        simp only [value, val_mul, val_neg, val_one]
        ring

theorem computePosExpPosBase_ok {b e : ℚ} {pf : Number D} {r : Payload D} {max : ℤ}
    (h : computePosExpPosBase max ⟨.rat b, .rat e, pf⟩ = .ok (r, true)) (hb : 0 < b) (he : 0 < e)
    (hpf : pf.val ≠ 0) : Fine r ∧ value r = pf.val * (b : ℝ) ^ (e : ℝ) := by
  unfold computePosExpPosBase at h
  split at h
  · rename_i h1
    rw [lt_iff, val_zero] at h1
    obtain ⟨a, b⟩ := computeAllPos_ok h hb he (by simpa using h1)
    refine ⟨a, b.trans ?_⟩
    simp
  · rename_i h1
    rw [lt_iff, val_zero] at h1
    obtain ⟨a, b⟩ := computeAllPos_ok h hb he (lt_of_le_of_ne (not_lt.1 h1) (Ne.symm hpf))
    exact ⟨a, b.trans (by simp)⟩

theorem computePosExp_ok {b e : ℚ} {pf : Number D} {r : Payload D} {max : ℤ}
    (h : computePosExp max ⟨.rat b, .rat e, pf⟩ = .ok (r, true)) (hb : b ≠ 0)
    (hbe : b < 0 → e.den = 1) (he : 0 < e) (hpf : pf.val ≠ 0) :
    Fine r ∧ value r = pf.val * (b : ℝ) ^ (e : ℝ) := by
  unfold computePosExp at h
  simp only [Except.bind_ok] at h
  obtain ⟨p, hp, h⟩ := h
  split at hp
  · rename_i h1
    rw [lt_iff, val_zero] at h1
    have hb0 : b < 0 := by simpa using h1
    have hden := hbe hb0
    have hee : (e : ℝ) = (e.num : ℤ) := by
      conv_lhs => rw [← Rat.num_div_den e]
      simp [hden]
    unfold shiftNegBase at hp
    simp only [Except.bind_ok, Except.pure_ok] at hp
    obtain ⟨x, hx, rfl⟩ := hp
    have hxv : x.val = (-1 : ℝ) ^ (e : ℝ) := toThe_val hx (by
      unfold Spec.pow
      rw [val_neg, val_one, val_rat, if_pos]
      right; right; exact ⟨by norm_num, e.num, hee⟩)
    rw [neg_one_def] at h
    simp only [mul] at h
    have hx0 : x.val ≠ 0 := by
      rw [hxv, hee, Real.rpow_intCast]; exact zpow_ne_zero _ (by norm_num)
    obtain ⟨a, c⟩ := computePosExpPosBase_ok h (by linarith) he (by
      show (pf.mul x).val ≠ 0
      rw [val_mul]; exact mul_ne_zero hpf hx0)
    refine ⟨a, c.trans ?_⟩
    show (pf.mul x).val * _ = _
    rw [val_mul, hxv, hee, Real.rpow_intCast, Real.rpow_intCast, Real.rpow_intCast, mul_assoc,
      ← mul_zpow]
    push_cast
    ring_nf
  · rename_i h1
    simp only [Except.pure_ok] at hp
    subst hp
    rw [lt_iff, val_zero] at h1
    have hb0 : 0 < b := lt_of_le_of_ne (by simpa using h1) (Ne.symm hb)
    exact computePosExpPosBase_ok h hb0 he hpf

theorem computeNegExp_ok {b e : ℚ} {pf : Number D} {r : Payload D} {max : ℤ}
    (h : computeNegExp max ⟨.rat b, .rat e, pf⟩ = .ok (r, true)) (hb : b ≠ 0)
    (hbe : b < 0 → e.den = 1) (he : e < 0) (hpf : pf.val ≠ 0) :
    Fine r ∧ value r = pf.val * (b : ℝ) ^ (e : ℝ) := by
  unfold computeNegExp at h
  simp only [Except.bind_ok] at h
  obtain ⟨pre, hpre, ⟨p, g⟩, hp, pre2, hpre2, h⟩ := h
  rw [neg_one_def] at hp
  simp only [mul] at hp
  have hprev := toThe_neg_one hpre hpf
  have hgen : ∀ g', g' = g → g' = true → Fine p ∧ value p = pre.val * (b : ℝ) ^ ((-e : ℚ) : ℝ) := by
    intro g' hg' hg
    subst hg'
    rw [hg] at hp
    rw [mul_neg_one] at hp
    exact computePosExp_ok hp hb (fun hh => by rw [Rat.neg_den]; exact hbe hh) (by linarith)
      (by rw [hprev]; exact inv_ne_zero hpf)
  have hbr : (b : ℝ) ≠ 0 := by exact_mod_cast hb
  have hbe' : ((b : ℝ) ^ ((-e : ℚ) : ℝ)) = ((b : ℝ) ^ (e : ℝ))⁻¹ := by
    rcases lt_or_gt_of_ne hb with h0 | h0
    · have hden := hbe h0
      have hee : (e : ℝ) = (e.num : ℤ) := by
        conv_lhs => rw [← Rat.num_div_den e]
        simp [hden]
      push_cast
      rw [hee, ← Int.cast_neg, Real.rpow_intCast, Real.rpow_intCast, zpow_neg]
    · push_cast
      rw [Real.rpow_neg (by exact_mod_cast h0.le)]
  split at h
  · rename_i h1
    simp only [Except.pure_ok, Prod.mk.injEq] at h
    obtain ⟨rfl, rfl⟩ := h
    obtain ⟨⟨f1, _, _⟩, _⟩ := hgen _ rfl rfl
    rw [eqv_iff, val_zero] at h1
    exact absurd h1 f1
  · split at h
    · rename_i h1
      simp only [Except.bind_ok, Except.pure_ok, Prod.mk.injEq] at h
      obtain ⟨bb, hbb, rfl, rfl⟩ := h
      obtain ⟨⟨f1, f2, f3⟩, f4⟩ := hgen _ rfl rfl
      have e1 := toThe_neg_one hbb f1
      have e2 := toThe_neg_one hpre2 f2
      rw [eqv_iff, val_one] at h1
      simp only at h1
      refine ⟨⟨by rw [e1]; exact inv_ne_zero f1, by rw [e2]; exact inv_ne_zero f2, Or.inr h1⟩, ?_⟩
      simp only [value, h1, Real.rpow_one] at f4 ⊢
      rw [e1, e2, ← mul_inv, f4, hprev, hbe', mul_inv, inv_inv, inv_inv]
    · rename_i h1
      simp only [Except.pure_ok, Prod.mk.injEq] at h
      obtain ⟨rfl, rfl⟩ := h
      obtain ⟨⟨f1, f2, f3⟩, f4⟩ := hgen _ rfl rfl
      have e2 := toThe_neg_one hpre2 f2
      rw [eqv_iff, val_one] at h1
      simp only at h1
      have f5 : 0 < p.base.val := by
        rcases f3 with f | f
        · exact f
        · exact absurd f h1
      refine ⟨⟨f1, by rw [e2]; exact inv_ne_zero f2, Or.inl f5⟩, ?_⟩
      simp only [value] at f4 ⊢
      rw [e2, val_mul, val_neg, val_one, mul_neg_one, Real.rpow_neg f5.le, ← mul_inv, f4, hprev,
        hbe', mul_inv, inv_inv, inv_inv]

theorem adjustExpSignAndBase_ok {p r : Payload D} (h : adjustExpSignAndBase p = .ok r)
    (hp : Fine p) : Fine r ∧ value r = value p := by
  unfold adjustExpSignAndBase at h
  obtain ⟨f1, f2, f3⟩ := hp
  split at h
  · rename_i h1
    simp only [Except.bind_ok, Except.pure_ok] at h
    obtain ⟨b, hb, rfl⟩ := h
    have e1 := toThe_neg_one hb f1
    have f4 : 0 < p.base.val := by
      rcases f3 with f | f
      · exact f
      · exfalso
        simp only [Bool.or_eq_true, Bool.and_eq_true, Bool.not_eq_true', eqv_false, lt_iff,
          val_one, val_zero, f] at h1
        rcases h1 with h1 | h1
        · exact h1.2 rfl
        · linarith [h1.1]
    refine ⟨⟨?_, f2, Or.inl ?_⟩, ?_⟩
    · simp only [e1]; exact inv_ne_zero f1
    · simp only [e1]; exact inv_pos.2 f4
    · simp only [value, e1, val_mul, val_neg, val_one, mul_neg_one]
      rw [Real.inv_rpow f4.le, Real.rpow_neg f4.le, inv_inv]
  · simp only [Except.pure_ok] at h
    subst h
    exact ⟨⟨f1, f2, f3⟩, rfl⟩

/-- The whole simplification of a numeric power keeps the value, if the collection of primes that
it did was exact. -/
theorem compute_ok {p r : Payload D} {max : ℤ} (h : compute max p = .ok (r, true))
    (hv : isInputValid p = true) (hb : p.base.val ≠ 0) (he : p.exp.val ≠ 0)
    (hpf : p.preFactor.val ≠ 0) : Fine r ∧ value r = value p := by
  unfold compute at h
  rw [hv] at h
  simp only [Bool.not_true, Bool.false_eq_true, if_false] at h
  have hv' : p.base.val < 0 → p.exp.isInt = true := by
    intro h0
    by_contra hne
    unfold isInputValid at hv
    have : p.base.lt 0 = true := by rw [lt_iff, val_zero]; exact h0
    simp [this, hne] at hv
  have hspec : Spec.pow p.base.val p.exp.val = some (p.base.val ^ p.exp.val) := by
    unfold Spec.pow
    rw [if_pos]
    rcases lt_trichotomy p.base.val 0 with h0 | h0 | h0
    · right; right; exact ⟨h0, _, val_of_isInt _ (hv' h0)⟩
    · exact absurd h0 hb
    · left; exact h0
  have hne : p.base.val ^ p.exp.val ≠ 0 := by
    rcases lt_trichotomy p.base.val 0 with h0 | h0 | h0
    · rw [val_of_isInt _ (hv' h0), Real.rpow_intCast]; exact zpow_ne_zero _ hb
    · exact absurd h0 hb
    · exact (Real.rpow_pos_of_pos h0 _).ne'
  split at h
  · simp only [Except.bind_ok, Except.pure_ok, Prod.mk.injEq, and_true] at h
    obtain ⟨x, hx, rfl⟩ := h
    unfold computeNonRational at hx
    simp only [Except.bind_ok, Except.pure_ok] at hx
    obtain ⟨y, hy, rfl⟩ := hx
    have e1 := toThe_val hy hspec
    refine ⟨⟨?_, by simp, Or.inr (by simp)⟩, ?_⟩
    · simp only [val_mul, e1]; exact mul_ne_zero hne hpf
    · simp only [value, val_mul, e1, val_one, Real.rpow_one]; ring
  · rename_i hd
    obtain ⟨pb, pe, pp⟩ := p
    cases pb with
    | dbl d => simp [isDouble] at hd
    | rat b =>
    cases pe with
    | dbl d => simp [isDouble] at hd
    | rat e =>
    have hb' : b ≠ 0 := by simpa using hb
    have he' : e ≠ 0 := by simpa using he
    have hbe : b < 0 → e.den = 1 := by
      intro h0
      have := hv' (by simpa using h0)
      simpa [isInt, isRational, denominator] using this
    unfold computeRational at h
    simp only [Except.bind_ok, Except.pure_ok, Prod.mk.injEq] at h
    obtain ⟨⟨q, g⟩, hq, s, hs, rfl, rfl⟩ := h
    have key : Fine q ∧ value q = pp.val * (b : ℝ) ^ (e : ℝ) := by
      split at hq
      · rename_i h1
        rw [lt_iff, val_zero] at h1
        exact computeNegExp_ok hq hb' hbe (by simpa using h1) hpf
      · rename_i h1
        rw [lt_iff, val_zero] at h1
        exact computePosExp_ok hq hb' hbe (lt_of_le_of_ne (by simpa using h1) (Ne.symm he')) hpf
    obtain ⟨k1, k2⟩ := adjustExpSignAndBase_ok hs key.1
    exact ⟨k1, k2.trans (key.2.trans (by simp [value]))⟩

end NumPowerSimpl

end Tsym
