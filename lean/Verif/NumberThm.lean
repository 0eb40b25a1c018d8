import Verif.Lawful

/-!
# Helper lemmas about Number::toThe
-/

set_option linter.unusedSectionVars false

namespace Tsym.Number

open Tsym

section exact

variable {D : Type} [Flt D]

theorem eqv_rat (p q : ℚ) : (rat p : Number D).eqv (rat q) = true ↔ p = q := by
  simp only [eqv, Bool.and_eq_true, beq_iff_eq]
  exact ⟨fun h => Rat.ext h.1 h.2, fun h => by simp [h]⟩

theorem zero_def : (0 : Number D) = rat 0 := by
  show rat (Nat.cast 0) = rat 0; simp
theorem one_def : (1 : Number D) = rat 1 := by
  show rat (Nat.cast 1) = rat 1; simp
theorem neg_one_def : (neg 1 : Number D) = rat (-1) := by
  rw [one_def]; rfl

theorem isInt_rat_int (n : ℤ) : (rat (n : ℚ) : Number D).isInt = true := by
  simp [isInt, isRational, denominator]

theorem ofInts_ok {n d : ℤ} {r : Number D} (h : ofInts n d = .ok r) :
    d ≠ 0 ∧ r = rat ((n : ℚ) / d) := by
  unfold ofInts at h
  split at h
  · cases h
  · rename_i hd
    refine ⟨hd, ?_⟩
    simp only [Except.ok.injEq] at h
    rw [← h]
    congr 1
    rcases lt_or_gt_of_ne hd with h0 | h0
    · have : (d.natAbs : ℤ) = -d := by omega
      simp only [h0, if_true, this]
      push_cast
      rw [neg_div_neg_eq]
    · have : (d.natAbs : ℤ) = d := by omega
      simp only [not_lt.mpr h0.le, if_false, this]

theorem numPower_ok {q : ℚ} {n : ℤ} {r : Number D} (h : numPower (rat q) n = .ok r) :
    (n < 0 → q ≠ 0) ∧ r = rat (q ^ n) := by
  unfold numPower at h
  split at h
  · cases h
  · simp only [denominator, numerator] at h
    split at h
    · rename_i hn
      obtain ⟨h1, h2⟩ := ofInts_ok h
      refine ⟨fun _ hq => ?_, ?_⟩
      · subst hq
        apply h1
        simp only [Rat.num_zero]
        exact zero_pow (by omega)
      · rw [h2]
        congr 1
        conv_rhs => rw [← Rat.num_div_den q]
        have : n = -(n.natAbs : ℤ) := by omega
        conv_rhs => rw [this, zpow_neg, zpow_natCast, div_pow, inv_div]
        push_cast; rfl
    · rename_i hn
      obtain ⟨h1, h2⟩ := ofInts_ok h
      refine ⟨fun h => absurd h hn, ?_⟩
      rw [h2]
      congr 1
      conv_rhs => rw [← Rat.num_div_den q]
      have : n = (n.natAbs : ℤ) := by omega
      conv_rhs => rw [this, zpow_natCast, div_pow]
      push_cast; rfl

theorem tryGetBase_ok {n d b : ℤ} (h : tryGetBase D n d = .ok b) (hb : b ≠ 0) :
    0 < d ∧ 0 < b ∧ b ^ d.toNat = n := by
  unfold tryGetBase at h
  split at h
  · simp only [Except.ok.injEq] at h; exact absurd h.symm hb
  · split at h
    · rename_i hd
      refine ⟨hd.1, ?_⟩
      split at h
      · rename_i h1; simp only [Except.ok.injEq] at h; rw [← h]; exact ⟨by omega, h1⟩
      · simp only [Except.ok.injEq] at h; exact absurd h.symm hb
    · cases h

theorem denomPower_one {r s : Number D} (h : denomPower 1 r = .ok s) : s = r := by
  unfold denomPower at h
  simp only [bind, Except.bind] at h
  split at h
  · cases h
  · split at h
    · cases h
    · simp [pure, Except.pure] at h; exact h.symm

/-- Result of a rational power of a rational: either exact or what the floating point unit gave. -/
theorem denomPower_ok {d : ℤ} {q : ℚ} {s : Number D}
    (h : denomPower d (rat q) = .ok s) :
    (d = 1 ∧ s = rat q) ∨
    (s = ofDouble (Flt.pow (Flt.ofRat q) (Flt.recip d))) ∨
    (0 < d ∧ ∃ p : ℚ, s = rat p ∧ 0 < p ∧ p ^ d.toNat = q) := by
  unfold denomPower at h
  simp only [bind, Except.bind] at h
  split at h
  · cases h
  · rename_i a ha
    split at h
    · cases h
    · rename_i b hb
      split at h
      · rename_i hd; left; simp [pure, Except.pure] at h; exact ⟨hd, h.symm⟩
      · split at h
        · right; left; simp [pure, Except.pure, toDouble] at h; exact h.symm
        · rename_i hab
          push Not at hab
          right; right
          obtain ⟨h1, ha0, h2⟩ := tryGetBase_ok ha hab.1
          obtain ⟨_, hb0, h4⟩ := tryGetBase_ok hb hab.2
          obtain ⟨_, h6⟩ := ofInts_ok h
          have ha0' : (0 : ℚ) < a := by exact_mod_cast ha0
          have hb0' : (0 : ℚ) < b := by exact_mod_cast hb0
          refine ⟨h1, _, h6, div_pos ha0' hb0', ?_⟩
          rw [div_pow]
          simp only [numerator, denominator] at h2 h4
          have e1 : ((a : ℚ) ^ d.toNat) = q.num := by exact_mod_cast h2
          have e2 : ((b : ℚ) ^ d.toNat) = q.den := by exact_mod_cast h4
          rw [e1, e2, Rat.num_div_den]

theorem trivialPower_int {q : ℚ} {n : ℤ} {r : Number D}
    (h : trivialPower (rat q) (rat n) = .ok (some r)) (h0 : ¬ (q = 0 ∧ n = 0)) :
    (n < 0 → q ≠ 0) ∧ r = rat (q ^ n) := by
  unfold trivialPower at h
  rw [neg_one_def] at h
  simp only [zero_def, one_def, numerator, Rat.num_intCast,
    isInt_rat_int, Bool.not_true, Bool.and_false, if_true] at h
  by_cases hq : q = 0
  · subst hq
    have e0 : (rat 0 : Number D).eqv (rat 0) = true := (eqv_rat 0 0).2 rfl
    by_cases hn : n < 0
    · simp [e0, hn] at h
    · simp only [e0, hn, decide_false, Bool.and_false, Bool.true_or, if_true] at h
      refine ⟨fun h => absurd h hn, ?_⟩
      simp at h
      rw [← h, zero_zpow]
      intro h; exact h0 ⟨rfl, h⟩
  · have e0 : (rat q : Number D).eqv (rat 0) = false := by
      rw [← Bool.not_eq_true, eqv_rat]; exact hq
    refine ⟨fun _ => hq, ?_⟩
    simp only [e0, Bool.false_and, Bool.false_or] at h
    split at h
    · cases h
    · split at h
      · rename_i h1
        simp only [Bool.or_eq_true, eqv_rat] at h1
        simp at h
        rw [← h]
        rcases h1 with h1 | h1
        · rw [h1, one_zpow]
        · have : n = 1 := by exact_mod_cast h1
          rw [this, zpow_one]
      · split at h
        · rename_i h1
          rw [eqv_rat] at h1
          have : n = 0 := by exact_mod_cast h1
          simp at h
          rw [← h, this, zpow_zero]
        · split at h
          · rename_i h1
            rw [eqv_rat] at h1
            subst h1
            simp only [Except.ok.injEq, Option.some.injEq] at h
            rw [← h]
            split
            · rename_i h2
              have : Even n := Int.even_iff.2 h2
              rw [this.neg_one_zpow]
            · rename_i h2
              have : Odd n := Int.odd_iff.2 (by omega)
              rw [this.neg_one_zpow]
          · simp at h

theorem posPower_int {q : ℚ} {n : ℤ} {r : Number D}
    (h : posPower (rat q) (rat n) = .ok r) : (n < 0 → q ≠ 0) ∧ r = rat (q ^ n) := by
  unfold posPower at h
  simp only [isDouble, Bool.or_false, Bool.false_eq_true, if_false, numerator, denominator,
    Rat.num_intCast, Rat.den_intCast, Nat.cast_one] at h
  simp only [bind, Except.bind] at h
  split at h
  · cases h
  · rename_i s hs
    rw [denomPower_one h]
    exact numPower_ok hs

theorem toTheAux_loop (k : Nat) {q : ℚ} {n : ℤ} {r : Number D}
    (h1 : trivialPower (rat q) (rat n) = .ok (none : Option (Number D)))
    (h2 : Number.lt 0 (rat q : Number D) = false) (h3 : Number.lt (rat q : Number D) 0 = false) :
    toTheAux k (rat q) (rat n) ≠ .ok r := by
  induction k generalizing r with
  | zero => simp [toTheAux]
  | succ k ih =>
    intro h
    unfold toTheAux at h
    simp only [bind, Except.bind, h1, h2, isInt_rat_int, abs, h3, Bool.false_eq_true, if_false,
      if_true] at h
    split at h
    · cases h
    · split at h
      · cases h
      · rename_i s hs
        exact ih hs

theorem toTheAux_int (k : Nat) : ∀ {q : ℚ} {n : ℤ} {r : Number D},
    toTheAux k (rat q) (rat n) = .ok r → ¬ (q = 0 ∧ n = 0) →
    (n < 0 → q ≠ 0) ∧ r = rat (q ^ n) := by
  induction k with
  | zero => intro q n r h; simp [toTheAux] at h
  | succ k ih =>
    intro q n r h h0
    unfold toTheAux at h
    simp only [bind, Except.bind] at h
    split at h
    · cases h
    · rename_i t ht
      cases t with
      | some s =>
        simp [pure, Except.pure] at h
        subst h
        exact trivialPower_int ht h0
      | none =>
        simp only at h
        split at h
        · exact posPower_int h
        · rename_i hlt
          simp only [isInt_rat_int, if_true] at h
          split at h
          · cases h
          · rename_i p hp
            split at h
            · cases h
            · rename_i s hs
              simp only [pure, Except.pure, Except.ok.injEq] at h
              rw [neg_one_def] at hp
              obtain ⟨_, hp⟩ := ih hp (by simp)
              unfold abs at hs
              split at hs
              · simp only [neg] at hs
                obtain ⟨h1, h2⟩ := ih hs (by simpa using h0)
                refine ⟨fun hn => by simpa using h1 hn, ?_⟩
                rw [← h, h2, hp]
                simp only [mul]
                rw [← mul_zpow]
                simp
              · rename_i h3
                exact absurd hs (toTheAux_loop k ht (by simpa using hlt) (by simpa using h3))

/-- For every behaviour of the floating point unit, an integer power of a rational that is returned
is exact. -/
theorem toThe_int {q : ℚ} {n : ℤ} {r : Number D} (h : toThe (rat q) (rat n) = .ok r)
    (h0 : ¬ (q = 0 ∧ n = 0)) : (n < 0 → q ≠ 0) ∧ r = rat (q ^ n) := toTheAux_int 3 h h0

end exact
section lawful
variable {D : Type} [Flt D] [LawfulFlt D]

theorem spec_pow_some {x y z : ℝ} (h : Spec.pow x y = some z) :
    z = x ^ y ∧ (0 < x ∨ (x = 0 ∧ 0 < y) ∨ (x < 0 ∧ ∃ n : ℤ, y = n)) := by
  unfold Spec.pow at h
  split at h
  · rename_i hc; simp at h; exact ⟨h.symm, hc⟩
  · cases h

theorem trivialPower_val {b ex r : Number D} {z : ℝ}
    (h : trivialPower b ex = .ok (some r)) (hz : Spec.pow b.val ex.val = some z) : r.val = z := by
  obtain ⟨rfl, hc⟩ := spec_pow_some hz
  unfold trivialPower at h
  split at h
  · cases h
  · split at h
    · rename_i h1
      simp only [Bool.or_eq_true, eqv_iff, val_zero, val_one] at h1
      simp at h
      subst h
      rcases h1 with (h1 | h1) | h1
      · rw [h1] at hc ⊢
        simp at hc
        rw [Real.zero_rpow (ne_of_gt hc)]
      · rw [h1, Real.one_rpow]
      · rw [h1, Real.rpow_one]
    · split at h
      · rename_i h1
        rw [eqv_iff, val_zero] at h1
        simp at h
        subst h
        rw [h1, Real.rpow_zero, val_one]
      · split at h
        · cases h
        · split at h
          · rename_i h1
            rw [eqv_iff, val_neg, val_one] at h1
            split at h
            · rename_i h2
              have e1 := val_of_isInt ex h2
              simp at h
              rw [← h, h1, e1, Real.rpow_intCast]
              split
              · rename_i h3
                rw [(Int.even_iff.2 h3 : Even ex.numerator).neg_one_zpow]; simp
              · rename_i h3
                rw [(Int.odd_iff.2 (by omega) : Odd ex.numerator).neg_one_zpow]; simp
            · cases h
          · simp at h

theorem posPower_val {b ex r : Number D} (h : posPower b ex = .ok r) (hb : 0 < b.val) :
    r.val = b.val ^ ex.val := by
  unfold posPower at h
  split at h
  · simp at h
    rw [← h, val_ofDouble, LawfulFlt.pow _ _ (by simpa using hb)]; simp
  · rename_i hd
    cases b with
    | dbl d => simp [isDouble] at hd
    | rat q =>
    cases ex with
    | dbl d => simp [isDouble] at hd
    | rat p =>
    simp only [numerator, denominator] at h
    simp only [bind, Except.bind] at h
    split at h
    · cases h
    · rename_i s hs
      obtain ⟨_, rfl⟩ := numPower_ok hs
      have hq : 0 < q := by simpa using hb
      have hqr : (0 : ℝ) < q := by exact_mod_cast hq
      have hqn : (0 : ℚ) < q ^ p.num := zpow_pos hq _
      have hp : (p : ℝ) = (p.num : ℝ) * (1 / (p.den : ℝ)) := by
        conv_lhs => rw [← Rat.num_div_den p]
        push_cast; ring
      have hden : (0 : ℤ) < (p.den : ℤ) := by exact_mod_cast p.den_pos
      simp only [val_rat]
      rw [hp, Real.rpow_mul hqr.le, Real.rpow_intCast]
      rcases denomPower_ok h with ⟨h1, rfl⟩ | rfl | ⟨_, c, rfl, hc0, h2⟩
      · have : (p.den : ℝ) = 1 := by exact_mod_cast h1
        simp [this]
      · rw [val_ofDouble, LawfulFlt.pow _ _ (by rw [LawfulFlt.ofRat]; exact_mod_cast hqn),
          LawfulFlt.ofRat, LawfulFlt.recip _ hden]
        push_cast; rfl
      · have hc0' : (0 : ℝ) < c := by exact_mod_cast hc0
        have h2' : (c : ℝ) ^ p.den = (q : ℝ) ^ p.num := by
          simp only [Int.toNat_natCast] at h2
          exact_mod_cast h2
        rw [← h2', val_rat, one_div, Real.pow_rpow_inv_natCast hc0'.le p.den_nz]

theorem toTheAux_val (k : Nat) : ∀ {b ex r : Number D} {z : ℝ},
    toTheAux k b ex = .ok r → Spec.pow b.val ex.val = some z → r.val = z := by
  induction k with
  | zero => intro b ex r z h; simp [toTheAux] at h
  | succ k ih =>
    intro b ex r z h hz
    unfold toTheAux at h
    simp only [bind, Except.bind] at h
    split at h
    · cases h
    · rename_i t ht
      cases t with
      | some s =>
        simp [pure, Except.pure] at h
        subst h
        exact trivialPower_val ht hz
      | none =>
        obtain ⟨rfl, hc⟩ := spec_pow_some hz
        simp only at h
        split at h
        · rename_i h0
          rw [lt_iff, val_zero] at h0
          exact posPower_val h h0
        · rename_i h0
          rw [lt_iff, val_zero] at h0
          split at h
          · rename_i hi
            split at h
            · cases h
            · rename_i p hp
              split at h
              · cases h
              · rename_i s hs
                simp only [pure, Except.pure, Except.ok.injEq] at h
                have e1 := val_of_isInt ex hi
                have hbne : b.val ≠ 0 := by
                  intro hb
                  rw [hb] at hc
                  simp at hc
                  unfold trivialPower at ht
                  have : b.eqv 0 = true := by rw [eqv_iff, val_zero, hb]
                  simp only [this, Bool.true_and, Bool.true_or, if_true] at ht
                  split at ht <;> simp at ht
                have hbn : b.val < 0 := lt_of_le_of_ne (not_lt.1 h0) hbne
                have hs' := ih (z := |b.val| ^ ex.val) hs (by
                  unfold Spec.pow; rw [val_abs, if_pos]; left; exact abs_pos.2 hbne)
                have hp' := ih (z := (-1 : ℝ) ^ ex.val) hp (by
                  unfold Spec.pow; rw [val_neg, val_one, if_pos]; right; right
                  exact ⟨by norm_num, _, e1⟩)
                rw [← h, val_mul, hs', hp', e1, Real.rpow_intCast, Real.rpow_intCast,
                  Real.rpow_intCast, ← mul_zpow, abs_of_neg hbn]
                simp
          · cases h

/-- With an exact floating point unit a power that exists and is returned has the right value. -/
theorem toThe_val {b ex r : Number D} {z : ℝ} (h : toThe b ex = .ok r)
    (hz : Spec.pow b.val ex.val = some z) : r.val = z := toTheAux_val 3 h hz

end lawful
end Tsym.Number
