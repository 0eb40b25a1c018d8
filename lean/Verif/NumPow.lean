import Verif.PrimeCollect
import Verif.PolyExpand

set_option autoImplicit false
set_option linter.unusedSectionVars false
set_option linter.unusedSimpArgs false
set_option linter.unusedVariables false

/-!
# Helper lemmas: integer powers of rational numbers

If the numbers are compared exactly and the primes are collected exactly, then the power of a rational
number with an integer exponent is the right rational number.
-/

namespace Tsym

variable {D : Type} [Flt D] [ExactLt D]

namespace Number

theorem rat_eqv (p q : ℚ) : (rat p : Number D).eqv (rat q) = decide (p = q) := by
  rw [Bool.eq_iff_iff, eqv_rat]; simp

theorem rat_isInt (n : ℤ) : (rat (n : ℚ) : Number D).isInt = true := isInt_rat_int n

theorem ofInts_eq {n d : ℤ} (hd : d ≠ 0) : (ofInts n d : Except Err (Number D)) = .ok (rat ((n : ℚ) / d)) := by
  have h : ∃ r, (ofInts n d : Except Err (Number D)) = .ok r := by unfold ofInts; rw [if_neg hd]; exact ⟨_, rfl⟩
  obtain ⟨r, h⟩ := h
  rw [h, (ofInts_ok h).2]

theorem numPower_eq {q : ℚ} (hq : q ≠ 0) {n : ℤ} (hn : (n.natAbs : ℤ) ≤ unsignedMax) :
    numPower (rat q : Number D) n = .ok (rat (q ^ n)) := by
  have hnum : (q.num : ℚ) ≠ 0 := by simpa using hq
  have h1 : ∃ r, numPower (rat q : Number D) n = .ok r := by
    unfold numPower
    rw [if_neg (by omega)]
    simp only [denominator, numerator]
    split
    · rw [ofInts_eq (pow_ne_zero _ (by simpa using hq))]; exact ⟨_, rfl⟩
    · rw [ofInts_eq (pow_ne_zero _ (by simp))]; exact ⟨_, rfl⟩
  obtain ⟨r, h1⟩ := h1
  rw [h1, (numPower_ok h1).2]

theorem denomPower_one_eq (r : Number D) : denomPower 1 r = .ok r := by
  have h : ∀ n, ∃ b, tryGetBase D n 1 = .ok b := by
    intro n
    unfold tryGetBase
    split
    · exact ⟨_, rfl⟩
    · rw [if_pos (by unfold unsignedMax; omega)]; exact ⟨_, rfl⟩
  obtain ⟨b1, h1⟩ := h r.numerator
  obtain ⟨b2, h2⟩ := h r.denominator
  simp only [denomPower, h1, h2, bind, Except.bind, if_true]
  rfl

/-- Integer powers of rational numbers. -/
theorem toTheAux_eq (k : ℕ) {q : ℚ} (hq : q ≠ 0) {n : ℤ} (hn : (n.natAbs : ℤ) ≤ unsignedMax) :
    toTheAux (k + 2) (rat q : Number D) (rat n) = .ok (rat (q ^ n)) := by
  have hpos : ∀ {q : ℚ}, 0 < q → posPower (rat q : Number D) (rat n) = .ok (rat (q ^ n)) := by
    intro q h0
    unfold posPower
    simp only [isDouble, Bool.or_self, Bool.false_eq_true, if_false, numerator, denominator, Rat.num_intCast, Rat.den_intCast,
      numPower_eq h0.ne' hn, bind, Except.bind]
    exact denomPower_one_eq _
  have hint := rat_isInt (D := D) n
  have htriv : ∀ {q : ℚ}, q ≠ 0 → trivialPower (rat q : Number D) (rat n) =
      .ok (if q = 1 ∨ n = 1 then some (rat q) else if n = 0 then some 1
        else if q = -1 then some (rat (q ^ n)) else none) := by
    intro q hq
    unfold trivialPower
    rw [neg_one_def, zero_def, one_def]
    simp only [rat_eqv, hint, hq, decide_false, Bool.false_and, Bool.false_eq_true, if_false, Bool.false_or, Bool.not_true,
      Bool.and_false, if_true, numerator, Rat.num_intCast]
    have e1 : ((n : ℚ) = 1) ↔ n = 1 := by exact_mod_cast Iff.rfl
    have e0 : ((n : ℚ) = 0) ↔ n = 0 := by exact_mod_cast Iff.rfl
    simp only [e1, e0, Bool.or_eq_true, decide_eq_true_eq]
    by_cases h1 : q = 1 ∨ n = 1
    · simp [h1]
    · by_cases h2 : n = 0
      · rw [if_neg h1, if_neg h1, if_pos h2, if_pos h2]
      · by_cases h3 : q = -1
        · subst h3
          simp only [h1, h2, if_false, if_true]
          congr 2
          by_cases he : n % 2 = 0
          · simp only [he, if_true, (Int.even_iff.2 he).neg_one_zpow]
          · have ho : Odd n := Int.odd_iff.2 (by omega)
            simp only [he, if_false, ho.neg_one_zpow]
        · simp [h1, h2, h3]
  have hstep : ∀ (k : ℕ) {q : ℚ}, 0 < q ∨ q = -1 → toTheAux (k + 1) (rat q : Number D) (rat n) = .ok (rat (q ^ n)) := by
    intro k q hq
    have h0 : q ≠ 0 := by rcases hq with h | h <;> [exact h.ne'; (rw [h]; norm_num)]
    unfold toTheAux
    simp only [htriv h0, bind, Except.bind]
    by_cases h1 : q = 1 ∨ n = 1
    · rw [if_pos h1]
      rcases h1 with rfl | rfl
      · simp; rfl
      · simp; rfl
    · rw [if_neg h1]
      by_cases h2 : n = 0
      · subst h2; simp [one_def]; rfl
      · rw [if_neg h2]
        by_cases h3 : q = -1
        · rw [if_pos h3]; rfl
        · rw [if_neg h3]
          have h4 : 0 < q := by rcases hq with h | h <;> [exact h; exact absurd h h3]
          have h5 : Number.lt 0 (rat q : Number D) = true := by rw [zero_def, lt_rat]; simpa using h4
          simp only [h5, if_true]
          exact hpos h4
  rcases lt_or_gt_of_ne hq with h | h
  · by_cases h3 : q = -1
    · exact hstep _ (.inr h3)
    · unfold toTheAux
      simp only [htriv hq, bind, Except.bind]
      by_cases h1 : n = 1
      · subst h1; simp; rfl
      · have h1' : ¬ (q = 1 ∨ n = 1) := by
          rintro (e | e)
          · rw [e] at h; linarith
          · exact h1 e
        rw [if_neg h1']
        by_cases h2 : n = 0
        · subst h2; simp [one_def]; rfl
        · rw [if_neg h2, if_neg h3]
          have h5 : Number.lt 0 (rat q : Number D) = false := by rw [zero_def, lt_rat]; simp; linarith
          have h6 : (rat q : Number D).lt 0 = true := by rw [zero_def, lt_rat]; simpa using h
          have h7 : (rat q : Number D).abs = rat (-q) := by unfold Number.abs; rw [h6]; rfl
          simp only [h5, hint, Bool.false_eq_true, if_false, if_true, neg_one_def, hstep k (.inr rfl), h7,
            hstep k (q := -q) (.inl (by linarith)), mul]
          change Except.ok _ = _
          congr 2
          rw [← mul_zpow]; congr 1; ring
  · exact hstep _ (.inl h)

theorem toThe_eq {q : ℚ} (hq : q ≠ 0) {n : ℤ} (hn : (n.natAbs : ℤ) ≤ unsignedMax) :
    toThe (rat q : Number D) (rat n) = .ok (rat (q ^ n)) := toTheAux_eq 1 hq hn

end Number

/-! ## The primes -/

/-- The number has no divisor that is a fourth power. -/
def FourFree (n : ℕ) : Prop := ∀ p : ℕ, p.Prime → ¬ p ^ 4 ∣ n

/-- A rational number for which the powers with integer exponents are computed right: the numbers that
are factorised are small, or no prime occurs four times. -/
def NumOk (max : ℤ) (q : ℚ) : Prop := max < 324 ∨ FourFree q.num.natAbs ∧ FourFree q.den

namespace PrimeFac

/-- What is needed of a list of primes. -/
def Good (l : List ℕ) : Prop := ∀ c, equalCountOf l = .ok c → 1 < c → dup c c (unique l) = l ∧ c ≤ 8

/-- The numbers up to 323, a finite table. -/
theorem good_table : (List.range 324).all (fun n => match computeAndStore n with
    | .ok l => (match equalCountOf l with
      | .ok c => decide (c ≤ 1) || (dup c c (unique l) == l && decide (c ≤ 8))
      | .error _ => true)
    | .error _ => true) = true := by decide +kernel

theorem good_small {n : ℕ} (hn : n < 324) {l : List ℕ} (h : computeAndStore n = .ok l) : Good l := by
  have h1 := List.all_eq_true.1 good_table n (List.mem_range.2 hn)
  intro c hc h2
  simp only [h, hc, Bool.or_eq_true, decide_eq_true_eq, Bool.and_eq_true, beq_iff_eq] at h1
  rcases h1 with h1 | h1
  · omega
  · exact h1

theorem equalCountOf_le {l : List ℕ} {c : ℕ} (h : equalCountOf l = .ok c) : ∃ z, c ≤ l.count z ∨ c ≤ 1 := by
  cases l with
  | nil => simp [equalCountOf] at h
  | cons x xs =>
    refine ⟨x, ?_⟩
    unfold equalCountOf at h
    simp only at h
    have hle : ((x :: xs).takeWhile (· == x)).length ≤ (x :: xs).count x := by
      have h1 : ((x :: xs).takeWhile (· == x)).count x = ((x :: xs).takeWhile (· == x)).length := by
        rw [List.count_eq_length]
        intro b hb
        have := List.all_eq_true.1 (List.all_takeWhile (p := (· == x)) (l := x :: xs)) b hb
        simpa using (beq_iff_eq.1 this).symm
      rw [← h1]
      exact (List.takeWhile_sublist _).count_le x
    split at h
    · cases h; right; omega
    · split at h
      · cases h; right; omega
      · cases h
        split
        · left; exact hle
        · right; omega

theorem good_fourFree {n : ℕ} (hn : FourFree n) {l : List ℕ} (h : computeAndStore n = .ok l) : Good l := by
  have h0 : 0 < n := by
    rcases Nat.eq_zero_or_pos n with h0 | h0
    · subst h0; exact absurd (dvd_zero _) (hn 2 Nat.prime_two)
    · exact h0
  obtain ⟨m, e1, e2, e3, e4⟩ := computeAndStore_spec n h0
  rw [h] at e1
  cases e1
  have hc : ∀ z, l.count z < 4 := by
    intro z
    by_contra hz
    have hz4 : 4 ≤ l.count z := by omega
    have hm : z ∈ l := List.count_pos_iff.1 (by omega)
    have h1 : (List.replicate 4 z).Sublist l := List.replicate_sublist_iff.2 hz4
    have h2 := h1.prod_dvd_prod
    rw [List.prod_replicate, e4] at h2
    exact hn z (e2 z hm) h2
  intro c hc1 hc2
  refine ⟨equalCountOf_exact hc1 hc2 e3 hc, ?_⟩
  obtain ⟨z, hz | hz⟩ := equalCountOf_le hc1
  · have := hc z; omega
  · omega

end PrimeFac

namespace PrimeFac

theorem extractLoop_one : ∀ (xs pre : List ℕ) (prime n : ℕ), (n = 0 → prime ∉ xs) →
    extractLoop 1 pre prime n xs = (pre.reverse ++ xs, []) := by
  intro xs
  induction xs with
  | nil => intro pre prime n _; simp [extractLoop]
  | cons x xs ih =>
    intro pre prime n h
    unfold extractLoop
    split
    · rw [ih _ _ _ (by simp)]; simp
    · rename_i hx
      have hx' : prime = x := by simpa using hx
      subst hx'
      have hn : n ≠ 0 := fun h0 => h h0 (by simp)
      rw [if_neg (by omega), ih _ _ _ (by omega)]; simp

theorem ofNumber_eq {q : ℚ} (hq : 0 < q) : ∃ A B, ofNumber (.rat q : Number D) = .ok ⟨A, B⟩ ∧
    computeAndStore q.num.natAbs = .ok A ∧ computeAndStore q.den = .ok B ∧ (∀ x ∈ A, x.Prime) ∧ (∀ x ∈ B, x.Prime) ∧
    (A.prod : ℚ) / B.prod = q := by
  have hlt : (Number.rat q : Number D).lt 0 = false := by
    rw [Number.zero_def, lt_rat]; simpa using hq.le
  have hn : 0 < q.num := Rat.num_pos.2 hq
  obtain ⟨A, hA, ha1, _, ha3⟩ := computeAndStore_spec q.num.natAbs (by omega)
  obtain ⟨B, hB, hb1, _, hb3⟩ := computeAndStore_spec q.den q.den_pos
  refine ⟨A, B, ?_, hA, hB, ha1, hb1, ?_⟩
  · unfold ofNumber
    have hnn : ¬ q.num < 0 := by omega
    have hdd : ¬ (q.den : ℤ) < 0 := by omega
    simp only [Number.isDouble, hlt, Bool.or_self, Bool.false_eq_true, if_false, Number.numerator,
      Number.denominator, computeAndStoreInt, hnn, hdd, Int.natAbs_natCast, hA, hB, bind, Except.bind, pure, Except.pure]
  · rw [ha3, hb3]
    have : ((q.num.natAbs : ℕ) : ℚ) = q.num := by
      have : (q.num.natAbs : ℤ) = q.num := by omega
      rw [← Int.cast_natCast, this]
    rw [this, Rat.num_div_den]

theorem equalCount_good {A B : List ℕ} (hA : Good A) (hB : Good B) :
    ∃ c, equalCount ⟨A, B⟩ = .ok c ∧ (1 < c → dup c c (unique A) = A ∧ dup c c (unique B) = B ∧ c ≤ 8 ∧ (A ≠ [] ∨ B ≠ [])) := by
  have hok : ∀ l : List ℕ, l ≠ [] → ∃ c, equalCountOf l = .ok c := by
    intro l hl
    match l, hl with
    | x :: xs, _ =>
      unfold equalCountOf
      simp only
      split
      · exact ⟨_, rfl⟩
      · split <;> exact ⟨_, rfl⟩
  unfold equalCount
  by_cases h1 : A = []
  · by_cases h2 : B = []
    · exact ⟨0, by simp [h1, h2], by omega⟩
    · obtain ⟨c, hc⟩ := hok B h2
      refine ⟨c, by simp [h1, h2, hc], fun h => ?_⟩
      obtain ⟨e1, e2⟩ := hB c hc h
      exact ⟨by rw [h1]; rfl, e1, e2, .inr h2⟩
  · obtain ⟨a, ha⟩ := hok A h1
    by_cases h2 : B = []
    · refine ⟨a, by simp [h1, h2, ha], fun h => ?_⟩
      obtain ⟨e1, e2⟩ := hA a ha h
      exact ⟨e1, by rw [h2]; rfl, e2, .inl h1⟩
    · obtain ⟨b, hb⟩ := hok B h2
      by_cases e : a = b
      · subst e
        refine ⟨a, by simp [h1, h2, ha, hb, bind, Except.bind, pure, Except.pure], fun h => ?_⟩
        exact ⟨(hA a ha h).1, (hB a hb h).1, (hA a ha h).2, .inl h1⟩
      · exact ⟨0, by simp [h1, h2, ha, hb, bind, Except.bind, pure, Except.pure, e], by omega⟩

theorem unique_ne_nil {l : List ℕ} (h : l ≠ []) : unique l ≠ [] := by
  match l, h with
  | x :: xs, _ =>
    induction xs generalizing x with
    | nil => simp [unique]
    | cons y ys ih =>
      rw [unique]
      split
      · exact ih y (by simp)
      · simp

end PrimeFac

namespace NumPowerSimpl

open Number

/-- The results for a power with the value `v`: the power is in the prefactor, or in the base. -/
def Out (v : ℚ) (r : Payload D) : Prop :=
  (∃ c : ℚ, c ≠ 0 ∧ (c ≠ 1 → v ≠ 1 ∧ v ≠ -1) ∧ r = ⟨.rat c, .rat 0, .rat v⟩) ∨ r = ⟨.rat v, .rat 1, .rat 1⟩

theorem pow_ne {b : ℚ} (h0 : 0 < b) (h1 : b ≠ 1) {m : ℕ} (hm : 1 ≤ m) : b ^ m ≠ 1 ∧ b ^ m ≠ -1 := by
  refine ⟨fun h => h1 ((pow_eq_one_iff_of_nonneg h0.le (by omega)).1 h), fun h => ?_⟩
  have := pow_pos h0 m
  linarith

theorem adjust_eq {b v : ℚ} (hb : 0 < b) (hb1 : b ≠ 1 ∨ v = 1) {m : ℕ} (hm : 1 ≤ m) (hm2 : (m : ℤ) ≤ unsignedMax) (hv : b ^ m = v) :
    ∃ r, adjustExpGreaterThanOne (⟨.rat b, .rat m, .rat 1⟩ : Payload D) = .ok r ∧ Out v r := by
  unfold adjustExpGreaterThanOne
  by_cases h : m = 1
  · subst h
    refine ⟨_, ?_, .inr rfl⟩
    have e1 : Number.lt 1 (.rat ((1 : ℕ) : ℚ) : Number D) = false := by rw [one_def, lt_rat]; simp
    have e2 : Number.lt (.rat ((1 : ℕ) : ℚ) : Number D) (neg 1) = false := by
      rw [neg_one_def, lt_rat]; simp
    simp only [e1, e2, Bool.or_self, Bool.false_eq_true, if_false]
    rw [← hv]; simp; rfl
  · have h1 : Number.lt 1 (.rat ((m : ℤ) : ℚ) : Number D) = true := by
      rw [one_def, lt_rat]; simp; omega
    have hd : (Number.rat ((m : ℤ) : ℚ) : Number D).denominator = 1 := by simp [denominator]
    have hn : (Number.rat ((m : ℤ) : ℚ) : Number D).numerator = m := by simp [numerator]
    have hc : ((m : ℕ) : ℚ) = ((m : ℤ) : ℚ) := by simp
    have ht := toThe_eq (D := D) hb.ne' (n := (m : ℤ)) (by simpa using hm2)
    simp only [hc, h1, Bool.true_or, if_true, hd, hn, Int.tdiv_one, ht, bind, Except.bind]
    refine ⟨_, rfl, .inl ⟨b, hb.ne', ?_, ?_⟩⟩
    · intro h2
      rw [← hv]; exact pow_ne hb h2 hm
    · simp [Number.sub, Number.add, Number.neg, Number.mul, hv]

theorem one_toThe (x : ℚ) : Number.toThe (.rat 1 : Number D) (.rat x) = .ok (.rat 1) := by
  unfold Number.toThe toTheAux trivialPower
  rw [neg_one_def, zero_def, one_def]
  simp only [rat_eqv]
  simp
  rfl

theorem defPreFac_eq {b : ℚ} {m : ℕ} (hm : 1 ≤ m) :
    defPreFacPrimesInPower (⟨.rat b, .rat m, .rat 1⟩ : Payload D) = .ok (PrimeFac.one, ⟨.rat b, .rat m, .rat 1⟩) := by
  have h1 : (Number.rat (m : ℚ) : Number D).numerator = m := by simp [numerator]
  have h2 : (Number.rat (m : ℚ) : Number D).denominator = 1 := by simp [denominator]
  have h3 : PrimeFac.ofNumber (.rat 1 : Number D) = .ok PrimeFac.one := by
    have hlt : (Number.rat 1 : Number D).lt 0 = false := by
      rw [Number.zero_def, lt_rat]; simp
    unfold PrimeFac.ofNumber
    simp only [Number.isDouble, hlt, Bool.or_self, Bool.false_eq_true, if_false, Number.numerator, Number.denominator]
    rfl
  have h4 : PrimeFac.toThe PrimeFac.one 1 = .ok PrimeFac.one := rfl
  unfold defPreFacPrimesInPower
  simp only [h1, h2, ofInts_eq (show (m : ℤ) ≠ 0 by omega), one_toThe, isDouble, Bool.false_eq_true, if_false, h3, h4, bind, Except.bind]
  rfl

theorem eval_eq {p : PrimeFac} (hp : p.Pos) : (p.eval : Except Err (Number D)) = .ok (.rat p.value) := by
  unfold PrimeFac.eval
  rw [ofInts_eq (by have := PrimeFac.prod_pos hp.2; omega)]
  unfold PrimeFac.value
  rw [Int.cast_natCast, Int.cast_natCast]

theorem extract_eq {A B : List ℕ} (hA : ∀ x ∈ A, x.Prime) (hB : ∀ x ∈ B, x.Prime) {m : ℕ} (hm : 1 ≤ m) (hm2 : (m : ℤ) < unsignedMax) :
    PrimeFac.extract ⟨A, B⟩ (.rat m : Number D) = .ok (PrimeFac.one, ⟨A, B⟩) := by
  have h1 : (Number.rat (m : ℚ) : Number D).numerator = m := by simp [numerator]
  have h2 : (Number.rat (m : ℚ) : Number D).denominator = 1 := by simp [denominator]
  have e1 := PrimeFac.extractLoop_one A [] 0 0 (fun _ h => Nat.not_prime_zero (hA 0 h))
  have e2 := PrimeFac.extractLoop_one B [] 0 0 (fun _ h => Nat.not_prime_zero (hB 0 h))
  have e3 : PrimeFac.toThe ⟨[], []⟩ (m : ℤ) = .ok PrimeFac.one := by
    unfold PrimeFac.toThe PrimeFac.duplicate
    have a1 : ¬ (m : ℤ) = 0 := by omega
    have a2 : 0 < (m : ℤ) ∧ (m : ℤ) < unsignedMax := ⟨by omega, hm2⟩
    have a3 : ¬ (m : ℤ) < 0 := by omega
    simp only [a1, a3, if_false, Int.natAbs_natCast, a2, and_self, if_true, bind, Except.bind]
    rfl
  unfold PrimeFac.extract
  simp only [h1, h2, Int.toNat_one, e1, e2, e3, bind, Except.bind]
  rfl

theorem cancel_eq {b : ℚ} (hb : 0 < b) {m : ℕ} (hm : 1 ≤ m) (hm2 : 8 * (m : ℤ) < unsignedMax)
    (hg : ∀ l, computeAndStore b.num.natAbs = .ok l ∨ computeAndStore b.den = .ok l → PrimeFac.Good l) :
    ∃ r, cancel (⟨.rat b, .rat m, .rat 1⟩ : Payload D) = .ok (r, true) ∧ Out (b ^ m) r := by
  obtain ⟨A, B, hnb, hA, hB, pA, pB, hv⟩ := PrimeFac.ofNumber_eq (D := D) hb
  have hpos : (⟨A, B⟩ : PrimeFac).Pos := ⟨fun x hx => (pA x hx).pos, fun x hx => (pB x hx).pos⟩
  obtain ⟨c, hc, hc2⟩ := PrimeFac.equalCount_good (hg A (.inl hA)) (hg B (.inr hB))
  have hghost : collectExact ⟨A, B⟩ = true := by
    unfold collectExact
    rw [hc]
    by_cases h : 1 < c
    · obtain ⟨x1, x2, _⟩ := hc2 h
      simp [x1, x2]
    · simp; omega
  have hval : (⟨A, B⟩ : PrimeFac).value = b := hv
  have hmul : PrimeFac.multiply ⟨A, B⟩ PrimeFac.one = ⟨A, B⟩ := by simp [PrimeFac.multiply, PrimeFac.one]
  have hone : (PrimeFac.one.eval : Except Err (Number D)) = .ok (.rat 1) := by
    rw [eval_eq PrimeFac.one_pos, PrimeFac.one_value]
  -- the part behind the collection
  have hfin : ∀ (R : PrimeFac) (k : ℕ), R.Pos → 1 ≤ k → (k : ℤ) ≤ unsignedMax → (R.value = 1 → k = 1) → R.value ^ k = b ^ m →
      ∃ r, (do
        let p ← primesToComponents R (⟨.rat b, .rat k, (Number.rat 1).mul (.rat 1)⟩ : Payload D)
        let p ← adjustExpGreaterThanOne p
        pure (p, true) : Except Err (Payload D × Bool)) = .ok (r, true) ∧ Out (b ^ m) r := by
    intro R k hR hk hk2 h1 hkv
    have hp : ∃ c : ℚ, 0 < c ∧ (c ≠ 1 ∨ b ^ m = 1) ∧ c ^ k = b ^ m ∧
        primesToComponents R (⟨.rat b, .rat k, (Number.rat 1).mul (.rat 1)⟩ : Payload D) = .ok ⟨.rat c, .rat k, .rat 1⟩ := by
      unfold primesToComponents
      simp only [eval_eq hR, bind, Except.bind, one_def, rat_eqv]
      by_cases e : R.value = 1
      · have hk1 := h1 e
        subst hk1
        rw [e] at hkv
        refine ⟨1, one_pos, .inr (by rw [← hkv]; simp), by rw [← hkv], ?_⟩
        simp [e, Number.mul]
        rfl
      · refine ⟨R.value, hR.value_pos, .inl e, hkv, ?_⟩
        simp [e, Number.mul]
        rfl
    obtain ⟨c, c1, c2, c3, c4⟩ := hp
    obtain ⟨r, hr, hr2⟩ := adjust_eq (D := D) c1 c2 hk hk2 c3
    refine ⟨r, ?_, hr2⟩
    simp only [c4, hr, bind, Except.bind]
    rfl
  have hnil : b = 1 → A = [] ∧ B = [] := by
    rintro rfl
    have e : computeAndStore 1 = .ok [] := rfl
    constructor
    · have : computeAndStore 1 = .ok A := hA
      rw [e] at this; cases this; rfl
    · have : computeAndStore 1 = .ok B := hB
      rw [e] at this; cases this; rfl
  have hcol : ∃ (R : PrimeFac) (k : ℕ), PrimeFac.collectToNewExp ⟨A, B⟩ (.rat m : Number D) = .ok (R, .rat k) ∧
      R.Pos ∧ 1 ≤ k ∧ (k : ℤ) ≤ unsignedMax ∧ (R.value = 1 → k = 1) ∧ R.value ^ k = b ^ m := by
    unfold PrimeFac.collectToNewExp
    simp only [hc, bind, Except.bind]
    by_cases h : 1 < c
    · obtain ⟨x1, x2, x3, x4⟩ := hc2 h
      have huv := PrimeFac.unique_value hpos c x1 x2
      refine ⟨⟨PrimeFac.unique A, PrimeFac.unique B⟩, c * m, ?_, PrimeFac.unique_pos hpos, by nlinarith, by push_cast; nlinarith, ?_, ?_⟩
      · simp [h, Number.mul]; rfl
      · intro e
        rw [e, hval] at huv
        have := hnil (by rw [huv]; simp)
        exact absurd this (by rcases x4 with h | h <;> simp [h])
      · rw [pow_mul, ← huv, hval]
    · rw [if_neg h]
      by_cases he : A = [] ∧ B = []
      · refine ⟨⟨A, B⟩, 1, ?_, hpos, le_refl _, by unfold unsignedMax; omega, fun _ => rfl, ?_⟩
        · rw [if_pos he, one_def]; simp; rfl
        · have : b = 1 := by rw [← hv, he.1, he.2]; simp
          rw [hval, this]; simp
      · refine ⟨⟨A, B⟩, m, ?_, hpos, hm, by omega, ?_, by rw [hval]⟩
        · rw [if_neg he]; rfl
        · intro e
          rw [hval] at e
          exact absurd (hnil e) he
  obtain ⟨R, k, hR, r1, r2, r3, r4, r5⟩ := hcol
  obtain ⟨r, hr, hr2⟩ := hfin R k r1 r2 r3 r4 r5
  refine ⟨r, ?_, hr2⟩
  unfold cancel
  simp only [hnb, defPreFac_eq hm, hmul, extract_eq pA pB hm (by omega : (m : ℤ) < unsignedMax), hone, hghost, hR, bind, Except.bind]
  exact hr

theorem Out.neg {v : ℚ} {r : Payload D} (h : Out v r) (s : Bool) : Out (if s then -v else v) (shiftPreFacSignBack s r) := by
  cases s with
  | false => exact h
  | true =>
    unfold shiftPreFacSignBack
    rcases h with ⟨c, c0, c1, rfl⟩ | rfl
    · refine .inl ⟨c, c0, fun h => ?_, ?_⟩
      · obtain ⟨a1, a2⟩ := c1 h
        exact ⟨fun h => a2 (by simp at h; linarith), fun h => a1 (by simp at h; linarith)⟩
      · rw [neg_one_def, one_def]
        simp [rat_eqv, Number.mul]
    · refine .inr ?_
      rw [neg_one_def, one_def]
      simp [rat_eqv, Number.mul]

theorem areValuesSmallEnough_le {max : ℤ} {b : ℚ} {e p : Number D} (h : areValuesSmallEnough max ⟨.rat b, e, p⟩ = true) :
    (b.num.natAbs : ℤ) ≤ max ∧ (b.den : ℤ) ≤ max := by
  unfold areValuesSmallEnough at h
  by_cases h1 : (b.num.natAbs : ℤ) > max ∨ (b.den : ℤ) > max
  · have h' : (if (b.num.natAbs : ℤ) > max ∨ (b.den : ℤ) > max then false else _) = true := h
    rw [if_pos h1] at h'
    cases h'
  · push Not at h1
    exact h1

theorem computeAllPos_eq {max : ℤ} {b : ℚ} (hb : 0 < b) {m : ℕ} (hm : 1 ≤ m) (hm2 : 8 * (m : ℤ) < unsignedMax) (hok : NumOk max b) (s : Bool) :
    ∃ r, computeAllPos max s (⟨.rat b, .rat m, .rat 1⟩ : Payload D) = .ok (r, true) ∧ Out (if s then -b ^ m else b ^ m) r := by
  have h : ∃ r, (if areValuesSmallEnough max (⟨.rat b, .rat m, .rat 1⟩ : Payload D) then cancel (⟨.rat b, .rat m, .rat 1⟩ : Payload D)
    else if (Number.rat (m : ℚ) : Number D).isInt then do pure (← adjustExpGreaterThanOne (⟨.rat b, .rat m, .rat 1⟩ : Payload D), true)
    else pure (⟨.rat b, .rat m, .rat 1⟩, true)) = .ok (r, true) ∧ Out (b ^ m) r := by
    by_cases hs : areValuesSmallEnough max (⟨.rat b, .rat m, .rat 1⟩ : Payload D) = true
    · rw [if_pos hs]
      refine cancel_eq hb hm hm2 ?_
      obtain ⟨l1, l2⟩ := areValuesSmallEnough_le hs
      have hn : 0 < b.num := Rat.num_pos.2 hb
      rcases hok with h | ⟨h1, h2⟩
      · rintro l (hl | hl)
        · exact PrimeFac.good_small (by omega) hl
        · exact PrimeFac.good_small (by omega) hl
      · rintro l (hl | hl)
        · exact PrimeFac.good_fourFree h1 hl
        · exact PrimeFac.good_fourFree h2 hl
    · rw [if_neg hs]
      have hi : (Number.rat (m : ℚ) : Number D).isInt = true := by
        have := rat_isInt (D := D) (m : ℤ)
        simpa using this
      rw [if_pos hi]
      obtain ⟨r, hr, hr2⟩ := adjust_eq (D := D) (v := b ^ m) hb (by
        by_cases h : b = 1
        · exact .inr (by rw [h]; simp)
        · exact .inl h) hm (by omega) rfl
      refine ⟨r, ?_, hr2⟩
      simp only [hr, bind, Except.bind]
      rfl
  obtain ⟨r, hr, hr2⟩ := h
  refine ⟨_, ?_, hr2.neg s⟩
  unfold computeAllPos
  exact Except.bind_ok.2 ⟨_, hr, rfl⟩

theorem computePosExp_eq {max : ℤ} {b : ℚ} (hb : b ≠ 0) {m : ℕ} (hm : 1 ≤ m) (hm2 : 8 * (m : ℤ) < unsignedMax) (hok : NumOk max b) :
    ∃ r, computePosExp max (⟨.rat b, .rat m, .rat 1⟩ : Payload D) = .ok (r, true) ∧ Out (b ^ m) r := by
  unfold computePosExp
  rcases lt_or_gt_of_ne hb with h | h
  · have hlt : (Number.rat b : Number D).lt 0 = true := by rw [zero_def, lt_rat]; simpa using h
    have ht : (Number.rat (-1) : Number D).toThe (.rat (m : ℚ)) = .ok (.rat ((-1) ^ m)) := by
      have := toThe_eq (D := D) (q := -1) (by norm_num) (n := (m : ℤ)) (by rw [Int.natAbs_natCast]; omega)
      simpa using this
    have hok' : NumOk max (-b) := by simpa [NumOk] using hok
    simp only [hlt, if_true, shiftNegBase, neg_one_def, ht, bind, Except.bind, Number.mul]
    change ∃ r, computePosExpPosBase max (⟨.rat (b * -1), .rat m, .rat (1 * (-1) ^ m)⟩ : Payload D) = _ ∧ _
    have eb : b * -1 = -b := by ring
    rw [eb, one_mul]
    unfold computePosExpPosBase
    rcases Nat.even_or_odd m with he | ho
    · rw [he.neg_one_pow]
      have : (Number.rat 1 : Number D).lt 0 = false := by rw [zero_def, lt_rat]; simp
      simp only [this, Bool.false_eq_true, if_false]
      have := computeAllPos_eq (D := D) (b := -b) (by linarith) hm hm2 hok' false
      simpa [he.neg_pow] using this
    · rw [ho.neg_one_pow]
      have : (Number.rat (-1) : Number D).lt 0 = true := by rw [zero_def, lt_rat]; simp
      simp only [this, if_true, neg_one_def, Number.mul]
      have := computeAllPos_eq (D := D) (b := -b) (by linarith) hm hm2 hok' true
      simpa [ho.neg_pow] using this
  · have hlt : (Number.rat b : Number D).lt 0 = false := by rw [zero_def, lt_rat]; simpa using h.le
    simp only [hlt, Bool.false_eq_true, if_false]
    change ∃ r, computePosExpPosBase max (⟨.rat b, .rat m, .rat 1⟩ : Payload D) = _ ∧ _
    unfold computePosExpPosBase
    have : (Number.rat 1 : Number D).lt 0 = false := by rw [zero_def, lt_rat]; simp
    simp only [this, Bool.false_eq_true, if_false]
    simpa using computeAllPos_eq (D := D) h hm hm2 hok false

/-- The results for integer exponents of either sign. -/
theorem compute_eq {max : ℤ} {b : ℚ} (hb : b ≠ 0) {n : ℤ} (hn : n ≠ 0) (hn2 : 8 * (n.natAbs : ℤ) < unsignedMax) (hok : NumOk max b) :
    ∃ r, compute max (⟨.rat b, .rat n, .rat 1⟩ : Payload D) = .ok (r, true) ∧ Out (b ^ n) r := by
  have hadj : ∀ {v : ℚ} {r : Payload D}, v ≠ 0 → Out v r → ∃ r', adjustExpSignAndBase r = .ok r' ∧ Out v r' := by
    intro v r hv hr
    unfold adjustExpSignAndBase
    rcases hr with ⟨c, c0, c1, rfl⟩ | rfl
    · have l : (Number.rat 0 : Number D).lt 0 = false := by rw [zero_def, lt_rat]; simp
      rw [neg_one_def, one_def]
      simp only [l, Bool.false_and, Bool.or_false, rat_eqv]
      split
      · have ht : (Number.rat c : Number D).toThe (.rat (-1)) = .ok (.rat (c ^ (-1 : ℤ))) := by
          have := toThe_eq (D := D) c0 (n := -1) (by unfold unsignedMax; omega)
          simpa using this
        simp only [ht, bind, Except.bind]
        refine ⟨_, rfl, .inl ⟨c ^ (-1 : ℤ), by simpa using c0, fun h => c1 ?_, ?_⟩⟩
        · rintro rfl; simp at h
        · simp [Number.mul]
      · exact ⟨_, rfl, .inl ⟨c, c0, c1, rfl⟩⟩
    · have l : (Number.rat 1 : Number D).lt 0 = false := by rw [zero_def, lt_rat]; simp
      rw [neg_one_def, one_def]
      simp only [l, Bool.false_and, Bool.or_false, rat_eqv]
      simp
      exact ⟨_, rfl, .inr rfl⟩
  have hinv : ∀ {v : ℚ}, v ≠ 0 → (Number.rat v : Number D).toThe (.rat (-1)) = .ok (.rat v⁻¹) := by
    intro v hv
    have := toThe_eq (D := D) hv (n := -1) (by unfold unsignedMax; omega)
    simpa using this
  have hvalid : isInputValid (⟨.rat b, .rat n, .rat 1⟩ : Payload D) = true := by
    simp [isInputValid, rat_isInt]
  unfold compute
  simp only [hvalid, Bool.not_true, Bool.false_eq_true, if_false, isDouble, Bool.or_self]
  unfold computeRational
  rcases lt_or_gt_of_ne hn with h | h
  · have hlt : (Number.rat (n : ℚ) : Number D).lt 0 = true := by rw [zero_def, lt_rat]; simpa using h
    obtain ⟨m, rfl⟩ : ∃ m : ℕ, n = -(m : ℤ) := ⟨n.natAbs, by omega⟩
    obtain ⟨r, hr, hr2⟩ := computePosExp_eq (D := D) (max := max) hb (m := m) (by omega) (by simpa using hn2) hok
    have hneg : ∃ r', computeNegExp max (⟨.rat b, .rat ((-(m : ℤ) : ℤ) : ℚ), .rat 1⟩ : Payload D) = .ok (r', true) ∧ Out ((b ^ m)⁻¹) r' := by
      unfold computeNegExp
      have e : (Number.rat ((-(m : ℤ) : ℤ) : ℚ) : Number D).mul (.rat (-1)) = .rat m := by simp [Number.mul]
      have hb' : b ^ m ≠ 0 := pow_ne_zero _ hb
      rw [neg_one_def, zero_def, one_def]
      simp only [hinv one_ne_zero, inv_one, e, hr, bind, Except.bind]
      rcases hr2 with ⟨c, c0, c1, rfl⟩ | rfl
      · simp only [hinv hb', rat_eqv, c0, decide_false, Bool.false_eq_true, if_false]
        refine ⟨_, rfl, .inl ⟨c, c0, fun h => ?_, ?_⟩⟩
        · obtain ⟨a1, a2⟩ := c1 h
          refine ⟨fun h => a1 (by simpa using h), fun h => a2 ?_⟩
          rw [inv_eq_iff_eq_inv] at h
          rw [h]; norm_num
        · simp [Number.mul]
      · simp only [hinv one_ne_zero, hinv hb', rat_eqv, hb', decide_false, Bool.false_eq_true, if_false, decide_true, if_true]
        exact ⟨_, rfl, .inr (by simp)⟩
    obtain ⟨r', hr', hr2'⟩ := hneg
    have hv : (b ^ m)⁻¹ = b ^ (-(m : ℤ)) := by simp
    rw [hv] at hr2'
    obtain ⟨r'', hr'', hr2''⟩ := hadj (zpow_ne_zero _ hb) hr2'
    refine ⟨r'', ?_, hr2''⟩
    simp only [hlt, if_true, hr', hr'', bind, Except.bind]
    rfl
  · have hlt : (Number.rat (n : ℚ) : Number D).lt 0 = false := by rw [zero_def, lt_rat]; simp; omega
    obtain ⟨m, rfl⟩ : ∃ m : ℕ, n = (m : ℤ) := ⟨n.natAbs, by omega⟩
    obtain ⟨r, hr, hr2⟩ := computePosExp_eq (D := D) (max := max) hb (m := m) (by omega) (by simpa using hn2) hok
    obtain ⟨r', hr', hr2'⟩ := hadj (pow_ne_zero _ hb) hr2
    refine ⟨r', ?_, by simpa using hr2'⟩
    simp only [hlt, Bool.false_eq_true, if_false]
    rw [Int.cast_natCast]
    simp only [hr, hr', bind, Except.bind]
    rfl

end NumPowerSimpl

end Tsym
