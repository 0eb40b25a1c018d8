import Verif.PrimeCollect
import Verif.Hyb
import Verif.Krfl
import Mathlib.Data.Nat.Factors

/-!
# Properties of numbers: C19, C20, C21, C22
-/

namespace Tsym

open Number

/-! ## C20 -/

/-- C20. For every positive integer the trial division ends and gives the list of its prime factors
in ascending order (Mathlib's `Nat.primeFactorsList`). -/
theorem C20_prime_factorisation (n : ℕ) (hn : 0 < n) :
    computeAndStore n = .ok n.primeFactorsList := by
  obtain ⟨l, h1, h2, h3, h4⟩ := computeAndStore_spec n hn
  rw [h1]
  congr 1
  have hp : l.Perm n.primeFactorsList := Nat.primeFactorsList_unique h4 h2
  exact hp.eq_of_pairwise (fun _ _ _ _ h h' => le_antisymm h h') h3
    (Nat.primeFactorsList_sorted n).pairwise

example : (0 : ℕ) < 2 ^ 3 * 3 * 101 ^ 2 := by norm_num
example : computeAndStore (2 ^ 3 * 3 * 17) = .ok [2, 2, 2, 3, 17] := by decide +kernel

/-- Zero has no factorisation; the loop of the code does not end for it. -/
theorem C20_zero : computeAndStore 0 = .error .loop := rfl

/-! ## C21 -/

section any
variable {D : Type} [Flt D]

/-- C21, construction from two integers: the fraction in lowest terms with positive denominator, and
an exception for a zero denominator. -/
theorem C21_fraction (n d : ℤ) :
    (d = 0 → (ofInts n d : Except Err (Number D)) = .error .badRational) ∧
    (d ≠ 0 → ∃ r : Number D, ofInts n d = .ok r ∧ r.isRational = true ∧ 0 < r.denominator ∧
      r.numerator * d = n * r.denominator ∧ Int.gcd r.numerator r.denominator = 1) := by
  constructor
  · intro h; simp [ofInts, h]
  · intro h
    have : (ofInts n d : Except Err (Number D)) =
        .ok (rat ((if d < 0 then (-n : ℤ) else n : ℤ) / (d.natAbs : ℤ))) := by
      simp [ofInts, h]
    refine ⟨_, this, rfl, ?_, ?_, ?_⟩
    · simp only [denominator]
      exact_mod_cast Rat.den_pos _
    · obtain ⟨_, e⟩ := ofInts_ok this
      rw [e]
      simp only [numerator, denominator]
      have h1 : ((n : ℚ) / d).num * (d : ℚ) = n * ((n : ℚ) / d).den := by
        have hd : (d : ℚ) ≠ 0 := by exact_mod_cast h
        have h2 := Rat.num_div_den ((n : ℚ) / d)
        have h3 : (((n : ℚ) / d).den : ℚ) ≠ 0 := by exact_mod_cast Rat.den_nz _
        rw [div_eq_div_iff h3 hd] at h2
        exact h2
      exact_mod_cast h1
    · simp only [numerator, denominator]
      exact Rat.reduced _

example : ((-6 : ℤ) ≠ 0) ∧ (ofInts 4 (-6) : Except Err (Number Hyb)) = .ok (rat (-2/3)) :=
  ⟨by norm_num, by krfl⟩

/-- C21, arithmetic: sums, differences, products, negatives and quotients of rationals are the exact
ones, whatever the floating point unit does. -/
theorem C21_arithmetic (a b : ℚ) :
    (rat a : Number D).add (rat b) = rat (a + b) ∧ (rat a : Number D).sub (rat b) = rat (a - b) ∧
    (rat a : Number D).mul (rat b) = rat (a * b) ∧ (rat a : Number D).neg = rat (-a) ∧
    ∀ r : Number D, (rat a : Number D).div (rat b) = .ok r → b ≠ 0 ∧ r = rat (a / b) := by
  refine ⟨rfl, ?_, rfl, rfl, ?_⟩
  · simp [sub, add, neg, sub_eq_add_neg]
  · intro r h
    unfold div at h
    rw [neg_one_def] at h
    simp only [Except.bind_ok, Except.pure_ok] at h
    obtain ⟨x, hx, rfl⟩ := h
    have := toThe_int (n := -1) (by simpa using hx) (by simp)
    refine ⟨this.1 (by norm_num), ?_⟩
    rw [this.2]
    simp [mul, div_eq_mul_inv]

example : (rat (7/3) : Number Hyb).div (rat (-5/2)) = .ok (rat (-14/15)) := by krfl

/-- C21, integer powers of rationals are the exact ones, whatever the floating point unit does; zero
to a negative power is not computed. -/
theorem C21_integer_power {q : ℚ} {n : ℤ} {r : Number D} (h : toThe (rat q) (rat n) = .ok r)
    (h0 : ¬ (q = 0 ∧ n = 0)) : (n < 0 → q ≠ 0) ∧ r = rat (q ^ n) := toThe_int h h0

example : toThe (rat (-2/3) : Number Hyb) (rat (-3 : ℤ)) = .ok (rat (-27/8)) ∧
    ¬ ((-2/3 : ℚ) = 0 ∧ (-3 : ℤ) = 0) := ⟨by krfl, by norm_num⟩

/-- C21, zero to a negative rational power and division by zero are reported, for every numerator
(rational or double) and every floating point unit. -/
theorem C21_zero_reported (a : Number D) (e : ℚ) (he : e < 0) :
    toThe (rat 0 : Number D) (rat e) = .error .overflow ∧
    a.div (rat 0) = .error .overflow := by
  have key : ∀ e : ℚ, e < 0 → toThe (rat 0 : Number D) (rat e) = .error .overflow := by
    intro e he
    unfold toThe toTheAux trivialPower
    have h1 : (rat 0 : Number D).eqv 0 = true := by rw [zero_def, eqv_rat]
    have h2 : e.num < 0 := Rat.num_neg.2 he
    simp [h1, numerator, h2, bind, Except.bind]
  refine ⟨key e he, ?_⟩
  unfold div
  rw [neg_one_def, key (-1) (by norm_num)]
  rfl

example : (-1/2 : ℚ) < 0 := by norm_num

/-- The conversion to double keeps the sign of rationals. This holds for IEEE doubles as long as
the rational is neither too small nor a quotient of integers that are too large. -/
def SignOk (D : Type) [Flt D] (q : ℚ) : Prop :=
  (Flt.lt (Flt.ofRat 0 : D) (Flt.ofRat q) = true ↔ 0 < q) ∧
  (Flt.lt (Flt.ofRat q : D) (Flt.ofRat 0) = true ↔ q < 0)

/-- C21, integer powers are computed: there is a result for all exponents that fit into an
`unsigned`, if the signs of the base and its negative are seen. -/
theorem C21_integer_power_total {q : ℚ} {n : ℤ} (hs : SignOk D q) (hs' : SignOk D (-q))
    (hn : (n.natAbs : ℤ) ≤ unsignedMax) (h0 : 0 ≤ n ∨ q ≠ 0) :
    ∃ r : Number D, toThe (rat q : Number D) (rat n) = .ok r := by
  have lt0 : ∀ x : ℚ, Number.lt 0 (rat x : Number D) = Flt.lt (Flt.ofRat 0 : D) (Flt.ofRat x) := by
    intro x; rw [zero_def]; rfl
  have lt1 : ∀ x : ℚ, Number.lt (rat x : Number D) 0 = Flt.lt (Flt.ofRat x : D) (Flt.ofRat 0) := by
    intro x; rw [zero_def]; rfl
  have triv : ∀ x : ℚ, 0 ≤ n ∨ x ≠ 0 → ∃ o, trivialPower (rat x : Number D) (rat n) = .ok o ∧
      (x = 0 → o ≠ none) ∧ (x = -1 → o ≠ none) := by
    intro x hx
    unfold trivialPower
    rw [neg_one_def]
    simp only [zero_def, one_def, numerator, Rat.num_intCast, isInt_rat_int, Bool.not_true,
      Bool.and_false, if_true, Bool.and_eq_true, Bool.or_eq_true, eqv_rat]
    by_cases h1 : x = 0
    · subst h1
      have : ¬ n < 0 := by
        rcases hx with h | h
        · omega
        · exact absurd rfl h
      refine ⟨some (rat 0), by simp [this], by simp, by simp⟩
    · by_cases h2 : x = -1
      · subst h2
        by_cases h3 : (n : ℚ) = 1
        · exact ⟨some (rat (-1)), by simp [h3], by simp, by simp⟩
        · by_cases h4 : (n : ℚ) = 0
          · refine ⟨some (rat 1), ?_, by simp, by simp⟩
            rw [if_neg (by norm_num), if_neg (by rw [h4]; norm_num), if_pos h4]
          · refine ⟨some (if n % 2 = 0 then rat 1 else rat (-1)), ?_, by simp, by simp⟩
            rw [if_neg (by norm_num), if_neg (by push Not; exact ⟨⟨by norm_num, by norm_num⟩, h3⟩),
              if_neg h4]
            simp
      · rw [if_neg (by tauto)]
        split
        · exact ⟨_, rfl, by simp, by simp⟩
        · split
          · exact ⟨_, rfl, by simp, by simp⟩
          · simp [h2, h1]
  have pos : ∀ x : ℚ, 0 < x → ∃ r, posPower (rat x : Number D) (rat n) = .ok r := by
    intro x hx
    unfold posPower
    have hu : ¬ unsignedMax < (n.natAbs : ℤ) := by omega
    have ex : ∀ a b : ℤ, b ≠ 0 → ∃ r : Number D, ofInts a b = .ok r := by
      intro a b hb; exact ⟨_, if_neg hb⟩
    have np : ∃ r : Number D, numPower (rat x) n = .ok r := by
      unfold numPower
      rw [if_neg hu]
      simp only
      split
      · exact ex _ _ (pow_ne_zero _ (by simpa [numerator] using hx.ne'))
      · exact ex _ _ (pow_ne_zero _ (by simp [denominator]))
    have tg : ∀ a : ℤ, ∃ r, tryGetBase D a 1 = .ok r := by
      intro a
      unfold tryGetBase
      split
      · exact ⟨_, rfl⟩
      · simp [unsignedMax]
    obtain ⟨r, hr⟩ := np
    obtain ⟨s, hs⟩ := tg r.numerator
    obtain ⟨t, ht⟩ := tg r.denominator
    refine ⟨r, ?_⟩
    simp [isDouble, numerator, hr, bind, Except.bind, denominator, denomPower] at hs ht ⊢
    simp [hs, ht, pure, Except.pure]
  have main : ∀ (k : ℕ) (x : ℚ), 0 ≤ n ∨ x ≠ 0 → 0 < x ∨ x = -1 → SignOk D x →
      ∃ r, toTheAux (k + 1) (rat x : Number D) (rat n) = .ok r := by
    intro k x hx hx' hsx
    obtain ⟨o, ho, ho0, ho1⟩ := triv x hx
    unfold toTheAux
    rw [ho]
    cases o with
    | some r => exact ⟨r, rfl⟩
    | none =>
      rcases hx' with hx' | hx'
      · have := hsx.1.2 hx'
        rw [← lt0] at this
        simp only [bind, Except.bind, this, if_true]
        exact pos x hx'
      · exact absurd rfl (ho1 hx')
  obtain ⟨o, ho, ho0, ho1⟩ := triv q h0
  unfold toThe toTheAux
  rw [ho]
  cases o with
  | some r => exact ⟨r, rfl⟩
  | none =>
    have hq0 : q ≠ 0 := fun h => ho0 h rfl
    simp only [bind, Except.bind]
    rcases lt_or_gt_of_ne hq0 with hq | hq
    · have h1 : Number.lt 0 (rat q : Number D) = false := by
        rw [lt0, ← Bool.not_eq_true, hs.1]; exact not_lt.2 hq.le
      have h2 : Number.lt (rat q : Number D) 0 = true := by rw [lt1, hs.2]; exact hq
      simp only [h1, Bool.false_eq_true, if_false, isInt_rat_int, if_true]
      obtain ⟨a, ha⟩ : ∃ a, toTheAux 2 (neg 1 : Number D) (rat n) = .ok a := by
        rw [neg_one_def]
        obtain ⟨o, ho, _, ho1⟩ := triv (-1) (Or.inr (by norm_num))
        cases o with
        | none => exact absurd rfl (ho1 rfl)
        | some r => exact ⟨r, by unfold toTheAux; rw [ho]; rfl⟩
      rw [ha]
      have hab : (rat q : Number D).abs = rat (-q) := by
        unfold Number.abs; rw [h2]; rfl
      rw [hab]
      obtain ⟨b, hb⟩ := main 1 (-q) (Or.inr (by simpa using hq0)) (Or.inl (by linarith)) hs'
      rw [hb]
      exact ⟨_, rfl⟩
    · have h1 : Number.lt 0 (rat q : Number D) = true := by rw [lt0, hs.1]; exact hq
      simp only [h1, if_true]
      exact pos q hq

/-- Every lawful floating point unit sees the signs of all rationals. -/
theorem signOk_of_lawful [LawfulFlt D] (q : ℚ) : SignOk D q := by
  constructor <;> rw [LawfulFlt.lt, LawfulFlt.ofRat, LawfulFlt.ofRat] <;> simp

example : SignOk Hyb (-2/3) ∧ SignOk Hyb (-(-2/3)) ∧ (((-5 : ℤ).natAbs : ℤ) ≤ unsignedMax) ∧
    ((0 : ℤ) ≤ -5 ∨ (-2/3 : ℚ) ≠ 0) :=
  ⟨signOk_of_lawful _, signOk_of_lawful _, by norm_num [unsignedMax], by norm_num⟩

/-- C21, a case where no result is computed: if the conversion to double of a rational is neither
below nor above zero (underflow: 10^-400; or NaN: quotient of integers too large for a double), then
its integer powers, other than trivial ones, make `Number::toThe` call itself for ever. -/
theorem C21_power_loops {q : ℚ} {n : ℤ} (h1 : Flt.lt (Flt.ofRat 0 : D) (Flt.ofRat q) = false)
    (h2 : Flt.lt (Flt.ofRat q : D) (Flt.ofRat 0) = false) (hq : q ≠ 0 ∧ q ≠ 1 ∧ q ≠ -1)
    (hn : n ≠ 0 ∧ n ≠ 1) : ∀ k, toTheAux (k + 1) (rat q : Number D) (rat n) = .error .loop := by
  have h1' : Number.lt 0 (rat q : Number D) = false := by rw [zero_def]; exact h1
  have h2' : Number.lt (rat q : Number D) 0 = false := by rw [zero_def]; exact h2
  have ht : trivialPower (rat q : Number D) (rat n) = .ok none := by
    unfold trivialPower
    rw [neg_one_def]
    simp only [zero_def, one_def, numerator, Rat.num_intCast, isInt_rat_int, Bool.not_true,
      Bool.and_false, if_true, Bool.and_eq_true, Bool.or_eq_true, eqv_rat]
    have : (n : ℚ) ≠ 1 := by exact_mod_cast hn.2
    have : (n : ℚ) ≠ 0 := by exact_mod_cast hn.1
    simp [*]
  have hm : ∀ k, ∃ a, toTheAux (k + 1) (neg 1 : Number D) (rat n) = .ok a := by
    intro k
    rw [neg_one_def]
    have : ∃ a, trivialPower (rat (-1) : Number D) (rat n) = .ok (some a) := by
      unfold trivialPower
      rw [neg_one_def]
      simp only [zero_def, one_def, numerator, Rat.num_intCast, isInt_rat_int, Bool.not_true,
        Bool.and_false, if_true, Bool.and_eq_true, Bool.or_eq_true, eqv_rat]
      have e1 : (n : ℚ) ≠ 1 := by exact_mod_cast hn.2
      have e2 : (n : ℚ) ≠ 0 := by exact_mod_cast hn.1
      rw [if_neg (by norm_num), if_neg (by push Not; exact ⟨⟨by norm_num, by norm_num⟩, e1⟩),
        if_neg e2]
      simp
    obtain ⟨a, ha⟩ := this
    exact ⟨a, by unfold toTheAux; rw [ha]; rfl⟩
  have hab : (rat q : Number D).abs = rat q := by unfold Number.abs; rw [h2']; rfl
  intro k
  induction k with
  | zero => simp [toTheAux, ht, h1', isInt_rat_int, bind, Except.bind]
  | succ k ih =>
    unfold toTheAux
    obtain ⟨a, ha⟩ := hm k
    simp only [ht, h1', isInt_rat_int, bind, Except.bind, hab, ih, ha, if_true, Bool.false_eq_true,
      if_false]

end any

/-- A floating point unit that takes small rationals to zero, as doubles do. -/
@[reducible] noncomputable def coarse : Flt Hyb :=
  { hybFlt with ofRat := fun x => if |x| < 1 / 10 ^ 400 then .q 0 else .q x }

example : (Flt.lt (self := coarse) (Flt.ofRat (self := coarse) 0)
      (Flt.ofRat (self := coarse) (1 / 10 ^ 401)) = false) ∧
    (Flt.lt (self := coarse) (Flt.ofRat (self := coarse) (1 / 10 ^ 401))
      (Flt.ofRat (self := coarse) 0) = false) ∧
    ((1 / 10 ^ 401 : ℚ) ≠ 0 ∧ (1 / 10 ^ 401 : ℚ) ≠ 1 ∧ (1 / 10 ^ 401 : ℚ) ≠ -1) ∧
    ((2 : ℤ) ≠ 0 ∧ (2 : ℤ) ≠ 1) := by
  refine ⟨by decide +kernel, by decide +kernel, by decide +kernel, by decide⟩

/-! ## C22 -/

/-- C22. The power of a positive rational to a rational exponent is exact if it does not go through
the floating point power. There is no assumption on the floating point unit: its guess of the root
is checked exactly. -/
theorem C22_exact_root_partial {D : Type} [Flt D] {b e : ℚ} {r : Number D} (hb : 0 < b)
    (h : posPower (rat b : Number D) (rat e) = .ok r) :
    r = ofDouble (Flt.pow (Flt.ofRat (b ^ e.num)) (Flt.recip e.den)) ∨
    ∃ p : ℚ, r = rat p ∧ 0 < p ∧ (p : ℝ) = (b : ℝ) ^ (e : ℝ) := by
  unfold posPower at h
  simp only [isDouble, Bool.or_self, Bool.false_eq_true, if_false, Except.bind_ok, numerator,
    denominator] at h
  obtain ⟨x, hx, h⟩ := h
  obtain ⟨_, rfl⟩ := numPower_ok hx
  have hbr : (0 : ℝ) < b := by exact_mod_cast hb
  have he : (e : ℝ) = (e.num : ℝ) / (e.den : ℝ) := by
    conv_lhs => rw [← Rat.num_div_den e]
    push_cast; rfl
  have hden : (e.den : ℝ) ≠ 0 := by exact_mod_cast e.den_nz
  rcases denomPower_ok h with ⟨h1, rfl⟩ | h1 | ⟨h1, p, rfl, hp, hpq⟩
  · right
    refine ⟨_, rfl, zpow_pos hb _, ?_⟩
    have : e.den = 1 := by exact_mod_cast h1
    rw [he, this]
    push_cast
    rw [div_one, Real.rpow_intCast]
  · left; exact h1
  · right
    refine ⟨p, rfl, hp, ?_⟩
    have hpr : (0 : ℝ) < p := by exact_mod_cast hp
    have h2 : ((p : ℝ)) ^ (e.den : ℝ) = (b : ℝ) ^ (e.num : ℝ) := by
      rw [Real.rpow_natCast, Real.rpow_intCast]
      simp only [Int.toNat_natCast] at hpq
      exact_mod_cast hpq
    rw [he, div_eq_mul_inv, Real.rpow_mul hbr.le, ← h2, ← Real.rpow_mul hpr.le,
      mul_inv_cancel₀ hden, Real.rpow_one]

example : (0 : ℚ) < 8/27 ∧ posPower (rat (8/27) : Number Hyb) (rat (-2/3)) = .ok (rat (9/4)) :=
  ⟨by norm_num, by krfl⟩

/-- C22 with exact floating point: all powers of numbers are right wherever they exist. -/
theorem C22_power_value {D : Type} [Flt D] [LawfulFlt D] {b e r : Number D} {z : ℝ}
    (h : toThe b e = .ok r) (hz : Spec.pow b.val e.val = some z) : r.val = z := toThe_val h hz

example : toThe (rat (-8) : Number Hyb) (rat (-2)) = .ok (rat (1/64)) ∧
    Spec.pow ((rat (-8) : Number Hyb).val) ((rat (-2) : Number Hyb).val) = some ((-8 : ℝ) ^ (-2 : ℝ)) :=
  ⟨by krfl, by
    unfold Spec.pow
    rw [if_pos]
    · simp
    · right; right; exact ⟨by simp, -2, by simp⟩⟩

/-- C22 is false as stated, for doubles: if the floating point power of the base 2^54 + 1 is the
double 2^27 (as for IEEE, where 2^54 + 1 is not representable), and this double is recognised as the
integer 2^27, then the square root of 2^54 + 1 comes out as the *rational* 2^27. -/
theorem C22_false {D : Type} [Flt D]
    (hg : ∀ k, Flt.rootGuess D (2 ^ 54 + 1) 2 = some k → k = 2 ^ 27)
    (hp : Flt.pow (Flt.ofRat (2 ^ 54 + 1) : D) (Flt.recip 2) = Flt.ofRat (2 ^ 27))
    (hf : Flt.toFrac (Flt.ofRat (2 ^ 27) : D) = some (2 ^ 27))
    {r : Number D} (h : posPower (rat (2 ^ 54 + 1) : Number D) (rat (1/2)) = .ok r) :
    r = rat (2 ^ 27) ∧ ((2 ^ 27 : ℚ) : ℝ) ^ 2 ≠ ((2 ^ 54 + 1 : ℚ) : ℝ) := by
  refine ⟨?_, by norm_num⟩
  have n1 : (1 / 2 : ℚ).num = 1 := by decide +kernel
  have n2 : (1 / 2 : ℚ).den = 2 := by decide +kernel
  unfold posPower at h
  simp only [isDouble, Bool.or_self, Bool.false_eq_true, if_false, Except.bind_ok, numerator,
    denominator, n1, n2] at h
  obtain ⟨x, hx, h⟩ := h
  obtain ⟨_, rfl⟩ := numPower_ok hx
  rw [zpow_one] at h
  unfold denomPower at h
  simp only [Except.bind_ok, numerator, denominator, toDouble] at h
  obtain ⟨a, ha, b, hb, h⟩ := h
  have hnum : (2 ^ 54 + 1 : ℚ).num = 2 ^ 54 + 1 := by norm_num
  have ha0 : a = 0 := by
    rw [hnum] at ha
    unfold tryGetBase at ha
    split at ha
    · simpa using ha.symm
    · rename_i k hk
      rw [hg k hk] at ha
      norm_num [unsignedMax] at ha
      exact ha.symm
  rw [if_neg (by norm_num), if_pos (Or.inl ha0)] at h
  have hp' : Flt.pow (Flt.ofRat (2 ^ 54 + 1) : D) (Flt.recip ((2 : ℕ) : ℤ)) = Flt.ofRat (2 ^ 27) := hp
  rw [hp'] at h
  simp only [Except.pure_ok] at h
  rw [← h]
  unfold ofDouble
  rw [hf]

/-- The hypotheses of `C22_false` with the values that IEEE doubles have. -/
@[reducible] noncomputable def ieeeLike : Flt Hyb :=
  { hybFlt with
    rootGuess := fun n _ => if n = 1 then some 1 else some (2 ^ 27)
    pow := fun _ _ => .q (2 ^ 27)
    ofRat := fun x => if x = 2 ^ 54 + 1 then .q (2 ^ 54) else .q x }

example : (Flt.toFrac (self := ieeeLike) (Flt.ofRat (self := ieeeLike) (2 ^ 27)) = some (2 ^ 27)) ∧
    @posPower Hyb ieeeLike (rat (2 ^ 54 + 1)) (rat (1/2)) = .ok (rat (2 ^ 27)) :=
  ⟨by krfl, by krfl⟩

/-! ## C19 -/

/-- C19 is false: for each setting of the limit from 324 on (the default is 1000) the simplification
of 324^(1/5) gives 6^(2/5) = 36^(1/5). -/
theorem C19_false : NumPowerSimpl.compute 1000 (⟨.rat 324, .rat (1/5), 1⟩ : Payload Hyb) =
      .ok (⟨.rat 6, .rat (2/5), .rat 1⟩, false) ∧
    (324 : ℝ) ^ (1/5 : ℝ) ≠ 1 * (6 : ℝ) ^ (2/5 : ℝ) := by
  refine ⟨by krfl, ?_⟩
  intro h
  have h2 : ((324 : ℝ) ^ (1/5 : ℝ)) ^ (5 : ℝ) = ((6 : ℝ) ^ (2/5 : ℝ)) ^ (5 : ℝ) := by rw [h, one_mul]
  rw [← Real.rpow_mul (by norm_num), ← Real.rpow_mul (by norm_num)] at h2
  norm_num at h2

/-- Also an integer power comes out wrong: 324^2 gives 6^4 * 6^0 = 1296 instead of 104976. -/
theorem C19_false_integer : NumPowerSimpl.compute 1000 (⟨.rat 324, .rat 2, 1⟩ : Payload Hyb) =
      .ok (⟨.rat 6, .rat 0, .rat 1296⟩, false) ∧ (324 : ℝ) ^ (2 : ℝ) ≠ 1296 * (6 : ℝ) ^ (0 : ℝ) := by
  refine ⟨by krfl, by norm_num⟩

/-- C19, what is true: `preFactor * base^exp` keeps its value, for every limit, if the ghost flag of
the model says that the number of equal primes found applies to all primes. The resulting base is not
zero, and it is positive unless the new exponent is one. Missing: the flag is false for some inputs
(see `C19_false`); `C19_small_denominator_partial` has a condition on the input instead. -/
theorem C19_value_partial {D : Type} [Flt D] [LawfulFlt D] {p r : Payload D} {max : ℤ}
    (h : NumPowerSimpl.compute max p = .ok (r, true)) (hv : NumPowerSimpl.isInputValid p = true)
    (hb : p.base.val ≠ 0) (he : p.exp.val ≠ 0) (hpf : p.preFactor.val ≠ 0) :
    (r.base.val ≠ 0 ∧ r.preFactor.val ≠ 0 ∧ (0 < r.base.val ∨ r.exp.val = 1)) ∧
    r.preFactor.val * r.base.val ^ r.exp.val = p.preFactor.val * p.base.val ^ p.exp.val :=
  NumPowerSimpl.compute_ok h hv hb he hpf

example : NumPowerSimpl.compute 1000 (⟨.rat (-12), .rat (-3), .rat (1/5)⟩ : Payload Hyb) =
      .ok (⟨.rat 12, .rat 0, .rat (-1/8640)⟩, true) ∧
    NumPowerSimpl.isInputValid (⟨.rat (-12), .rat (-3), .rat (1/5)⟩ : Payload Hyb) = true :=
  ⟨by krfl, by krfl⟩

example : NumPowerSimpl.compute 1000 (⟨.rat 72, .rat (1/2), .rat 1⟩ : Payload Hyb) =
      .ok (⟨.rat 2, .rat (1/2), .rat 6⟩, true) := by krfl

/-- C19 for square, cube and fourth roots: for all rationals and all limits the extracted
pre-factor, base and exponent multiply out to the power that was given. Missing: other denominators
of the exponent, where the claim is false (see `C19_false`, `C19_false_integer`). -/
theorem C19_small_denominator_partial {D : Type} [Flt D] [LawfulFlt D] {b e : ℚ} {r : Payload D}
    {g : Bool} {max : ℤ} (hb : 0 < b) (he : e.den = 2 ∨ e.den = 3 ∨ e.den = 4)
    (h : NumPowerSimpl.compute max (⟨.rat b, .rat e, 1⟩ : Payload D) = .ok (r, g)) :
    r.preFactor.val * r.base.val ^ r.exp.val = (b : ℝ) ^ (e : ℝ) := by
  have hg := NumPowerSimpl.compute_ghost (e := e) rfl he h
  subst hg
  have hv : NumPowerSimpl.isInputValid (⟨.rat b, .rat e, 1⟩ : Payload D) = true := by
    have : (rat b : Number D).lt 0 = false := by rw [lt_false]; simpa using hb.le
    simp [NumPowerSimpl.isInputValid, this]
  have he0 : e ≠ 0 := by
    rintro rfl
    rcases he with h | h | h <;> simp at h
  have := (NumPowerSimpl.compute_ok h hv (by simpa using hb.ne') (by simpa using he0) (by simp)).2
  simpa [NumPowerSimpl.value] using this

example : (0 : ℚ) < 324 / 25 ∧ ((-3/4 : ℚ).den = 2 ∨ (-3/4 : ℚ).den = 3 ∨ (-3/4 : ℚ).den = 4) ∧
    NumPowerSimpl.compute 1000 (⟨.rat (324/25), .rat (-3/4), 1⟩ : Payload Hyb) =
      .ok (⟨.rat (5/2), .rat (1/2), .rat (5/54)⟩, true) := ⟨by norm_num, by decide +kernel, by krfl⟩

end Tsym
