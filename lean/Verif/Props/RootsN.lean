import Verif.RootPlain
import Verif.Props.Roots

set_option autoImplicit false
set_option linter.unusedSectionVars false
set_option linter.unusedSimpArgs false

/-!
# C84: rational powers of rational numbers, and their products

A positive rational number to a power with a rational exponent between -1 and 1 stays a power if no prime can be
taken out of it. The products of two such powers are completely described: equal bases, equal exponents, opposite
exponents, equal denominators of the exponents within the limit and above it, different denominators.
-/

namespace Tsym

open Expr NumPowerSimpl

/-! ## Specification -/

namespace RootsN

/-- No prime has an exponent of `d` or more in `N`, and the exponent of the smallest prime is one or does not divide all the
exponents. -/
structure Plain (d N : ℕ) : Prop where
  ne_zero : N ≠ 0
  low : ∀ p, p.Prime → ¬ p ^ d ∣ N
  sep : N = 1 ∨ N.factorization N.minFac = 1 ∨ ∃ p, ¬ N.factorization N.minFac ∣ N.factorization p

/-- From `q` nothing can be taken out of a power with the exponent `e`: it is above the limit or plain. The denominator of the
exponent fits into an unsigned number. -/
structure Keeps (max : ℤ) (q e : ℚ) : Prop where
  pos : 0 < q
  ne_one : q ≠ 1
  exp_pos : 0 < e
  exp_lt : e < 1
  exp_small : (e.den : ℤ) < 4294967295
  plain : Roots.Within max q → Plain e.den q.num.natAbs ∧ Plain e.den q.den

/-- A power of two rational numbers as an expression. -/
def power {D : Type} (q e : ℚ) : Expr D := .pow (.num (.rat q)) (.num (.rat e))

/-- The expression for `q` to the power of `e`, with `e` between 0 and 1: no base has the numerator one. -/
def root {D : Type} (q e : ℚ) : Expr D := if q.num = 1 then power (1 / q) (-e) else power q e

/-- The powers that stay as they are: no base has the numerator one, and bases with negative exponents are integers. -/
inductive Stored (max : ℤ) (q e : ℚ) : Prop
  | pos (h : Keeps max q e) (hn : q.num ≠ 1)
  | neg (h : Keeps max q (-e)) (hd : q.den = 1)

end RootsN

open RootsN

/-! ## Proofs -/

theorem RootsN.root_eq {D : Type} [Flt D] (q e : ℚ) : (RootsN.root q e : Expr D) = rootN q e := by
  unfold RootsN.root RootsN.power rootN
  rw [one_div]

theorem RootsN.Plain.nat {d N : ℕ} (h : Plain d N) (hd : d ≠ 0) : PlainNat d N := by
  refine ⟨h.ne_zero, fun p => ?_, h.sep⟩
  by_cases hp : p.Prime
  · by_contra hc
    exact h.low p hp ((hp.pow_dvd_iff_le_factorization h.ne_zero).2 (not_lt.1 hc))
  · rw [Nat.factorization_eq_zero_of_not_prime N hp]; omega

theorem RootsN.Keeps.stable {max : ℤ} {q e : ℚ} (h : Keeps max q e) : Stable max q e :=
  .of_plain h.pos h.ne_one h.exp_pos h.exp_lt h.exp_small fun hs =>
    have k := h.plain (Roots.within_iff.2 hs)
    ⟨k.1.nat e.den_nz, k.2.nat e.den_nz⟩

theorem RootsN.Stored.facts {max : ℤ} {q e : ℚ} (h : Stored max q e) :
    0 < q ∧ e ≠ 0 ∧ (e.num.natAbs : ℤ) < Number.unsignedMax := by
  have key : ∀ {q e : ℚ}, Keeps max q e → (e.num.natAbs : ℤ) < Number.unsignedMax := by
    intro q e h
    obtain ⟨k0, k1, k2⟩ := NumPowerSimpl.exp_parts h.exp_pos h.exp_lt
    have := h.exp_small
    have hu : Number.unsignedMax = 4294967295 := by decide +kernel
    rw [hu]
    omega
  cases h with
  | pos h hn => exact ⟨h.pos, h.exp_pos.ne', key h⟩
  | neg h hd =>
    refine ⟨h.pos, neg_ne_zero.1 h.exp_pos.ne', ?_⟩
    have := key h
    rwa [Rat.neg_num, Int.natAbs_neg] at this

section

variable {D : Type} [Flt D] [LawfulFlt D] {cfg : Cfg D}

theorem mul_gives {a b v : Expr D} (h : Tot cfg (fun E => prodCreate E [a, b]) v) : Gives cfg (fun E => Api.mul E a b) v :=
  (tot_prod h).gives (apiMul_mono _ _)

theorem pow_gives {a b v : Expr D} (h : Tot cfg (fun E => powCreate E a b) v) : Gives cfg (fun E => Api.pow E a b) v :=
  (tot_pow h).gives (apiPow_mono' _ _)

theorem tot_pow_stored {q e : ℚ} (h : Stored cfg.maxPrime q e) : Tot cfg (fun E => powCreate E (num (.rat q)) (num (.rat e))) (power q e : Expr D) := by
  cases h with
  | pos h hn =>
    have := tot_powN (D := D) h.stable
    rwa [rootN, if_neg hn] at this
  | neg h hd =>
    have := tot_powN_neg (D := D) h.stable
    have hi : q⁻¹.num = 1 := by
      rw [Rat.num_inv, hd, Int.sign_eq_one_of_pos (Rat.num_pos.2 h.pos)]; rfl
    rwa [rootN, if_pos hi, inv_inv, neg_neg] at this

/-! ## C84 -/

/-- C84. The value of a power of numbers is the real power. -/
theorem C84_value (σ : Asg) (q e : ℚ) (hq : 0 < q) :
    den σ (power q e : Expr D) = some ((q : ℝ) ^ (e : ℝ)) ∧ den σ (RootsN.root q e : Expr D) = some ((q : ℝ) ^ (e : ℝ)) := by
  have hq' : (0 : ℝ) < q := by exact_mod_cast hq
  have h1 : ∀ (q e : ℚ), 0 < q → den σ (power q e : Expr D) = some ((q : ℝ) ^ (e : ℝ)) := by
    intro q e hq
    have hq' : (0 : ℝ) < q := by exact_mod_cast hq
    simp only [power, den, Number.val, Option.bind_some, Spec.pow, hq', true_or, if_true]
  refine ⟨h1 q e hq, ?_⟩
  unfold RootsN.root
  split
  · rw [h1 _ _ (by positivity)]
    congr 1
    push_cast
    rw [one_div, Real.inv_rpow hq'.le, ← Real.rpow_neg hq'.le, neg_neg]
  · exact h1 q e hq

/-- C84. A power with an exponent between -1 and 1 from which nothing can be taken out stays a power; it is stored with a positive
exponent unless the base would have the numerator one. -/
theorem C84_pow (q e : ℚ) (h : Keeps cfg.maxPrime q e) :
    Gives cfg (fun E => Api.pow E (.num (.rat q) : Expr D) (.num (.rat e))) (RootsN.root q e) ∧
    Gives cfg (fun E => Api.pow E (.num (.rat q) : Expr D) (.num (.rat (-e)))) (RootsN.root (1 / q) e) := by
  rw [RootsN.root_eq, RootsN.root_eq, one_div]
  exact ⟨pow_gives (tot_powN h.stable), pow_gives (tot_powN_neg h.stable)⟩

/-- C84. The result is one of the stored powers. -/
theorem C84_pow_stored (q e : ℚ) (h : Keeps cfg.maxPrime q e) :
    ∃ b x, (RootsN.root q e : Expr D) = power b x ∧ Stored cfg.maxPrime b x := by
  have hi : 0 < q.num := Rat.num_pos.2 h.pos
  have hden : q⁻¹.den = q.num.natAbs := by rw [Rat.den_inv, if_neg hi.ne']
  have hnum : q⁻¹.num = q.den := by rw [Rat.num_inv, Int.sign_eq_one_of_pos hi, one_mul]
  unfold RootsN.root
  split
  · rename_i h1
    refine ⟨1 / q, -e, rfl, .neg ?_ ?_⟩
    · rw [neg_neg, one_div]
      refine ⟨inv_pos.2 h.pos, by simpa using h.ne_one, h.exp_pos, h.exp_lt, h.exp_small, fun hw => ?_⟩
      have := h.plain (Roots.within_iff.2 ((SmallQ.inv_iff h.pos.ne').1 (Roots.within_iff.1 hw)))
      rw [hden, hnum, Int.natAbs_natCast]
      exact ⟨this.2, this.1⟩
    · rw [one_div, hden, h1]; rfl
  · rename_i h1
    exact ⟨q, e, rfl, .pos h h1⟩

/-- C84. The stored powers are fixed points. -/
theorem C84_fixed (q e : ℚ) (h : Stored cfg.maxPrime q e) :
    Gives cfg (fun E => Api.pow E (.num (.rat q) : Expr D) (.num (.rat e))) (power q e) := pow_gives (tot_pow_stored h)

/-- C84. Powers of the same base: the exponents are added. -/
theorem C84_same_base (q e f : ℚ) (he : Stored cfg.maxPrime q e) (_hf : Stored cfg.maxPrime q f) :
    (e + f = 0 → Gives cfg (fun E => Api.mul E (power q e : Expr D) (power q f)) (.num (.rat 1))) ∧
    (e + f = 1 → Gives cfg (fun E => Api.mul E (power q e : Expr D) (power q f)) (.num (.rat q))) ∧
    (Keeps cfg.maxPrime q (e + f) → Gives cfg (fun E => Api.mul E (power q e : Expr D) (power q f)) (RootsN.root q (e + f))) ∧
    (Keeps cfg.maxPrime q (-(e + f)) → Gives cfg (fun E => Api.mul E (power q e : Expr D) (power q f)) (RootsN.root (1 / q) (-(e + f)))) := by
  have hq := he.facts.1
  have u : ∀ q : ℚ, (num (.rat q) : Expr D).isUndefined = false := fun _ => rfl
  refine ⟨fun h => mul_gives (tot_equalBases hq ?_), fun h => mul_gives (tot_equalBases hq ?_), fun h => mul_gives (tot_equalBases hq ?_),
    fun h => mul_gives (tot_equalBases hq ?_)⟩
  · rw [h]
    simp only [powCreate, u, isZero_ratE, isOne_ratE, hq.ne', decide_true, decide_false, Bool.or_self, Bool.false_eq_true, if_false, Bool.or_true,
      Bool.true_or, if_true, one_eq]
    exact tot_pure _
  · rw [h]
    have h10 : (1 : ℚ) ≠ 0 := one_ne_zero
    simp only [powCreate, u, isZero_ratE, isOne_ratE, hq.ne', h10, decide_true, decide_false, Bool.or_self, Bool.false_eq_true, if_false, Bool.or_true,
      Bool.or_false, Bool.true_or, if_true, one_eq]
    by_cases h1 : q = 1
    · simp only [h1, decide_true, if_true]; exact tot_pure _
    · simp only [h1, decide_false, Bool.false_eq_true, if_false]; exact tot_pure _
  · rw [RootsN.root_eq]; exact tot_powN h.stable
  · rw [RootsN.root_eq, one_div]
    have := tot_powN_neg (D := D) h.stable
    rwa [neg_neg] at this

/-- C84. Powers of different bases with the same exponent: the bases are multiplied. -/
theorem C84_same_exp (p q e : ℚ) (hp : Stored cfg.maxPrime p e) (hq : Stored cfg.maxPrime q e) (hne : p ≠ q) :
    (Keeps cfg.maxPrime (p * q) e → Gives cfg (fun E => Api.mul E (power p e : Expr D) (power q e)) (RootsN.root (p * q) e)) ∧
    (Keeps cfg.maxPrime (p * q) (-e) → Gives cfg (fun E => Api.mul E (power p e : Expr D) (power q e)) (power (p * q) e)) := by
  refine ⟨fun h => mul_gives ?_, fun h => mul_gives ?_⟩
  · have k := compute_stable (D := D) h.stable
    have t1 := tot_powN (D := D) h.stable
    have t2 := tot_powN_neg (D := D) h.stable.inv
    rw [RootsN.root_eq]
    rw [inv_inv] at t2
    unfold rootPayN at k
    split at k
    · exact tot_equalExp hp.facts.1 hq.facts.1 hp.facts.2.1 hne k t2
    · exact tot_equalExp hp.facts.1 hq.facts.1 hp.facts.2.1 hne k t1
  · have hd : ∀ {x : ℚ}, Stored cfg.maxPrime x e → x.den = 1 := by
      intro x hx
      cases hx with
      | pos h' hn => have h1 := h'.exp_pos; have h2 := h.exp_pos; exact absurd h1 (not_lt.2 (by linarith))
      | neg h' hd => exact hd
    have hpq : (p * q).den = 1 := by
      have e1 : (p.num : ℚ) = p := by conv_rhs => rw [← Rat.num_div_den p, hd hp]; simp
      have e2 : (q.num : ℚ) = q := by conv_rhs => rw [← Rat.num_div_den q, hd hq]; simp
      rw [← e1, ← e2, ← Int.cast_mul, Rat.den_intCast]
    have hst : Stored cfg.maxPrime (p * q) e := .neg h hpq
    have hi : (p * q)⁻¹.num = 1 := by
      rw [Rat.num_inv, hpq, Int.sign_eq_one_of_pos (Rat.num_pos.2 h.pos)]; rfl
    have k := compute_nstable (D := D) h.stable
    unfold rootPayN at k
    rw [if_pos hi, inv_inv, neg_neg] at k
    exact tot_equalExp hp.facts.1 hq.facts.1 hp.facts.2.1 hne k (tot_pow_stored hst)

/-- C84. Opposite exponents: the bases are divided. -/
theorem C84_opposite_exp (p q e : ℚ) (hp : Stored cfg.maxPrime p e) (hq : Stored cfg.maxPrime q (-e)) (hne : p ≠ q) :
    (Keeps cfg.maxPrime (p / q) e → Gives cfg (fun E => Api.mul E (power p e : Expr D) (power q (-e))) (RootsN.root (p / q) e)) ∧
    (Keeps cfg.maxPrime (p / q) (-e) → Gives cfg (fun E => Api.mul E (power p e : Expr D) (power q (-e))) (RootsN.root (q / p) (-e))) := by
  refine ⟨fun h => mul_gives (tot_oppositeExp hq.facts.1 hp.facts.2.1 hne ?_), fun h => mul_gives (tot_oppositeExp hq.facts.1 hp.facts.2.1 hne ?_)⟩
  · rw [RootsN.root_eq, ← div_eq_mul_inv]; exact tot_powN h.stable
  · rw [RootsN.root_eq, ← div_eq_mul_inv]
    have := tot_powN_neg (D := D) h.stable
    rwa [neg_neg, inv_div] at this

/-- C84. Different exponents with the same denominator: the numerators of the exponents are moved into the bases. -/
theorem C84_same_den (p q e f : ℚ) (hp : Stored cfg.maxPrime p e) (hq : Stored cfg.maxPrime q f) (hne : p ≠ q) (hef : e ≠ f) (hz : e + f ≠ 0)
    (hd : e.den = f.den) (hw : Roots.Within cfg.maxPrime (p ^ e.num * q ^ f.num)) (h : Keeps cfg.maxPrime (p ^ e.num * q ^ f.num) (1 / e.den)) :
    Gives cfg (fun E => Api.mul E (power p e : Expr D) (power q f)) (RootsN.root (p ^ e.num * q ^ f.num) (1 / e.den)) := by
  have k := (tot_equalDen (D := D) (cfg := cfg) hp.facts.1 hq.facts.1 hne hef hz hd hp.facts.2.2 hq.facts.2.2).1 (Roots.within_iff.1 hw) (tot_powN h.stable)
  rw [RootsN.root_eq]
  exact mul_gives k

/-- C84. The same above the limit: the product stays as it is, in the order that was given. -/
theorem C84_same_den_large (p q e f : ℚ) (hp : Stored cfg.maxPrime p e) (hq : Stored cfg.maxPrime q f) (hne : p ≠ q) (hef : e ≠ f) (hz : e + f ≠ 0)
    (hd : e.den = f.den) (hw : ¬ Roots.Within cfg.maxPrime (p ^ e.num * q ^ f.num)) :
    Gives cfg (fun E => Api.mul E (power p e : Expr D) (power q f)) (.prod [power p e, power q f]) :=
  mul_gives ((tot_equalDen (D := D) (cfg := cfg) hp.facts.1 hq.facts.1 hne hef hz hd hp.facts.2.2 hq.facts.2.2).2 (fun h => hw (Roots.within_iff.2 h)))

/-- C84. Different denominators of the exponents: the product stays a product, and the smaller base comes first. -/
theorem C84_other_den (p q e f : ℚ) (hne : p ≠ q) (hef : e ≠ f) (hz : e + f ≠ 0) (hd : e.den ≠ f.den) :
    Gives cfg (fun E => Api.mul E (power p e : Expr D) (power q f)) (if p < q then .prod [power p e, power q f] else .prod [power q f, power p e]) :=
  mul_gives (tot_otherDen hne hef hz hd)

/-- C84, C31. Above the limit multiplication does not commute: the two orders give different expressions, for all bases and
exponents. -/
theorem C84_not_commutative (p q e f : ℚ) (hp : Stored cfg.maxPrime p e) (hq : Stored cfg.maxPrime q f) (hne : p ≠ q) (hef : e ≠ f) (hz : e + f ≠ 0)
    (hd : e.den = f.den) (hw : ¬ Roots.Within cfg.maxPrime (p ^ e.num * q ^ f.num)) :
    ∃ x y : Expr D, Gives cfg (fun E => Api.mul E (power p e : Expr D) (power q f)) x ∧ Gives cfg (fun E => Api.mul E (power q f : Expr D) (power p e)) y ∧
      x ≠ y ∧ isEqual x y = false := by
  refine ⟨_, _, C84_same_den_large p q e f hp hq hne hef hz hd hw,
    C84_same_den_large q p f e hq hp (Ne.symm hne) (Ne.symm hef) (by rwa [add_comm]) hd.symm (by rwa [mul_comm]), ?_, ?_⟩
  · intro h
    simp only [power, Expr.prod.injEq, List.cons.injEq, Expr.pow.injEq, Expr.num.injEq, Number.rat.injEq] at h
    exact hne h.1.1
  · simp [isEqual, areEqual, power, Number.rat_eqv, hne]

/-- C84. Which numbers are plain: squarefree numbers, and products of powers of two primes. -/
theorem C84_plain :
    (∀ d N : ℕ, 2 ≤ d → Squarefree N → Plain d N) ∧
    (∀ d p q k l : ℕ, p.Prime → q.Prime → p < q → k < d → l < d → k ≠ 0 → (k = 1 ∨ ¬ k ∣ l) → Plain d (p ^ k * q ^ l)) := by
  constructor
  · intro d N hd hN
    refine ⟨hN.ne_zero, fun p hp h => ?_, ?_⟩
    · have h2 : p * p ∣ N := by rw [← sq]; exact (pow_dvd_pow p hd).trans h
      exact hp.one_lt.ne' (Nat.isUnit_iff.1 (hN p h2))
    · by_cases h1 : N = 1
      · exact .inl h1
      · refine .inr (.inl (le_antisymm (hN.natFactorization_le_one _) ?_))
        exact (Nat.minFac_prime h1).factorization_pos_of_dvd hN.ne_zero (Nat.minFac_dvd N)
  · intro d p q k l hp hq hpq hk hl hk0 hs
    have h0 : p ^ k * q ^ l ≠ 0 := mul_ne_zero (pow_ne_zero _ hp.ne_zero) (pow_ne_zero _ hq.ne_zero)
    have hf : ∀ r, (p ^ k * q ^ l).factorization r = (if r = p then k else 0) + (if r = q then l else 0) := by
      intro r
      rw [Nat.factorization_mul (pow_ne_zero _ hp.ne_zero) (pow_ne_zero _ hq.ne_zero), Finsupp.add_apply, hp.factorization_pow, hq.factorization_pow,
        Finsupp.single_apply, Finsupp.single_apply]
      simp only [eq_comm]
    have hm : (p ^ k * q ^ l).minFac = p := by
      have h1 : p ^ k * q ^ l ≠ 1 := fun h => by
        have : p ∣ 1 := by rw [← h]; exact (dvd_pow_self p hk0).mul_right _
        exact hp.one_lt.ne' (Nat.dvd_one.1 this)
      refine le_antisymm (Nat.minFac_le_of_dvd hp.two_le ((dvd_pow_self p hk0).mul_right _)) ?_
      have hmp := Nat.minFac_prime h1
      rcases (Nat.Prime.dvd_mul hmp).1 (Nat.minFac_dvd (p ^ k * q ^ l)) with h | h
      · rw [(Nat.prime_dvd_prime_iff_eq hmp hp).1 (hmp.dvd_of_dvd_pow h)]
      · rw [(Nat.prime_dvd_prime_iff_eq hmp hq).1 (hmp.dvd_of_dvd_pow h)]; exact hpq.le
    refine ⟨h0, fun r hr h => ?_, .inr ?_⟩
    · have := (hr.pow_dvd_iff_le_factorization h0).1 h
      rw [hf] at this
      split_ifs at this <;> omega
    · rw [hm, hf, if_pos rfl, if_neg hpq.ne, add_zero]
      refine hs.imp id fun h => ⟨q, ?_⟩
      rwa [hf, if_neg hpq.ne', if_pos rfl, zero_add]

end

/-! ## Examples -/

namespace RootsNEx

theorem plain1 (d : ℕ) (h : 2 ≤ d) : Plain d 1 := C84_plain.1 d 1 h squarefree_one

theorem keeps_nat {max : ℤ} {N : ℕ} {e : ℚ} (h : Plain e.den N) (hN : 1 < N) (h0 : 0 < e) (h1 : e < 1) (hd : (e.den : ℤ) < 4294967295) :
    Keeps max (N : ℚ) e := by
  refine ⟨by exact_mod_cast (by omega : 0 < N), by exact_mod_cast hN.ne', h0, h1, hd, fun _ => ?_⟩
  rw [Rat.num_natCast, Rat.den_natCast, Int.natAbs_natCast]
  exact ⟨h, plain1 _ (NumPowerSimpl.exp_parts h0 h1).2.1⟩

theorem prime_plain {p d : ℕ} (hp : p.Prime) (hd : 2 ≤ d) : Plain d p := C84_plain.1 d p hd hp.squarefree

theorem stored2 (max : ℤ) (e : ℚ) (h0 : 0 < e) (h1 : e < 1) (hd : (e.den : ℤ) < 4294967295) : Stored max 2 e :=
  .pos (keeps_nat (N := 2) (prime_plain Nat.prime_two (NumPowerSimpl.exp_parts h0 h1).2.1) (by norm_num) h0 h1 hd) (by decide +kernel)

theorem stored3 (max : ℤ) (e : ℚ) (h0 : 0 < e) (h1 : e < 1) (hd : (e.den : ℤ) < 4294967295) : Stored max 3 e :=
  .pos (keeps_nat (N := 3) (prime_plain Nat.prime_three (NumPowerSimpl.exp_parts h0 h1).2.1) (by norm_num) h0 h1 hd) (by decide +kernel)

theorem stored2n (max : ℤ) (e : ℚ) (h0 : 0 < -e) (h1 : -e < 1) (hd : ((-e).den : ℤ) < 4294967295) : Stored max 2 e :=
  .neg (keeps_nat (N := 2) (prime_plain Nat.prime_two (NumPowerSimpl.exp_parts h0 h1).2.1) (by norm_num) h0 h1 hd) (by decide +kernel)

/-- 10007 is a prime above the limit. -/
theorem storedBig : Stored 1000 10007 (2 / 3) := by
  refine .pos ⟨by norm_num, by norm_num, by norm_num, by norm_num, by decide +kernel, fun h => ?_⟩ (by decide +kernel)
  have := h.1
  exact absurd this (by decide +kernel)

/-- 18 = 2*3^2 to the power of 1/3 and of -1/3 -/
example : Gives (Cfg.std 1000) (fun E : Eng Hyb => Api.pow E (.num (.rat 18)) (.num (.rat (1 / 3)))) (power 18 (1 / 3)) ∧
    Gives (Cfg.std 1000) (fun E : Eng Hyb => Api.pow E (.num (.rat 18)) (.num (.rat (-(1 / 3))))) (power 18 (-(1 / 3))) := by
  have hp : Plain (1 / 3 : ℚ).den (2 ^ 1 * 3 ^ 2) :=
    C84_plain.2 _ 2 3 1 2 Nat.prime_two Nat.prime_three (by norm_num) (by decide +kernel) (by decide +kernel) one_ne_zero (.inl rfl)
  have h := C84_pow (D := Hyb) (cfg := Cfg.std 1000) 18 (1 / 3)
    (keeps_nat (N := 2 ^ 1 * 3 ^ 2) hp (by norm_num) (by norm_num) (by norm_num) (by decide +kernel))
  rw [RootsN.root, RootsN.root, if_neg (by decide +kernel), if_pos (by decide +kernel), one_div_one_div] at h
  exact h

/-- 2^(1/2) * 2^(-1/3) = 2^(1/6) -/
example : Gives (Cfg.std 1000) (fun E : Eng Hyb => Api.mul E (power 2 (1 / 2)) (power 2 (-1 / 3))) (power 2 (1 / 6)) := by
  have h := (C84_same_base (D := Hyb) (cfg := Cfg.std 1000) 2 (1 / 2) (-1 / 3) (stored2 _ _ (by norm_num) (by norm_num) (by decide +kernel))
    (stored2n _ _ (by norm_num) (by norm_num) (by decide +kernel))).2.2.1
    (keeps_nat (N := 2) (prime_plain Nat.prime_two (by decide +kernel)) (by norm_num) (by norm_num) (by norm_num) (by decide +kernel))
  rw [RootsN.root, if_neg (by decide +kernel), show (1 / 2 + -1 / 3 : ℚ) = 1 / 6 by norm_num] at h
  exact h

/-- 2^(1/3) * 3^(1/3) = 6^(1/3) -/
example : Gives (Cfg.std 1000) (fun E : Eng Hyb => Api.mul E (power 2 (1 / 3)) (power 3 (1 / 3))) (power 6 (1 / 3)) := by
  have h6 : Plain (1 / 3 : ℚ).den (2 ^ 1 * 3 ^ 1) :=
    C84_plain.2 _ 2 3 1 1 Nat.prime_two Nat.prime_three (by norm_num) (by decide +kernel) (by decide +kernel) one_ne_zero (.inl rfl)
  have k : Keeps (Cfg.std (D := Hyb) 1000).maxPrime (2 * 3) (1 / 3) := by
    have := keeps_nat (max := 1000) (N := 2 ^ 1 * 3 ^ 1) h6 (by norm_num) (by norm_num) (by norm_num) (by decide +kernel)
    norm_num at this ⊢
    exact this
  have h := (C84_same_exp (D := Hyb) (cfg := Cfg.std 1000) 2 3 (1 / 3) (stored2 _ _ (by norm_num) (by norm_num) (by decide +kernel))
    (stored3 _ _ (by norm_num) (by norm_num) (by decide +kernel)) (by norm_num)).1 k
  rw [RootsN.root, if_neg (by decide +kernel), show (2 * 3 : ℚ) = 6 by norm_num] at h
  exact h

/-- 3^(1/3) * 2^(-1/3) = (3/2)^(1/3) -/
example : Gives (Cfg.std 1000) (fun E : Eng Hyb => Api.mul E (power 3 (1 / 3)) (power 2 (-(1 / 3)))) (power (3 / 2) (1 / 3)) := by
  have k : Keeps (Cfg.std (D := Hyb) 1000).maxPrime (3 / 2) (1 / 3) := by
    refine ⟨by norm_num, by norm_num, by norm_num, by norm_num, by decide +kernel, fun _ => ?_⟩
    rw [show (3 / 2 : ℚ).num.natAbs = 3 by decide +kernel, show (3 / 2 : ℚ).den = 2 by decide +kernel]
    exact ⟨prime_plain Nat.prime_three (by decide +kernel), prime_plain Nat.prime_two (by decide +kernel)⟩
  have h := (C84_opposite_exp (D := Hyb) (cfg := Cfg.std 1000) 3 2 (1 / 3) (stored3 _ _ (by norm_num) (by norm_num) (by decide +kernel))
    (stored2n _ _ (by norm_num) (by norm_num) (by decide +kernel)) (by norm_num)).1 k
  rw [RootsN.root, if_neg (by decide +kernel)] at h
  exact h

/-- 2^(1/3) * 3^(2/3) = 18^(1/3) -/
example : Gives (Cfg.std 1000) (fun E : Eng Hyb => Api.mul E (power 2 (1 / 3)) (power 3 (2 / 3))) (power 18 (1 / 3)) := by
  have hp : Plain (1 / 3 : ℚ).den (2 ^ 1 * 3 ^ 2) :=
    C84_plain.2 _ 2 3 1 2 Nat.prime_two Nat.prime_three (by norm_num) (by decide +kernel) (by decide +kernel) one_ne_zero (.inl rfl)
  have e18 : (2 : ℚ) ^ (1 / 3 : ℚ).num * 3 ^ (2 / 3 : ℚ).num = 18 := by
    rw [show (1 / 3 : ℚ).num = 1 by decide +kernel, show (2 / 3 : ℚ).num = 2 by decide +kernel]; norm_num
  have ed : (1 : ℚ) / ((1 / 3 : ℚ).den : ℚ) = 1 / 3 := by rw [show (1 / 3 : ℚ).den = 3 by decide +kernel]; norm_num
  have k : Keeps (Cfg.std (D := Hyb) 1000).maxPrime 18 (1 / 3) := by
    have := keeps_nat (max := 1000) (N := 2 ^ 1 * 3 ^ 2) hp (by norm_num) (by norm_num) (by norm_num) (by decide +kernel)
    norm_num at this ⊢
    exact this
  have h := C84_same_den (D := Hyb) (cfg := Cfg.std 1000) 2 3 (1 / 3) (2 / 3) (stored2 _ _ (by norm_num) (by norm_num) (by decide +kernel))
    (stored3 _ _ (by norm_num) (by norm_num) (by decide +kernel)) (by norm_num) (by norm_num) (by norm_num) (by decide +kernel)
    (by rw [e18]; exact ⟨by decide +kernel, by decide +kernel⟩) (by rw [e18, ed]; exact k)
  rw [e18, ed, RootsN.root, if_neg (by decide +kernel)] at h
  exact h

/-- 3^(1/2) * 2^(1/3) has the smaller base first. -/
example : Gives (Cfg.std 1000) (fun E : Eng Hyb => Api.mul E (power 3 (1 / 2)) (power 2 (1 / 3))) (.prod [power 2 (1 / 3), power 3 (1 / 2)]) := by
  have h := C84_other_den (D := Hyb) (cfg := Cfg.std 1000) 3 2 (1 / 2) (1 / 3) (by norm_num) (by norm_num) (by norm_num) (by decide +kernel)
  rwa [if_neg (by norm_num)] at h

/-- 2^(1/3) * 10007^(2/3) and 10007^(2/3) * 2^(1/3) are different expressions. -/
theorem C31_false_roots : ∃ x y : Expr Hyb, Gives (Cfg.std 1000) (fun E => Api.mul E (power 2 (1 / 3)) (power 10007 (2 / 3))) x ∧
    Gives (Cfg.std 1000) (fun E => Api.mul E (power 10007 (2 / 3)) (power 2 (1 / 3))) y ∧ x ≠ y ∧ isEqual x y = false :=
  C84_not_commutative 2 10007 (1 / 3) (2 / 3) (stored2 _ _ (by norm_num) (by norm_num) (by decide +kernel)) storedBig (by norm_num) (by norm_num)
    (by norm_num) (by decide +kernel) fun h => absurd h.1 (by
      rw [show (1 / 3 : ℚ).num = 1 by decide +kernel, show (2 / 3 : ℚ).num = 2 by decide +kernel]
      decide +kernel)

/-- The difference of the two products is not simplified to zero. -/
theorem C84_false_difference :
    ∃ cs, (do
      let x ← Api.mul (eng (Cfg.std 1000) 30) (power 2 (1 / 3) : Expr Hyb) (power 10007 (2 / 3))
      let y ← Api.mul (eng (Cfg.std 1000) 30) (power 10007 (2 / 3)) (power 2 (1 / 3))
      Api.sub (eng (Cfg.std 1000) 30) x y : M Hyb (Expr Hyb)) =
    .ok (.sum [.prod [.num (.rat (-1)), power 10007 (2 / 3), power 2 (1 / 3)], .prod [power 2 (1 / 3), power 10007 (2 / 3)]], cs) :=
  M.val_some (by krfl)

end RootsNEx

end Tsym
