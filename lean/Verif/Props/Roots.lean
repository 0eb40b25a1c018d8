import Verif.SqrtSum
import Verif.Props.Polynomials
import Verif.Props.PolyDivide

set_option autoImplicit false
set_option linter.unusedSectionVars false

/-!
# C67: square roots of rational numbers

`sqrt` of a positive rational number takes the largest squares out of the numerator and the denominator if
both are not greater than the limit for primes, and leaves the number below the root otherwise. Rational
multiples, products and sums of roots of squarefree numbers are exact and have the same shape.
-/

namespace Tsym

open Expr NumPowerSimpl

/-! ## Specification -/

namespace Roots

/-- The largest squares in the numerator and the denominator of a positive rational number. -/
structure Split (q : ℚ) (a b c d : ℕ) : Prop where
  num : q.num = (a : ℤ) ^ 2 * b
  den : q.den = c ^ 2 * d
  apos : 0 < a
  cpos : 0 < c
  bfree : Squarefree b
  dfree : Squarefree d

/-- The numerator and the denominator have no square divisors, and the number is positive and not one. -/
structure Free (q : ℚ) : Prop where
  pos : 0 < q
  ne_one : q ≠ 1
  num : Squarefree q.num.natAbs
  den : Squarefree q.den

/-- Numerator and denominator are within the limit. -/
def Within (max : ℤ) (q : ℚ) : Prop := |q.num| ≤ max ∧ (q.den : ℤ) ≤ max

/-- The square root of `r` as an expression: the exponent is negative if the numerator is one. -/
def root {D : Type} (r : ℚ) : Expr D :=
  if r.num = 1 then .pow (.num (.rat (1 / r))) (.num (.rat (-1 / 2))) else .pow (.num (.rat r)) (.num (.rat (1 / 2)))

/-- A rational multiple of a square root as an expression. -/
def multiple {D : Type} (s r : ℚ) : Expr D :=
  if r = 1 then .num (.rat s) else if s = 1 then root r else .prod [.num (.rat s), root r]

end Roots

/-! ## Proofs -/

theorem Roots.root_eq {D : Type} [Flt D] (r : ℚ) : (Roots.root r : Expr D) = rootE r := by
  unfold Roots.root rootE
  rw [one_div, neg_div]

theorem Roots.multiple_eq {D : Type} [Flt D] (s r : ℚ) : (Roots.multiple s r : Expr D) = surd s r := by
  unfold Roots.multiple surd
  rw [Roots.root_eq]

theorem Roots.Within.small {max : ℤ} {q : ℚ} (h : Roots.Within max q) : SmallQ max q := by
  obtain ⟨h1, h2⟩ := h
  exact ⟨by rwa [Int.natCast_natAbs], h2⟩

theorem Roots.within_iff {max : ℤ} {q : ℚ} : Roots.Within max q ↔ SmallQ max q := by
  unfold Roots.Within SmallQ
  rw [Int.natCast_natAbs]

theorem Roots.Split.sq {q : ℚ} {a b c d : ℕ} (h : Roots.Split q a b c d) : SqSplit q ((a : ℚ) / c) ((b : ℚ) / d) :=
  SqSplit.of_coprime h.apos h.cpos h.bfree h.dfree h.num h.den

theorem Roots.Free.simple {q : ℚ} (h : Roots.Free q) (max : ℤ) : Simple max q := ⟨h.pos, h.ne_one, fun _ => ⟨h.num, h.den⟩⟩

section

variable {D : Type} [Flt D] [LawfulFlt D] {cfg : Cfg D}

open Lean.Order in
theorem apiSqrt_mono (a : Expr D) : monotone fun E : Eng D => Api.sqrt E a := by
  unfold Api.sqrt; repeat' monotonicity

open Lean.Order in
theorem apiMul_mono (a b : Expr D) : monotone fun E : Eng D => Api.mul E a b := by
  unfold Api.mul; repeat' monotonicity

open Lean.Order in
theorem apiPow_mono' (a b : Expr D) : monotone fun E : Eng D => Api.pow E a b := by
  unfold Api.pow; repeat' monotonicity

theorem gives_sqrt {b : ℚ} (hb : 0 < b) {s r : ℚ} (h : RootOf cfg.maxPrime b 1 s r) :
    Gives cfg (fun E => Api.sqrt E (.num (.rat b) : Expr D)) (Roots.multiple s r) := by
  rw [Roots.multiple_eq]
  exact (tot_pow (tot_sqrt hb h).1).gives (apiSqrt_mono _)

theorem rootOf_small {max : ℤ} {q p : ℚ} {a b c d : ℕ} (hq : Roots.Within max q) (hp : Roots.Within max p) (h : Roots.Split (q * p ^ 2) a b c d) :
    RootOf max q p (if p < 0 then -((a : ℚ) / c) else (a : ℚ) / c) ((b : ℚ) / d) :=
  .small _ hq.small hp.small h.sq rfl

theorem den_root (σ : Asg) {r : ℚ} (hr : 0 < r) : den σ (Roots.root r : Expr D) = some √(r : ℝ) := by
  have hr' : (0 : ℝ) < r := by exact_mod_cast hr
  unfold Roots.root
  split
  · have h : (0 : ℝ) < ((1 / r : ℚ) : ℝ) := by push_cast; positivity
    simp only [den, Number.val, Option.bind_some, Spec.pow, h, true_or, if_true]
    congr 1
    push_cast
    rw [Real.sqrt_eq_rpow, one_div, Real.inv_rpow hr'.le, ← Real.rpow_neg hr'.le]
    norm_num
  · simp only [den, Number.val, Option.bind_some, Spec.pow, hr', true_or, if_true]
    congr 1
    push_cast
    rw [Real.sqrt_eq_rpow]

/-! ## C67 -/

/-- C67. The value of a stored multiple of a root is the real number that it stands for. -/
theorem C67_value (σ : Asg) (s r : ℚ) (hr : 0 < r) : den σ (Roots.multiple s r : Expr D) = some (s * √(r : ℝ)) := by
  unfold Roots.multiple
  split
  · rename_i h; subst h; simp [den, Number.val]
  · split
    · rename_i h; subst h; rw [den_root σ hr]; simp
    · simp only [den, denProd, den_root σ hr, Number.val, Option.bind_some, mul_one]

/-- C67. The square root of a positive rational number with numerator and denominator within the limit always returns, without
conditions, and the largest squares are taken out of the root. -/
theorem C67_root (q : ℚ) (a b c d : ℕ) (h : Roots.Split q a b c d) (hq : Roots.Within cfg.maxPrime q) :
    Gives cfg (fun E => Api.sqrt E (.num (.rat q) : Expr D)) (Roots.multiple (a / c) (b / d)) := by
  have hs := h.sq
  refine gives_sqrt hs.pos (.small ((a : ℚ) / c) hq.small hq.small.one (by simpa using hs) (by norm_num))

/-- C67. With a numerator or a denominator above the limit, the number stays below the root. -/
theorem C67_root_large (q : ℚ) (hpos : 0 < q) (hq : ¬ Roots.Within cfg.maxPrime q) :
    Gives cfg (fun E => Api.sqrt E (.num (.rat q) : Expr D)) (Roots.multiple 1 q) :=
  gives_sqrt hpos (.large (fun h => hq (Roots.within_iff.2 h.1)) rfl rfl)

/-- C67. In both cases the value of the square root is the real square root, and so for zero. -/
theorem C67_root_value (q : ℚ) (hq : 0 ≤ q) :
    ∃ e, Gives cfg (fun E => Api.sqrt E (.num (.rat q) : Expr D)) e ∧ ∀ σ : Asg, den σ e = some √(q : ℝ) := by
  rcases hq.eq_or_lt with rfl | hpos
  · refine ⟨zero, (tot_pow ?_).gives (apiSqrt_mono _), fun σ => by simp [zero_eq, den, Number.val]⟩
    have u : ∀ q : ℚ, (num (.rat q) : Expr D).isUndefined = false := fun _ => rfl
    have hn : Tot cfg (fun E => isNeg E (num (.rat (1 / 2)) : Expr D)) false := by
      simp only [isNeg, rat_lt_zero, show ¬ ((1 : ℚ) / 2 < 0) by norm_num, decide_false]; exact tot_pure _
    simp only [powCreate, half, u, isZero_ratE, isOne_ratE, decide_true, show ¬ ((1 : ℚ) / 2 = 0) by norm_num, decide_false, zero_ne_one,
      Bool.or_self, Bool.false_eq_true, if_false, if_true]
    refine tot_bind (tot_whenTrue (tot_isNeg hn)) ?_
    simp only [Bool.false_eq_true, if_false]
    exact tot_pure _
  by_cases h : Roots.Within cfg.maxPrime q
  · obtain ⟨s, r, hs⟩ := SqSplit.exists_split hpos
    refine ⟨_, gives_sqrt hpos (s := s) (.small s h.small h.small.one (by simpa using hs) (by norm_num)), fun σ => ?_⟩
    rw [C67_value σ s r hs.rpos, hs.value]
    congr 1
    push_cast
    rw [Real.sqrt_mul (by positivity), Real.sqrt_sq (by exact_mod_cast hs.spos.le)]
  · refine ⟨_, C67_root_large q hpos h, fun σ => ?_⟩
    rw [C67_value σ 1 q hpos]; simp

/-- C67. The square root of the square of a rational number is its absolute value. -/
theorem C67_square (q : ℚ) (hq : q ≠ 0) (h : Roots.Within cfg.maxPrime (q ^ 2)) :
    Gives cfg (fun E => Api.sqrt E (.num (.rat (q ^ 2)) : Expr D)) (.num (.rat |q|)) := by
  have h1 : Roots.Split (q ^ 2) q.num.natAbs 1 q.den 1 := by
    refine ⟨?_, ?_, by simpa using hq, q.den_pos, squarefree_one, squarefree_one⟩
    · rw [Rat.num_pow]; simp
    · rw [Rat.den_pow]; simp
  have h2 := C67_root (D := D) (q ^ 2) _ _ _ _ h1 h
  have e : ((q.num.natAbs : ℚ) / q.den) = |q| := by
    rw [Nat.cast_natAbs, Int.cast_abs]
    conv_rhs => rw [← Rat.num_div_den q]
    rw [abs_div, Nat.abs_cast]
  simp only [e, Nat.cast_one, div_one, Roots.multiple, if_true] at h2
  exact h2

/-- C67. A rational multiple of a root of a squarefree number, within the limit: the multiple goes below the root, and the largest
squares come out again, with the sign of the multiple. -/
theorem C67_multiple (p q : ℚ) (a b c d : ℕ) (hq : Roots.Free q) (hp : p ≠ 0) (h : Roots.Split (q * p ^ 2) a b c d)
    (h1 : Roots.Within cfg.maxPrime q) (h2 : Roots.Within cfg.maxPrime p) :
    Gives cfg (fun E => Api.mul E (.num (.rat p) : Expr D) (Roots.root q)) (Roots.multiple (if p < 0 then -(a / c) else a / c) (b / d)) ∧
    Gives cfg (fun E => Api.mul E (Roots.root q : Expr D) (.num (.rat p))) (Roots.multiple (if p < 0 then -(a / c) else a / c) (b / d)) := by
  have hr := rootOf_small h1 h2 h
  rw [Roots.multiple_eq, Roots.root_eq]
  by_cases hp1 : p = 1
  · subst hp1
    have hr' := (hq.simple cfg.maxPrime).rootOf
    have e : ((a : ℚ) / c = 1) ∧ ((b : ℚ) / d) = q := by
      refine h.sq.unique ⟨one_pos, hq.pos, by simp, by simp, hq.num, hq.den⟩
    rw [e.1, e.2]
    have t := tot_prod_one_root (D := D) (cfg := cfg) q
    have hs : (surd (if (1 : ℚ) < 0 then -1 else 1) q : Expr D) = rootE q := by
      rw [if_neg (by norm_num), surd, if_neg hq.ne_one, if_pos rfl]
    rw [hs]
    exact ⟨(tot_prod t.1).gives (apiMul_mono _ _), (tot_prod t.2).gives (apiMul_mono _ _)⟩
  · have t := tot_prod_numRoot (D := D) (hq.simple cfg.maxPrime) hp hp1 hr
    exact ⟨(tot_prod t.1).gives (apiMul_mono _ _), (tot_prod t.2).gives (apiMul_mono _ _)⟩

/-- C67. The product of the roots of two different squarefree numbers is the root of the product. -/
theorem C67_product (p q : ℚ) (a b c d : ℕ) (hm : 1 ≤ cfg.maxPrime) (hp : Roots.Free p) (hq : Roots.Free q) (hne : p ≠ q)
    (h : Roots.Split (p * q) a b c d) :
    Gives cfg (fun E => Api.mul E (Roots.root p : Expr D) (Roots.root q))
      (open Classical in if Roots.Within cfg.maxPrime (p * q) then Roots.multiple (a / c) (b / d) else Roots.multiple 1 (p * q)) := by
  rw [Roots.root_eq, Roots.root_eq, Roots.multiple_eq, Roots.multiple_eq]
  split
  · rename_i hs
    exact (tot_prod (tot_mul_roots hm (hp.simple _) (hq.simple _) hne
      (.small _ hs.small hs.small.one (by simpa using h.sq) (by norm_num)))).gives (apiMul_mono _ _)
  · rename_i hs
    exact (tot_prod (tot_mul_roots hm (hp.simple _) (hq.simple _) hne
      (.large (fun h => hs (Roots.within_iff.2 h.1)) rfl rfl))).gives (apiMul_mono _ _)

/-- C67. The root of a squarefree number times itself is the number. -/
theorem C67_product_self (hc : cfg.Ok) (q : ℚ) (hq : Roots.Free q) :
    Gives cfg (fun E => Api.mul E (Roots.root q : Expr D) (Roots.root q)) (.num (.rat q)) := by
  rw [Roots.root_eq]
  exact (tot_prod (tot_root_sq hc hq.pos hq.num hq.den)).gives (apiMul_mono _ _)

/-- C67. Multiples of the same root are added: the sum of the factors goes below the root, and the largest squares come out. -/
theorem C67_sum (p p' q : ℚ) (a b c d : ℕ) (hq : Roots.Free q) (hp : p ≠ 0) (hp' : p' ≠ 0) (hs : p + p' ≠ 0)
    (h : Roots.Split (q * (p + p') ^ 2) a b c d) (h1 : Roots.Within cfg.maxPrime q) (h2 : Roots.Within cfg.maxPrime (p + p')) :
    Gives cfg (fun E => Api.add E (Roots.multiple p q : Expr D) (Roots.multiple p' q))
      (Roots.multiple (if p + p' < 0 then -(a / c) else a / c) (b / d)) := by
  have t := tot_sum_surds (D := D) (hq.simple cfg.maxPrime) hp hp' fun _ => rootOf_small h1 h2 h
  rw [if_neg hs] at t
  rw [Roots.multiple_eq, Roots.multiple_eq, Roots.multiple_eq]
  exact (tot_sum t).gives (apiAdd_mono _ _)

/-- C67. Opposite multiples of a root cancel. -/
theorem C67_sum_zero (p q : ℚ) (hq : Roots.Free q) (hp : p ≠ 0) :
    Gives cfg (fun E => Api.add E (Roots.multiple p q : Expr D) (Roots.multiple (-p) q)) (.num (.rat 0)) := by
  have t := tot_sum_surds (D := D) (cfg := cfg) (s := 0) (r := 0) (hq.simple cfg.maxPrime) hp (neg_ne_zero.2 hp) fun h => absurd (add_neg_cancel p) h
  rw [if_pos (add_neg_cancel p), zero_eq] at t
  rw [Roots.multiple_eq, Roots.multiple_eq]
  exact (tot_sum t).gives (apiAdd_mono _ _)

/-- C67. Rational multiples of roots of squarefree numbers, within the limit, have the value of the real product, and the results
are the same expression exactly if the real numbers are the same. -/
theorem C67_equal (p q p' q' : ℚ) (hq : Roots.Free q) (hq' : Roots.Free q') (hp : p ≠ 0) (hp' : p' ≠ 0)
    (h1 : Roots.Within cfg.maxPrime q) (h2 : Roots.Within cfg.maxPrime p) (h1' : Roots.Within cfg.maxPrime q') (h2' : Roots.Within cfg.maxPrime p') :
    ∃ e e', Gives cfg (fun E => Api.mul E (.num (.rat p) : Expr D) (Roots.root q)) e ∧
      Gives cfg (fun E => Api.mul E (.num (.rat p') : Expr D) (Roots.root q')) e' ∧
      (∀ σ : Asg, den σ e = some (p * √(q : ℝ))) ∧ (∀ σ : Asg, den σ e' = some (p' * √(q' : ℝ))) ∧
      (e = e' ↔ (p : ℝ) * √(q : ℝ) = p' * √(q' : ℝ)) := by
  have key : ∀ {p q : ℚ}, Roots.Free q → p ≠ 0 → Roots.Within cfg.maxPrime q → Roots.Within cfg.maxPrime p →
      ∃ a b c d : ℕ, Roots.Split (q * p ^ 2) a b c d ∧
        Gives cfg (fun E => Api.mul E (.num (.rat p) : Expr D) (Roots.root q)) (Roots.multiple (if p < 0 then -(a / c) else a / c) (b / d)) ∧
        ∀ σ : Asg, den σ (Roots.multiple (if p < 0 then -(a / c) else a / c) (b / d) : Expr D) = some (p * √(q : ℝ)) := by
    intro p q hq hp h1 h2
    obtain ⟨a, b, c, d, h⟩ : ∃ a b c d : ℕ, Roots.Split (q * p ^ 2) a b c d := by
      obtain ⟨s, r, h⟩ := SqSplit.exists_split (c := q * p ^ 2) (by have := hq.pos; positivity)
      have n1 := h.snum
      have n2 := h.rnum
      refine ⟨s.num.natAbs, r.num.natAbs, s.den, r.den, ?_, h.den, by omega, s.den_pos, h.sfn, h.sfd⟩
      rw [h.num, Int.natCast_natAbs, Int.natCast_natAbs, abs_of_pos n1, abs_of_pos n2]
    refine ⟨a, b, c, d, h, (C67_multiple p q a b c d hq hp h h1 h2).1, fun σ => ?_⟩
    have hs := h.sq
    rw [C67_value σ _ _ hs.rpos]
    have hv := hs.value
    congr 1
    have hq0 : (0 : ℝ) < q := by exact_mod_cast hq.pos
    have e1 : √(((q * p ^ 2 : ℚ)) : ℝ) = |(p : ℝ)| * √(q : ℝ) := by
      push_cast
      rw [Real.sqrt_mul hq0.le, Real.sqrt_sq_eq_abs, mul_comm]
    have e2 : √(((q * p ^ 2 : ℚ)) : ℝ) = (((a : ℚ) / c : ℚ) : ℝ) * √(((b : ℚ) / d : ℚ) : ℝ) := by
      rw [hv]
      rw [Rat.cast_mul, Rat.cast_pow, Real.sqrt_mul (by positivity), Real.sqrt_sq (by exact_mod_cast hs.spos.le)]
    have e3 := e1.symm.trans e2
    by_cases hn : p < 0
    · rw [if_pos hn, Rat.cast_neg, neg_mul, ← e3, abs_of_neg (by exact_mod_cast hn)]; ring
    · rw [if_neg hn, ← e3, abs_of_nonneg (by exact_mod_cast not_lt.1 hn)]
  obtain ⟨a, b, c, d, k1, k2, k3⟩ := key hq hp h1 h2
  obtain ⟨a', b', c', d', k1', k2', k3'⟩ := key hq' hp' h1' h2'
  refine ⟨_, _, k2, k2', k3, k3', fun h => ?_, fun h => ?_⟩
  · have := k3 (fun _ => 0)
    rw [h, k3'] at this
    exact (Option.some.inj this).symm
  · have hq0 : (0 : ℝ) < √(q : ℝ) := Real.sqrt_pos.2 (by exact_mod_cast hq.pos)
    have hq0' : (0 : ℝ) < √(q' : ℝ) := Real.sqrt_pos.2 (by exact_mod_cast hq'.pos)
    have hsq : q * p ^ 2 = q' * p' ^ 2 := by
      have h3 := congrArg (· ^ 2) h
      simp only [mul_pow] at h3
      rw [Real.sq_sqrt (by exact_mod_cast hq.pos.le), Real.sq_sqrt (by exact_mod_cast hq'.pos.le)] at h3
      have : (p ^ 2 * q : ℚ) = p' ^ 2 * q' := by exact_mod_cast h3
      rw [mul_comm, this, mul_comm]
    have hsign : p < 0 ↔ p' < 0 := by
      have e1 : (p : ℝ) < 0 ↔ (p : ℝ) * √(q : ℝ) < 0 := ⟨fun x => mul_neg_of_neg_of_pos x hq0, fun x => by
        by_contra hc; exact absurd x (not_lt.2 (mul_nonneg (not_lt.1 hc) hq0.le))⟩
      have e2 : (p' : ℝ) < 0 ↔ (p' : ℝ) * √(q' : ℝ) < 0 := ⟨fun x => mul_neg_of_neg_of_pos x hq0', fun x => by
        by_contra hc; exact absurd x (not_lt.2 (mul_nonneg (not_lt.1 hc) hq0'.le))⟩
      rw [h] at e1
      have := e1.trans e2.symm
      exact_mod_cast this
    obtain ⟨x1, x2⟩ := k1.sq.unique (by rw [hsq]; exact k1'.sq)
    rw [x1, x2]
    simp only [hsign]

/-- C67. A negative number to a power with a rational exponent that is no integer is Undefined. -/
theorem C67_negative (q e : ℚ) (hq : q < 0) (he : e.den ≠ 1) :
    Returns cfg (fun E => Api.pow E (.num (.rat q) : Expr D) (.num (.rat e))) .undef := by
  refine Rts.returns ?_ (apiPow_mono' _ _)
  have u : ∀ q : ℚ, (num (.rat q) : Expr D).isUndefined = false := fun _ => rfl
  have he0 : e ≠ 0 := fun h => he (by rw [h]; rfl)
  have he1 : e ≠ 1 := fun h => he (by rw [h]; rfl)
  have hq1 : q ≠ 1 := by linarith
  have hint : (Number.rat e : Number D).isInt = false := by
    simp only [Number.isInt, Number.denominator, Number.isDouble]; simp [he]
  refine rts_succ (f := fun E => powCreate E (num (.rat q)) (num (.rat e))) (fun _ => rfl) ?_
  simp only [powCreate, u, isZero_ratE, isOne_ratE, he0, he1, hq.ne, hq1, decide_false, Bool.or_self, Bool.false_eq_true, if_false]
  unfold powCreateNonTrivial
  refine rts_bind (a := ((.undef : Expr D), one)) (rts_succ (f := fun E => simplPow E (num (.rat q)) (num (.rat e))) (fun _ => rfl) ?_) ?_
  · unfold simplPow
    refine rts_bind (a := true) ?_ (tot_pure _).rts
    have hneg : Tot cfg (fun E => E.isNeg (num (.rat q) : Expr D)) true := by
      refine tot_isNeg ?_
      simp only [isNeg, rat_lt_zero, hq, decide_true]; exact tot_pure _
    have h1 : Rts cfg (fun E => (do
        let nExp ← M.lift (numEval (num (.rat e) : Expr D))
        let neg ← E.isNeg (num (.rat q) : Expr D)
        match nExp with
        | some n =>
          if neg && !n.isInt then do
            M.log (.nz (num (.rat q)))
            M.logIf n.isDouble (.nint (num (.rat e)))
            pure true
          else pure false
        | none => pure false : M D Bool)) true := by
      refine rts_bind (tot_lift (numEval_rat e)).rts (rts_bind hneg.rts ?_)
      simp only [hint, Bool.not_false, Bool.and_self, if_true]
      exact rts_bind (rts_log hq.ne) (rts_bind (tot_logIf rfl).rts (tot_pure _).rts)
    obtain ⟨N, cs, h2, h3⟩ := h1
    refine ⟨N, cs, h2, fun n hn => ?_⟩
    have h4 := h3 n hn
    simp only [doesInvolveComplexNumbers]
    simp only at h4
    have h5 : ∀ m : M D Bool, m = .ok (true, cs) → M.whenTrue m = .ok (true, cs) := by
      rintro m rfl
      have : M.whenTrue (.ok (true, cs) : M D Bool) = .ok (true, [] ++ (cs ++ [])) := rfl
      rw [this, List.append_nil]; rfl
    exact h5 _ h4
  · simp only [one_eq, isOne_ratE, decide_true, if_true]
    exact (tot_pure _).rts

end

/-! ## Examples -/

namespace RootsEx

/-- 12/25: the squares 4 and 25. -/
theorem split : Roots.Split (12 / 25) 2 3 5 1 :=
  ⟨by decide +kernel, by decide +kernel, by decide, by decide, Nat.prime_three.squarefree, squarefree_one⟩

theorem within {n : ℤ} {q : ℚ} (h : decide (|q.num| ≤ n ∧ (q.den : ℤ) ≤ n) = true) : Roots.Within n q :=
  of_decide_eq_true (p := |q.num| ≤ n ∧ (q.den : ℤ) ≤ n) h

/-- sqrt(12/25) = 2/5*sqrt(3) -/
example : Gives (Cfg.std 1000) (fun E : Eng Hyb => Api.sqrt E (.num (.rat (12 / 25))))
    (.prod [.num (.rat (2 / 5)), .pow (.num (.rat 3)) (.num (.rat (1 / 2)))]) := by
  have h := C67_root (D := Hyb) (cfg := Cfg.std 1000) (12 / 25) 2 3 5 1 split (within (by decide +kernel))
  have e : (Roots.multiple ((2 : ℕ) / (5 : ℕ)) ((3 : ℕ) / (1 : ℕ)) : Expr Hyb) =
      .prod [.num (.rat (2 / 5)), .pow (.num (.rat 3)) (.num (.rat (1 / 2)))] := by
    norm_num [Roots.multiple, Roots.root]
  rwa [e] at h

/-- The numerator 1200 is above the limit 1000. -/
example : Gives (Cfg.std 1000) (fun E : Eng Hyb => Api.sqrt E (.num (.rat 1200))) (.pow (.num (.rat 1200)) (.num (.rat (1 / 2)))) := by
  have h := C67_root_large (D := Hyb) (cfg := Cfg.std 1000) 1200 (by norm_num) (by
    intro h
    have : |(1200 : ℚ).num| ≤ 1000 := h.1
    revert this; decide +kernel)
  have e : (Roots.multiple 1 1200 : Expr Hyb) = .pow (.num (.rat 1200)) (.num (.rat (1 / 2))) := by
    norm_num [Roots.multiple, Roots.root]
  rwa [e] at h

example : ∃ e : Expr Hyb, Gives (Cfg.std 1000) (fun E => Api.sqrt E (.num (.rat 1200))) e ∧ ∀ σ : Asg, den σ e = some √((1200 : ℚ) : ℝ) :=
  C67_root_value 1200 (by norm_num)

/-- sqrt((-3/2)^2) = 3/2 -/
example : Gives (Cfg.std 1000) (fun E : Eng Hyb => Api.sqrt E (.num (.rat ((-3 / 2) ^ 2)))) (.num (.rat |(-3 / 2)|)) :=
  C67_square _ (by norm_num) (within (by decide +kernel))

theorem free2 : Roots.Free 2 := ⟨by norm_num, by norm_num, Nat.prime_two.squarefree, squarefree_one⟩
theorem free6 : Roots.Free 6 :=
  ⟨by norm_num, by norm_num, show Squarefree 6 by rw [Nat.squarefree_iff_minSqFac]; decide +kernel, squarefree_one⟩

theorem split_half : Roots.Split (2 * (-1 / 2) ^ 2) 1 1 1 2 :=
  ⟨by decide +kernel, by decide +kernel, by decide, by decide, squarefree_one, Nat.prime_two.squarefree⟩

/-- -1/2*sqrt(2) = -2^(-1/2) -/
example : Gives (Cfg.std 1000) (fun E : Eng Hyb => Api.mul E (.num (.rat (-1 / 2))) (.pow (.num (.rat 2)) (.num (.rat (1 / 2)))))
    (.prod [.num (.rat (-1)), .pow (.num (.rat 2)) (.num (.rat (-1 / 2)))]) := by
  have h := (C67_multiple (D := Hyb) (cfg := Cfg.std 1000) (-1 / 2) 2 1 1 1 2 free2 (by norm_num) split_half (within (by decide +kernel))
    (within (by decide +kernel))).1
  have e : (Roots.multiple (if (-1 / 2 : ℚ) < 0 then -((1 : ℕ) / (1 : ℕ)) else (1 : ℕ) / (1 : ℕ)) ((1 : ℕ) / (2 : ℕ)) : Expr Hyb) =
      .prod [.num (.rat (-1)), .pow (.num (.rat 2)) (.num (.rat (-1 / 2)))] := by
    have : (2⁻¹ : ℚ).num = 1 := by decide +kernel
    norm_num [Roots.multiple, Roots.root, this]
  have e2 : (Roots.root 2 : Expr Hyb) = .pow (.num (.rat 2)) (.num (.rat (1 / 2))) := by
    norm_num [Roots.root]
  rwa [e, e2] at h

theorem split_prod : Roots.Split (2 * 6) 2 3 1 1 :=
  ⟨by decide +kernel, by decide +kernel, by decide, by decide, Nat.prime_three.squarefree, squarefree_one⟩

/-- sqrt(2)*sqrt(6) = 2*sqrt(3) -/
example : Gives (Cfg.std 1000) (fun E : Eng Hyb => Api.mul E (Roots.root 2) (Roots.root 6)) (Roots.multiple 2 3) := by
  have h := C67_product (D := Hyb) (cfg := Cfg.std 1000) 2 6 2 3 1 1 (by decide) free2 free6 (by norm_num) split_prod
  rw [if_pos (within (by decide +kernel))] at h
  norm_num at h
  exact h

example : Gives (Cfg.std 1000) (fun E : Eng Hyb => Api.mul E (Roots.root 6) (Roots.root 6)) (.num (.rat 6)) :=
  C67_product_self (Cfg.std_ok 1000) 6 free6

theorem split_sum : Roots.Split (2 * (3 + -1 / 2) ^ 2) 5 1 1 2 :=
  ⟨by decide +kernel, by decide +kernel, by decide, by decide, squarefree_one, Nat.prime_two.squarefree⟩

/-- 3*sqrt(2) - 1/2*sqrt(2) = 5*sqrt(1/2) -/
example : Gives (Cfg.std 1000) (fun E : Eng Hyb => Api.add E (Roots.multiple 3 2) (Roots.multiple (-1 / 2) 2)) (Roots.multiple 5 (1 / 2)) := by
  have h := C67_sum (D := Hyb) (cfg := Cfg.std 1000) 3 (-1 / 2) 2 5 1 1 2 free2 (by norm_num) (by norm_num) (by norm_num) split_sum
    (within (by decide +kernel)) (within (by decide +kernel))
  rw [if_neg (by norm_num)] at h
  norm_num at h ⊢
  exact h

example : Gives (Cfg.std 1000) (fun E : Eng Hyb => Api.add E (Roots.multiple 3 2) (Roots.multiple (-3) 2)) (.num (.rat 0)) :=
  C67_sum_zero 3 2 free2 (by norm_num)

example : ∃ e e' : Expr Hyb, Gives (Cfg.std 1000) (fun E => Api.mul E (.num (.rat 3)) (Roots.root 2)) e ∧
    Gives (Cfg.std 1000) (fun E => Api.mul E (.num (.rat 2)) (Roots.root 6)) e' ∧
    (∀ σ : Asg, den σ e = some ((3 : ℚ) * √((2 : ℚ) : ℝ))) ∧ (∀ σ : Asg, den σ e' = some ((2 : ℚ) * √((6 : ℚ) : ℝ))) ∧
    (e = e' ↔ ((3 : ℚ) : ℝ) * √((2 : ℚ) : ℝ) = (2 : ℚ) * √((6 : ℚ) : ℝ)) :=
  C67_equal 3 2 2 6 free2 free6 (by norm_num) (by norm_num) (within (by decide +kernel)) (within (by decide +kernel)) (within (by decide +kernel))
    (within (by decide +kernel))

/-- (-8)^(1/3) is Undefined. -/
example : Returns (Cfg.std 1000) (fun E : Eng Hyb => Api.pow E (.num (.rat (-8))) (.num (.rat (1 / 3)))) .undef :=
  C67_negative (-8) (1 / 3) (by norm_num) (by decide +kernel)

/-- Roots of 2 and of 1/2 are rational multiples of each other, but their sum stays a sum: `C67_sum` is about the same number
below both roots. -/
theorem C67_false_sum :
    (∃ cs, Api.add (eng (Cfg.std 1000) 30) (Roots.multiple 1 2) (Roots.multiple 1 (1 / 2)) =
      .ok ((.sum [.pow (.num (.rat 2)) (.num (.rat (-1 / 2))), .pow (.num (.rat 2)) (.num (.rat (1 / 2)))] : Expr Hyb), cs)) ∧
    √(2 : ℝ) + √(1 / 2) = 3 / 2 * √2 := by
  refine ⟨M.val_some (by krfl), ?_⟩
  rw [one_div, Real.sqrt_inv]
  have h : √(2 : ℝ) ≠ 0 := by positivity
  field_simp
  rw [Real.sq_sqrt (by norm_num)]
  norm_num

end RootsEx

/-! ## C19 with small limits -/

/-- C19 is false for small limits, too: a factor in front of the power goes below it, so the limit does not bound what is
factorised. With the limit 4, 3*(4/3)^(1/5) = 324^(1/5) becomes 6^(2/5) = 36^(1/5). -/
theorem C19_false_small_limit :
    (∃ cs, Api.mul (eng (Cfg.std 4) 30) (.num (.rat 3)) (.pow (.num (.rat (4 / 3))) (.num (.rat (1 / 5)))) =
      .ok ((.pow (.num (.rat 6)) (.num (.rat (2 / 5))) : Expr Hyb), cs)) ∧
    3 * (4 / 3 : ℝ) ^ (1 / 5 : ℝ) ≠ (6 : ℝ) ^ (2 / 5 : ℝ) := by
  refine ⟨M.val_some (by krfl), fun h => ?_⟩
  have h2 : (3 * (4 / 3 : ℝ) ^ (1 / 5 : ℝ)) ^ 5 = ((6 : ℝ) ^ (2 / 5 : ℝ)) ^ 5 := by rw [h]
  rw [mul_pow, ← Real.rpow_natCast, ← Real.rpow_natCast, ← Real.rpow_natCast, ← Real.rpow_mul (by norm_num), ← Real.rpow_mul (by norm_num)] at h2
  norm_num at h2

end Tsym
