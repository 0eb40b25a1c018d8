import Verif.QPow
import Verif.RootTree

set_option autoImplicit false
set_option linter.unusedSectionVars false
set_option linter.unusedSimpArgs false
set_option linter.unusedVariables false

/-!
# Specification for C75, powers of powers of a symbol, and its proof

The specification is given by `Merges`, `Tower.positive` and `Tower.raise`.
-/

namespace Tsym

open Expr

/-- Is `(b^p)^q` turned into `b^(p q)`? The base `b` may be known to be positive. -/
def Merges (positive : Bool) (p q : ℚ) : Prop :=
  positive = true ∨
  (p.isInt = true ∧ q.isInt = true) ∨
  (p.isInt = false ∧ q.isInt = false ∧ Odd p.den ∧ Odd q.den) ∨
  (p.isInt = true ∧ Odd p.num ∧ |p * q| ≠ 1) ∨
  (p.isInt = true ∧ Even p.num ∧ (p * q).isInt = true ∧ Even (p * q).num) ∨
  (p.isInt = false ∧ (p * q).isInt = false)

instance (b : Bool) (p q : ℚ) : Decidable (Merges b p q) := by unfold Merges; infer_instance

namespace Tower

/-- Is the power of a symbol known to be positive? It is if the symbol is, or if one of the exponents has an even
numerator. The exponents are given as a list, the outer one first. -/
def positive (s : Sym) : List ℚ → Bool
  | [] => s.positive
  | p :: l => positive s l || decide (Even p.num)

/-- The exponents of the power of a power: equal to those of the power, and the new one, unless it merges with the
previous one. -/
def raise (s : Sym) : List ℚ → ℚ → List ℚ
  | [], q => if q = 1 then [] else [q]
  | p :: l, q => if q = 1 then p :: l else if Merges (positive s l) p q then raise s l (p * q) else q :: p :: l

variable {D : Type} [Flt D]

/-- A symbol with the given exponents, the outer one first. -/
def expr (s : Sym) : List ℚ → Expr D
  | [] => .sym s
  | p :: l => .pow (expr s l) (.num (.rat p))

/-- `((s^p)^q)^…`, the inner exponent first. -/
def tree (s : Sym) (qs : List ℚ) : RootTree := qs.foldl (fun t q => .pow t q) (.var s)

/-- The exponents of `((s^p)^q)^…`. -/
def stack (s : Sym) (qs : List ℚ) : List ℚ := qs.foldl (raise s) []

variable [LawfulFlt D] {cfg : Cfg D}

/-- No exponent is zero or one, and none merges with the next. -/
def Irred (s : Sym) : List ℚ → Prop
  | [] => True
  | [p] => p ≠ 0 ∧ p ≠ 1
  | q :: p :: l => q ≠ 0 ∧ q ≠ 1 ∧ ¬ Merges (positive s l) p q ∧ Irred s (p :: l)

theorem Irred.tail {s : Sym} {p : ℚ} {l : List ℚ} (h : Irred s (p :: l)) : Irred s l := by
  cases l with
  | nil => trivial
  | cons q l => exact h.2.2.2

theorem Irred.head {s : Sym} {p : ℚ} {l : List ℚ} (h : Irred s (p :: l)) : p ≠ 0 ∧ p ≠ 1 := by
  cases l with
  | nil => exact h
  | cons q l => exact ⟨h.1, h.2.1⟩

/-- The base and the exponent that are returned by simplifyPower. -/
def pair (s : Sym) : List ℚ → ℚ → List ℚ × ℚ
  | [], q => ([], q)
  | p :: l, q => if Merges (positive s l) p q then pair s l (p * q) else (p :: l, q)

theorem pair_stable {s : Sym} {p : ℚ} {l : List ℚ} (h : Irred s (p :: l)) : pair s l p = (l, p) := by
  cases l with
  | nil => rfl
  | cons q l => simp only [pair, h.2.2.1, if_false]

theorem pair_raise {s : Sym} {l : List ℚ} (h : Irred s l) (q : ℚ) :
    (if (pair s l q).2 = 1 then (pair s l q).1 else (pair s l q).2 :: (pair s l q).1) = raise s l q := by
  induction l generalizing q with
  | nil => rfl
  | cons p l ih =>
    by_cases hq : q = 1
    · subst hq
      simp only [pair, raise, if_true, mul_one]
      by_cases h1 : Merges (positive s l) p 1
      · simp only [h1, if_true, pair_stable h, h.head.2, if_false]
      · simp only [h1, if_true, if_false]
    · simp only [pair, raise, hq, if_false]
      by_cases h1 : Merges (positive s l) p q
      · simp only [h1, if_true]; exact ih h.tail _
      · simp only [h1, hq, if_false]

theorem raise_irred {s : Sym} {l : List ℚ} (h : Irred s l) {q : ℚ} (hq : q ≠ 0) : Irred s (raise s l q) := by
  induction l generalizing q with
  | nil =>
    simp only [raise]
    split_ifs with h1
    · trivial
    · exact ⟨hq, h1⟩
  | cons p l ih =>
    simp only [raise]
    split_ifs with h1 h2
    · exact h
    · exact ih h.tail (mul_ne_zero h.head.1 hq)
    · exact ⟨hq, h1, h2, h⟩

/-! ## The library -/

theorem tot_isNeg_expr (s : Sym) (l : List ℚ) : Tot cfg (fun E => Tsym.isNeg E (expr s l : Expr D)) false := by
  cases l <;> simp only [expr, isNeg] <;> exact tot_pure _

theorem tot_isPos_expr (s : Sym) (l : List ℚ) : Tot cfg (fun E => Tsym.isPos E (expr s l : Expr D)) (positive s l) := by
  induction l with
  | nil => exact tot_isPos_sym s
  | cons p l ih =>
    simp only [expr, isPos, positive]
    refine tot_bind (tot_whenTrue (tot_isPos ih)) ?_
    cases positive s l
    · simp only [Bool.false_eq_true, if_false, Bool.false_or]
      refine tot_bind (tot_lift (numEval_rat p)) ?_
      have : ((Number.rat p : Number D).isRational && (Number.rat p : Number D).numerator % 2 == 0) = decide (Even p.num) := by
        simp only [Number.isRational, Number.numerator, Bool.true_and]
        rcases Int.even_or_odd p.num with h | h
        · simp [h, Int.even_iff.mp h]
        · simp [Int.not_even_iff_odd.mpr h, Int.odd_iff.mp h]
      simp only [this]
      exact tot_pure _
    · simp only [if_true, Bool.true_or]
      exact tot_pure _

theorem den_isInt (q : ℚ) : decide (q.den = 1) = q.isInt := rfl

theorem isInt_rat (q : ℚ) : (Number.rat q : Number D).isInt = q.isInt := by
  simp [Number.isInt, Number.isRational, Number.denominator, Rat.isInt]

theorem isFrac_rat (q : ℚ) : (Number.rat q : Number D).isFraction = !q.isInt := by
  rw [NumPowerSimpl.isFraction_rat, Rat.isInt]; simp; rfl

theorem isOdd_rat (q : ℚ) : (Number.rat q : Number D).isOddInt = (q.isInt && decide (Odd q.num)) := by
  rw [Number.isOddInt, isInt_rat]
  congr 1
  simp only [Number.numerator, Int.odd_iff]
  rcases Int.emod_two_eq_zero_or_one q.num with h | h <;> simp [h]

theorem isEven_rat (q : ℚ) : (Number.rat q : Number D).isEvenInt = (q.isInt && decide (Even q.num)) := by
  rw [Number.isEvenInt, isInt_rat]
  congr 1
  simp only [Number.numerator, Int.even_iff]
  rcases Int.emod_two_eq_zero_or_one q.num with h | h <;> simp [h]

theorem abs_eqv_one (q : ℚ) : (Number.rat q : Number D).abs.eqv 1 = decide (|q| = 1) := by
  unfold Number.abs
  rw [Number.zero_def, lt_rat]
  by_cases h : q < 0
  · simp only [h, decide_true, if_true, Number.neg, NumPowerSimpl.rat_eqv_one, abs_of_neg h]
  · simp only [h, decide_false, Bool.false_eq_true, if_false, NumPowerSimpl.rat_eqv_one, abs_of_nonneg (not_lt.mp h)]

theorem twoFrac_rat (p q : ℚ) : areTwoFractionExpWithOddDenom (num (.rat p) : Expr D) (num (.rat q)) =
    decide (p.isInt = false ∧ q.isInt = false ∧ Odd p.den ∧ Odd q.den) := by
  simp only [areTwoFractionExpWithOddDenom, isFrac_rat, Number.denominator]
  have : ∀ n : ℕ, ((n : ℤ) % 2 != 0) = decide (Odd n) := by
    intro n
    rcases Nat.even_or_odd n with h | h
    · have : (n : ℤ) % 2 = 0 := by have := Nat.even_iff.mp h; omega
      simp [Nat.not_odd_iff_even.mpr h, this]
    · have : (n : ℤ) % 2 = 1 := by have := Nat.odd_iff.mp h; omega
      simp [h, this]
  rw [this, this]
  cases p.isInt <;> cases q.isInt <;> simp

theorem second_rat (p q : ℚ) : doContractExpSecondN (Number.rat p : Number D) (.rat q) =
    decide ((p.isInt = true ∧ Odd p.num ∧ |p * q| ≠ 1) ∨
  (p.isInt = true ∧ Even p.num ∧ (p * q).isInt = true ∧ Even (p * q).num) ∨
  (p.isInt = false ∧ (p * q).isInt = false)) := by
  have hq : ((Number.rat q : Number D).isInt || (Number.rat q : Number D).isFraction) = true := by
    rw [isInt_rat, isFrac_rat]; cases q.isInt <;> rfl
  simp only [doContractExpSecondN, isOdd_rat, isEven_rat, isFrac_rat, Number.mul, abs_eqv_one]
  rw [isFrac_rat] at hq
  cases h : p.isInt
  · simp only [Bool.false_and, Bool.false_eq_true, if_false, Bool.not_false, Bool.true_and, if_true, false_and, false_or, true_and, hq]
    cases (p * q).isInt <;> rfl
  · rcases Int.even_or_odd p.num with h' | h'
    · have : ¬ Odd p.num := Int.not_odd_iff_even.mpr h'
      simp [h', this]
    · have : ¬ Even p.num := Int.not_even_iff_odd.mpr h'
      simp [h', this]

theorem tot_newPowerBase {b : Expr D} {v : Bool} (hp : Tot cfg (fun E => Tsym.isPos E b) v)
    (hn : Tot cfg (fun E => Tsym.isNeg E b) false) (p q : ℚ) :
    Tot cfg (fun E => newPowerBase E b (num (.rat p)) (num (.rat q))) (if Merges v p q then some b else none) := by
  unfold newPowerBase
  have key : Tot cfg (fun E => doContractExpFirst E b (num (.rat p)) (num (.rat q)))
      (decide (v = true ∨ (p.isInt = true ∧ q.isInt = true) ∨
        (p.isInt = false ∧ q.isInt = false ∧ Odd p.den ∧ Odd q.den))) := by
    unfold doContractExpFirst
    refine tot_bind (tot_lift (Qf.isInteger_rat p)) ?_
    rw [den_isInt]
    refine tot_bind (a := p.isInt && q.isInt) ?_ ?_
    · cases p.isInt
      · simp only [Bool.false_eq_true, if_false, Bool.false_and]; exact tot_pure _
      · simp only [if_true, Bool.true_and]; exact tot_lift (Qf.isInteger_rat q)
    rw [twoFrac_rat]
    by_cases h : (p.isInt && q.isInt) = true
    · have h' := h
      rw [Bool.and_eq_true] at h'
      simp only [h, if_true, h', and_self, true_or, or_true, decide_true]
      exact tot_pure _
    · have h' := h
      rw [Bool.and_eq_true] at h'
      simp only [h, if_false, h', false_or, Bool.false_eq_true]
      by_cases h2 : p.isInt = false ∧ q.isInt = false ∧ Odd p.den ∧ Odd q.den
      · simp only [h2, and_self, or_true, decide_true, if_true]; exact tot_pure _
      · simp only [h2, or_false, decide_false, Bool.false_eq_true, if_false, Bool.decide_eq_true]
        exact tot_whenTrue (tot_isPos hp)
  refine tot_bind key ?_
  by_cases h1 : v = true ∨ (p.isInt = true ∧ q.isInt = true) ∨ (p.isInt = false ∧ q.isInt = false ∧ Odd p.den ∧ Odd q.den)
  · have hm : Merges v p q := by
      rcases h1 with h | h | h
      · exact .inl h
      · exact .inr (.inl h)
      · exact .inr (.inr (.inl h))
    simp only [h1, hm, decide_true, if_true]
    exact tot_pure _
  · simp only [h1, decide_false, Bool.false_eq_true, if_false]
    refine tot_bind (a := false) (tot_whenTrue (tot_bind (tot_isNeg hn) ?_)) ?_
    · simp only [Bool.false_eq_true, if_false]; exact tot_pure _
    simp only [Bool.false_eq_true, if_false]
    have hm : Merges v p q ↔ ((p.isInt = true ∧ Odd p.num ∧ |p * q| ≠ 1) ∨
        (p.isInt = true ∧ Even p.num ∧ (p * q).isInt = true ∧ Even (p * q).num) ∨
        (p.isInt = false ∧ (p * q).isInt = false)) := by
      unfold Merges
      rw [not_or, not_or] at h1
      simp only [h1.1, h1.2.1, h1.2.2, false_or, Bool.false_eq_true]
    refine tot_bind (a := decide (Merges v p q)) ?_ ?_
    · unfold doContractExpSecond
      refine tot_bind (tot_lift (numEval_rat p)) (tot_bind (tot_lift (numEval_rat q)) ?_)
      simp only [second_rat]
      rw [show decide ((p.isInt = true ∧ Odd p.num ∧ |p * q| ≠ 1) ∨ (p.isInt = true ∧ Even p.num ∧ (p * q).isInt = true ∧ Even (p * q).num) ∨
        (p.isInt = false ∧ (p * q).isInt = false)) = decide (Merges v p q) from decide_eq_decide.mpr hm.symm]
      by_cases h : Merges v p q
      · simp only [h, decide_true, if_true]
        exact tot_bind (tot_logIf rfl) (tot_pure _)
      · simp only [h, decide_false, Bool.false_eq_true, if_false]
        exact tot_pure _
    · by_cases h : Merges v p q
      · simp only [h, decide_true, if_true]; exact tot_pure _
      · simp only [h, decide_false, Bool.false_eq_true, if_false]; exact tot_pure _

theorem tot_simplPow_expr (s : Sym) {l : List ℚ} (h : Irred s l) {q : ℚ} (hq : q ≠ 0) :
    Tot cfg (fun E => simplPow E (expr s l : Expr D) (num (.rat q))) (expr s (pair s l q).1, num (.rat (pair s l q).2)) := by
  induction l generalizing q with
  | nil =>
    simp only [expr, simplPow, pair]
    refine tot_bind (Qf.tot_noComplex (tot_isNeg_expr s []) (.inr rfl)) ?_
    simp only [Bool.false_eq_true, if_false]
    exact tot_pure _
  | cons p l ih =>
    unfold simplPow
    refine tot_bind (Qf.tot_noComplex (tot_isNeg_expr s (p :: l)) (.inr rfl)) ?_
    simp only [Bool.false_eq_true, if_false, expr, pair]
    unfold simplifyPowerBase
    refine tot_bind (tot_newPowerBase (tot_isPos_expr s l) (tot_isNeg_expr s l) p q) ?_
    by_cases hm : Merges (positive s l) p q
    · simp only [hm, if_true]
      refine tot_bind (tot_prod (tot_num_num h.head.1 hq)) ?_
      have e : (num (.rat (p * q)) : Expr D).isZero = false := by rw [isZero_ratE]; simpa using ⟨h.head.1, hq⟩
      simp only [e, Bool.false_eq_true, if_false]
      exact tot_simplPow (ih h.tail (mul_ne_zero h.head.1 hq))
    · simp only [hm, if_false]
      exact tot_pure _

theorem tot_pow_expr (s : Sym) {l : List ℚ} (h : Irred s l) {q : ℚ} (hq : q ≠ 0) :
    Tot cfg (fun E => powCreate E (expr s l : Expr D) (num (.rat q))) (expr s (raise s l q)) := by
  have e1 : (num (.rat q) : Expr D).isUndefined = false := rfl
  have e2 : (num (.rat q) : Expr D).isZero = false := by rw [isZero_ratE]; simpa using hq
  have e3 : (num (.rat q) : Expr D).isOne = decide (q = 1) := isOne_ratE _
  have u : ∀ l, (expr s l : Expr D).isUndefined = false := fun l => by cases l <;> rfl
  have o : ∀ l, (expr s l : Expr D).isOne = false := fun l => by cases l <;> rfl
  have z : ∀ l, (expr s l : Expr D).isZero = false := fun l => by cases l <;> rfl
  simp only [powCreate, u, o, z, e1, e2, e3, Bool.or_self, Bool.false_eq_true, if_false, decide_eq_true_eq]
  by_cases hq1 : q = 1
  · subst hq1
    simp only [if_true]
    have : raise s l 1 = l := by cases l <;> simp [raise]
    rw [this]; exact tot_pure _
  · simp only [hq1, if_false]
    unfold powCreateNonTrivial
    refine tot_bind (tot_simplPow (tot_simplPow_expr s h hq)) ?_
    rw [← pair_raise h q]
    simp only [isOne_ratE, decide_eq_true_eq, o, Bool.false_eq_true, if_false]
    split_ifs with h1
    · exact tot_pure _
    · exact tot_pure _

theorem stack_irred (s : Sym) (qs : List ℚ) (hq : ∀ q ∈ qs, q ≠ 0) : Irred s (stack s qs) := by
  induction qs using List.reverseRecOn with
  | nil => trivial
  | append_singleton qs q ih =>
    simp only [stack, List.foldl_append, List.foldl_cons, List.foldl_nil]
    exact raise_irred (ih fun x hx => hq x (by simp [hx])) (hq q (by simp))

theorem tot_run (s : Sym) (qs : List ℚ) (hq : ∀ q ∈ qs, q ≠ 0) :
    Tot cfg (fun E => (tree s qs).run E) (expr s (stack s qs) : Expr D) := by
  induction qs using List.reverseRecOn with
  | nil => exact tot_pure _
  | append_singleton qs q ih =>
    have h1 : ∀ x ∈ qs, x ≠ 0 := fun x hx => hq x (by simp [hx])
    simp only [tree, stack, List.foldl_append, List.foldl_cons, List.foldl_nil]
    exact tot_bind (ih h1) (tot_pow (tot_pow_expr s (stack_irred s qs h1) (hq q (by simp))))

/-- The zeroth power of anything defined is one. -/
theorem tot_pow_zero {b : Expr D} (hb : b.isUndefined = false) : Tot cfg (fun E => powCreate E b (num (.rat 0))) (num (.rat 1) : Expr D) := by
  have e2 : (num (.rat 0) : Expr D).isZero = true := by rw [isZero_ratE]; simp
  simp only [powCreate, show (num (.rat 0) : Expr D).isUndefined = false from rfl, hb,
    e2, Bool.or_self, Bool.false_eq_true, if_false, Bool.true_or, if_true]
  rw [← one_eq]
  exact tot_pure _

theorem tot_one_pow (q : ℚ) : Tot cfg (fun E => powCreate E (num (.rat 1)) (num (.rat q))) (num (.rat 1) : Expr D) := by
  have e2 : (num (.rat 1) : Expr D).isOne = true := by rw [isOne_ratE]; simp
  simp only [powCreate, show ∀ q, (num (.rat q) : Expr D).isUndefined = false from fun _ => rfl,
    e2, Bool.or_self, Bool.false_eq_true, if_false, Bool.or_true, if_true]
  rw [← one_eq]
  exact tot_pure _

theorem tot_run_zero (s : Sym) (qs : List ℚ) (hq : 0 ∈ qs) :
    Tot cfg (fun E => (tree s qs).run E) (num (.rat 1) : Expr D) := by
  induction qs using List.reverseRecOn with
  | nil => cases hq
  | append_singleton qs q ih =>
    simp only [tree, List.foldl_append, List.foldl_cons, List.foldl_nil]
    by_cases h : 0 ∈ qs
    · exact tot_bind (ih h) (tot_pow (tot_one_pow q))
    · have h0 : q = 0 := by simpa [h, eq_comm] using hq
      subst h0
      refine tot_bind (tot_run s qs fun x hx e => h (e ▸ hx)) (tot_pow (tot_pow_zero ?_))
      cases stack s qs <;> rfl

/-! ## Products -/

/-- Two powers of a symbol with the sum of the exponents an integer, where this would hide that the powers could be
undefined. -/
def Kept (s : Sym) (p q : ℚ) : Prop := s.positive = false ∧ p.isInt = false ∧ q.isInt = false ∧ (p + q).isInt = true

instance (s : Sym) (p q : ℚ) : Decidable (Kept s p q) := by unfold Kept; infer_instance

/-- A power of a symbol. -/
def power (s : Sym) (p : ℚ) : Expr D := if p = 0 then .num (.rat 1) else if p = 1 then .sym s else .pow (.sym s) (.num (.rat p))

theorem power_eq (s : Sym) {p : ℚ} (h : p ≠ 0) : (power s p : Expr D) = expr s (raise s [] p) := by
  simp only [power, h, if_false, raise]
  split_ifs <;> rfl

theorem tot_power (s : Sym) (p : ℚ) : Tot cfg (fun E => powCreate E (.sym s : Expr D) (num (.rat p))) (power s p) := by
  by_cases h : p = 0
  · subst h
    have e2 : (num (.rat 0) : Expr D).isZero = true := by rw [isZero_ratE]; simp
    simp only [powCreate, show (num (.rat 0) : Expr D).isUndefined = false from rfl, show (Expr.sym s : Expr D).isUndefined = false from rfl,
      e2, Bool.or_self, Bool.false_eq_true, if_false, Bool.true_or, if_true, power]
    rw [← one_eq]
    exact tot_pure _
  · rw [power_eq s h]
    exact tot_pow_expr (l := []) s trivial h

theorem power_cases (s : Sym) {p : ℚ} (h : p ≠ 0) :
    (power s p : Expr D) = .sym s ∧ p = 1 ∨ (power s p : Expr D) = .pow (.sym s) (.num (.rat p)) ∧ p ≠ 1 := by
  by_cases h1 : p = 1
  · exact .inl ⟨by simp [power, h1], h1⟩
  · exact .inr ⟨by simp only [power, h, h1, if_false], h1⟩

theorem tot_two_powers (s : Sym) {p q : ℚ} (hp : p ≠ 0) (hq : q ≠ 0) :
    Tot cfg (fun E => simplTwoFactors E (power s p : Expr D) (power s q))
      (if Kept s p q then [power s p, power s q] else [power s (p + q)]) := by
  have b : ∀ {p : ℚ}, p ≠ 0 → (power s p : Expr D).base = .sym s := by
    intro p h; rcases power_cases (D := D) s h with ⟨e, _⟩ | ⟨e, _⟩ <;> rw [e] <;> rfl
  have x : ∀ {p : ℚ}, p ≠ 0 → (power s p : Expr D).exp = .num (.rat p) := by
    intro p h; rcases power_cases (D := D) s h with ⟨e, rfl⟩ | ⟨e, _⟩ <;> rw [e]
    · simp only [Expr.exp]; exact one_eq
    · rfl
  have np : ∀ {p : ℚ}, p ≠ 0 → (power s p : Expr D).isProduct = false := by
    intro p h; rcases power_cases (D := D) s h with ⟨e, rfl⟩ | ⟨e, _⟩ <;> rw [e] <;> rfl
  have no : ∀ {p : ℚ}, p ≠ 0 → (power s p : Expr D).isOne = false := by
    intro p h; rcases power_cases (D := D) s h with ⟨e, rfl⟩ | ⟨e, _⟩ <;> rw [e] <;> rfl
  have nc : ∀ {p : ℚ}, p ≠ 0 → (power s p : Expr D).isConst = false := by
    intro p h; rcases power_cases (D := D) s h with ⟨e, rfl⟩ | ⟨e, _⟩ <;> rw [e] <;> simp [Expr.isConst]
  have he : isEqual (.sym s : Expr D) (.sym s) = true := isEqual_refl (exact_sym s)
  simp only [simplTwoFactors, np hp, np hq, Bool.or_self, Bool.false_eq_true, if_false, simplTwoFactorsWithoutProduct, no hp, no hq, nc hp,
    Bool.false_and, haveEqualBases, b hp, b hq, he, if_true, simplTwoEqualBases, x hp, x hq]
  refine tot_bind (tot_sum_num (cfg := cfg) p q) ?_
  refine tot_bind (tot_silent (tot_isPos (tot_isPos_sym s))) ?_
  refine tot_bind (a := s.positive) ?_ ?_
  · cases s.positive
    · simp only [Bool.false_eq_true, if_false]; exact tot_silent (tot_isNeg (tot_isNeg_sym s))
    · simp only [if_true]; exact tot_pure _
  have fr : ∀ p : ℚ, isFractionNumeric (num (.rat p) : Expr D) = .ok (!p.isInt) := by
    intro p
    simp only [isFractionNumeric, numEval_rat, bind, Except.bind, isFrac_rat]; rfl
  refine tot_bind (a := decide (Kept s p q)) ?_ ?_
  · have hk : decide (Kept s p q) = (!s.positive && (!p.isInt && (!q.isInt && (p + q).isInt))) := by
      rw [Bool.eq_iff_iff, decide_eq_true_eq]
      simp [Kept]
    rw [hk]
    cases hs : s.positive
    · simp only [Bool.false_eq_true, if_false, Bool.not_false, Bool.true_and]
      refine tot_bind (tot_lift (fr p)) ?_
      cases hpi : p.isInt
      · simp only [Bool.not_false, if_true, Bool.true_and]
        refine tot_bind (tot_lift (fr q)) ?_
        cases hqi : q.isInt
        · simp only [Bool.not_false, if_true, Bool.true_and]
          exact tot_lift (Qf.isInteger_rat _)
        · simp only [Bool.not_true, Bool.false_eq_true, if_false, Bool.false_and]
          exact tot_pure _
      · simp only [Bool.not_true, Bool.false_eq_true, if_false, Bool.false_and]
        refine tot_bind (tot_pure _) ?_
        simp only [Bool.false_eq_true, if_false]
        exact tot_pure _
    · simp only [if_true, Bool.not_true, Bool.false_and]; exact tot_pure _
  · by_cases h : Kept s p q
    · simp only [h, decide_true, if_true]; exact tot_pure _
    · simp only [h, decide_false, Bool.false_eq_true, if_false]
      exact tot_bind (tot_pow (tot_power s (p + q))) (tot_pure _)

theorem tot_mul_powers (s : Sym) {p q : ℚ} (hp : p ≠ 0) (hq : q ≠ 0) :
    Tot cfg (fun E => prodCreate E [power s p, power s q])
      (if Kept s p q then .prod [power s p, power s q] else power s (p + q) : Expr D) := by
  have nu : ∀ {p : ℚ}, p ≠ 0 → (power s p : Expr D).isUndefined = false := by
    intro p h; rcases power_cases (D := D) s h with ⟨e, rfl⟩ | ⟨e, _⟩ <;> rw [e] <;> rfl
  have nz : ∀ {p : ℚ}, p ≠ 0 → (power s p : Expr D).isZero = false := by
    intro p h; rcases power_cases (D := D) s h with ⟨e, rfl⟩ | ⟨e, _⟩ <;> rw [e] <;> rfl
  have nc : ∀ {p : ℚ}, p ≠ 0 → (power s p : Expr D).isConst = false := by
    intro p h; rcases power_cases (D := D) s h with ⟨e, rfl⟩ | ⟨e, _⟩ <;> rw [e] <;> simp [Expr.isConst]
  have f : ∀ {p : ℚ}, p ≠ 0 → factors (power s p : Expr D) = [power s p] := by
    intro p h; rcases power_cases (D := D) s h with ⟨e, rfl⟩ | ⟨e, _⟩ <;> rw [e] <;> rfl
  have ne : ∀ {p : ℚ} {l}, p ≠ 0 → (power s p : Expr D) ≠ .prod l := by
    intro p l h; rcases power_cases (D := D) s h with ⟨e, rfl⟩ | ⟨e, _⟩ <;> rw [e] <;> exact nofun
  have tr : ∀ {p : ℚ}, p ≠ 0 → isContractableTrigFctPower (power s p : Expr D) = pure false := by
    intro p h; rcases power_cases (D := D) s h with ⟨e, rfl⟩ | ⟨e, _⟩ <;> rw [e] <;> rfl
  simp only [prodCreate, List.any_cons, List.any_nil, nu hp, nu hq, nz hp, nz hq, Bool.or_self, Bool.false_eq_true, if_false]
  refine tot_bind (a := if Kept s p q then [power s p, power s q] else [power s (p + q)]) (tot_prodSimplify ?_) ?_
  · unfold simplProd
    refine tot_bind (a := [power s p, power s q]) ?_ ?_
    · have := tot_extract (cfg := cfg) (u := [power s p, power s q]) (by
        intro l hl
        simp only [List.mem_cons, List.not_mem_nil, or_false] at hl
        rcases hl with hl | hl
        · exact absurd hl.symm (ne hp)
        · exact absurd hl.symm (ne hq))
      simp only [List.flatMap_cons, List.flatMap_nil, f hp, f hq] at this
      exact this
    · exact tot_bind (a := [power s p, power s q])
        (tot_contract_pw (simpl := fun E => contractTrigFctPowers E) (by simp [areContractableTrigFctPowers, tr hp])) (tot_two_powers s hp hq)
  · split_ifs with h
    · simp only [needsExpansion, constElements, List.filter_cons, List.filter_nil, nc hp, nc hq, Bool.false_eq_true, if_false, List.isEmpty_nil, if_true]
      exact tot_pure _
    · exact tot_pure _

end Tower

end Tsym
