import Verif.GcdBase
import Verif.NumEvalThm
import Verif.Props.Values

/-!
# C56: which expressions are taken for polynomials
-/

set_option autoImplicit false
set_option linter.unusedSectionVars false

namespace Tsym

open Expr

variable {D : Type} [Flt D] [LawfulFlt D]

/-- Polynomials with rational coefficients, the exponents at most 2^31 - 1. -/
inductive PolyShape : Expr D → Prop
  | sym (s : Sym) : PolyShape (.sym s)
  | num (q : ℚ) : PolyShape (.num (.rat q))
  | pow (b : Expr D) (n : ℤ) : PolyShape b → 0 < n → n < 2 ^ 31 → PolyShape (.pow b (.int n))
  | sum (l : List (Expr D)) : (∀ a ∈ l, PolyShape a) → PolyShape (.sum l)
  | prod (l : List (Expr D)) : (∀ a ∈ l, PolyShape a) → PolyShape (.prod l)

/-- The exponents of powers, outside of the arguments of functions, are numbers. -/
inductive NumExps : Expr D → Prop
  | sym (s : Sym) : NumExps (.sym s)
  | num (n : Number D) : NumExps (.num n)
  | cst (c : Cst) : NumExps (.cst c)
  | undef : NumExps .undef
  | fn (f : Fn) (a : Expr D) : NumExps (.fn f a)
  | atan2 (a b : Expr D) : NumExps (.atan2 a b)
  | pow (b : Expr D) (n : Number D) : NumExps b → NumExps (.pow b (.num n))
  | sum (l : List (Expr D)) : (∀ a ∈ l, NumExps a) → NumExps (.sum l)
  | prod (l : List (Expr D)) : (∀ a ∈ l, NumExps a) → NumExps (.prod l)

theorem hasValidOperands_iff {l : List (Expr D)} :
    hasValidOperands l = .ok true ↔ ∀ a ∈ l, hasValidType a = .ok true := by
  induction l with
  | nil => simp [hasValidOperands]; rfl
  | cons a l ih =>
    simp only [hasValidOperands, Except.bind_ok, List.forall_mem_cons, ← ih]
    constructor
    · rintro ⟨v, h1, h2⟩
      cases v
      · simp [Except.pure_ok] at h2
      · exact ⟨h1, by simpa using h2⟩
    · rintro ⟨h1, h2⟩
      exact ⟨true, h1, by simpa using h2⟩

theorem hasValidOperands_ok {l : List (Expr D)} (h : ∀ a ∈ l, ∃ b, hasValidType a = .ok b) :
    ∃ b, hasValidOperands l = .ok b := by
  induction l with
  | nil => exact ⟨true, rfl⟩
  | cons a l ih =>
    obtain ⟨v, h1⟩ := h a (by simp)
    obtain ⟨w, h2⟩ := ih fun b hb => h b (by simp [hb])
    rw [hasValidOperands, h1]
    cases v
    · exact ⟨false, rfl⟩
    · exact ⟨w, h2⟩

theorem hasValidType_pow_iff {b e : Expr D} :
    hasValidType (.pow b e) = .ok true ↔ hasValidType b = .ok true ∧
      ∃ n : ℤ, numEval e = .ok (some (.rat n)) ∧ 0 < n ∧ n < 2 ^ 31 := by
  rw [hasValidType]
  simp only [Except.bind_ok]
  constructor
  · rintro ⟨x, h1, v, h2, h3⟩
    cases x with
    | none => simp [Except.pure_ok] at h3
    | some m =>
      simp only [Except.pure_ok, Bool.and_eq_true] at h3
      obtain ⟨rfl, ⟨h4, h5⟩, h6⟩ := h3
      refine ⟨h2, ?_⟩
      cases m with
      | dbl d => simp [Number.isInt, Number.isRational] at h4
      | rat q =>
        have hq := isInt_num h4
        refine ⟨q.num, by rw [h1, ← hq], ?_, ?_⟩
        · rw [Number.zero_def, lt_rat] at h6
          simpa using h6
        · have := (of_decide_eq_true (p := intMin ≤ q.num ∧ q.num ≤ intMax) h5).2
          unfold intMax at this
          omega
  · rintro ⟨h1, n, h2, h3, h4⟩
    refine ⟨_, h2, true, h1, ?_⟩
    simp only [Except.pure_ok, Bool.true_and, Bool.and_eq_true]
    refine ⟨⟨Number.isInt_rat_int n, ?_⟩, ?_⟩
    · have : intMin ≤ n ∧ n ≤ intMax := by
        unfold intMin intMax
        omega
      exact decide_eq_true (p := intMin ≤ (n : ℚ).num ∧ (n : ℚ).num ≤ intMax) (by rwa [Rat.num_intCast])
    · rw [Number.zero_def, lt_rat]
      simpa using h3

/-- C56. An expression is taken for a polynomial if and only if it is put together from symbols and
rational numbers by sums, products and powers with exponents 1, ..., 2^31 - 1. Finding this out never fails. -/
theorem C56_accepted (u : Expr D) (h : NumExps u) :
    (hasValidType u = .ok true ∨ hasValidType u = .ok false) ∧
    (hasValidType u = .ok true ↔ PolyShape u) := by
  induction h with
  | sym s => exact ⟨.inl rfl, fun _ => .sym s, fun _ => rfl⟩
  | num n =>
    cases n with
    | rat q => exact ⟨.inl rfl, fun _ => .num q, fun _ => rfl⟩
    | dbl d => exact ⟨.inr rfl, ⟨fun h => (by cases h), fun h => (by cases h)⟩⟩
  | cst c => exact ⟨.inr rfl, ⟨fun h => (by cases h), fun h => (by cases h)⟩⟩
  | undef => exact ⟨.inr rfl, ⟨fun h => (by cases h), fun h => (by cases h)⟩⟩
  | fn f a => exact ⟨.inr rfl, ⟨fun h => (by cases h), fun h => (by cases h)⟩⟩
  | atan2 a b => exact ⟨.inr rfl, ⟨fun h => (by cases h), fun h => (by cases h)⟩⟩
  | pow b n _ ih =>
    constructor
    · have he : numEval (.num n : Expr D) = .ok (some n) := by rw [numEval]; rfl
      rw [hasValidType, he]
      rcases ih.1 with h | h <;> rw [h]
      · exact (Bool.eq_false_or_eq_true _).imp (congrArg Except.ok) (congrArg Except.ok)
      · exact .inr rfl
    · rw [hasValidType_pow_iff, ih.2]
      constructor
      · rintro ⟨h1, m, h2, h3, h4⟩
        rw [numEval] at h2
        cases h2
        exact .pow b m h1 h3 h4
      · intro h
        cases h with
        | pow _ m h1 h2 h3 => exact ⟨h1, m, by rw [numEval]; rfl, h2, h3⟩
  | sum l _ ih =>
    rw [hasValidType]
    constructor
    · obtain ⟨b, hb⟩ := hasValidOperands_ok fun a ha => (ih a ha).1.elim (fun h => ⟨_, h⟩) fun h => ⟨_, h⟩
      cases b
      · exact .inr hb
      · exact .inl hb
    · rw [hasValidOperands_iff]
      exact ⟨fun h => .sum l fun a ha => (ih a ha).2.1 (h a ha), fun h => by
        cases h with | sum _ h => exact fun a ha => (ih a ha).2.2 (h a ha)⟩
  | prod l _ ih =>
    rw [hasValidType]
    constructor
    · obtain ⟨b, hb⟩ := hasValidOperands_ok fun a ha => (ih a ha).1.elim (fun h => ⟨_, h⟩) fun h => ⟨_, h⟩
      cases b
      · exact .inr hb
      · exact .inl hb
    · rw [hasValidOperands_iff]
      exact ⟨fun h => .prod l fun a ha => (ih a ha).2.1 (h a ha), fun h => by
        cases h with | prod _ h => exact fun a ha => (ih a ha).2.2 (h a ha)⟩

theorem accepted_sum {l : List (Expr D)}
    (ih : ∀ a ∈ l, ∃ p : MvPolynomial Sym ℚ, ∀ (σ : Asg) (x : ℝ), den σ a = some x → x = MvPolynomial.aeval σ p) :
    ∃ p : MvPolynomial Sym ℚ, ∀ (σ : Asg) (x : ℝ), denSum σ l = some x → x = MvPolynomial.aeval σ p := by
  induction l with
  | nil => exact ⟨0, fun σ x h => by simp only [denSum, Option.some.injEq] at h; simp [← h]⟩
  | cons a l ihl =>
    obtain ⟨p, hp⟩ := ih a (by simp)
    obtain ⟨q, hq⟩ := ihl fun b hb => ih b (by simp [hb])
    refine ⟨p + q, fun σ x h => ?_⟩
    simp only [denSum, Option.bind_eq_some_iff, Option.some.injEq] at h
    obtain ⟨y, hy, z, hz, rfl⟩ := h
    rw [map_add, ← hp σ y hy, ← hq σ z hz]

theorem accepted_prod {l : List (Expr D)}
    (ih : ∀ a ∈ l, ∃ p : MvPolynomial Sym ℚ, ∀ (σ : Asg) (x : ℝ), den σ a = some x → x = MvPolynomial.aeval σ p) :
    ∃ p : MvPolynomial Sym ℚ, ∀ (σ : Asg) (x : ℝ), denProd σ l = some x → x = MvPolynomial.aeval σ p := by
  induction l with
  | nil => exact ⟨1, fun σ x h => by simp only [denProd, Option.some.injEq] at h; simp [← h]⟩
  | cons a l ihl =>
    obtain ⟨p, hp⟩ := ih a (by simp)
    obtain ⟨q, hq⟩ := ihl fun b hb => ih b (by simp [hb])
    refine ⟨p * q, fun σ x h => ?_⟩
    simp only [denProd, Option.bind_eq_some_iff, Option.some.injEq] at h
    obtain ⟨y, hy, z, hz, rfl⟩ := h
    rw [map_mul, ← hp σ y hy, ← hq σ z hz]

/-- C56. What is taken for a polynomial is one, whatever the exponents look like: there is a polynomial with
rational coefficients that has the value of the expression wherever the expression has a value. -/
theorem C56_accepted_value (u : Expr D) (h : hasValidType u = .ok true) :
    ∃ p : MvPolynomial Sym ℚ, ∀ (σ : Asg) (x : ℝ), den σ u = some x → x = MvPolynomial.aeval σ p := by
  induction u using ind with
  | num n =>
    cases n with
    | rat q => exact ⟨MvPolynomial.C q, fun σ x h => by simp [den] at h; simp [← h]⟩
    | dbl d => cases h
  | sym s => exact ⟨MvPolynomial.X s, fun σ x h => by simp [den] at h; simp [← h]⟩
  | cst c => cases h
  | undef => cases h
  | sum l ih =>
    rw [hasValidType, hasValidOperands_iff] at h
    exact accepted_sum fun a ha => ih a ha (h a ha)
  | prod l ih =>
    rw [hasValidType, hasValidOperands_iff] at h
    exact accepted_prod fun a ha => ih a ha (h a ha)
  | pow b e ihb _ =>
    obtain ⟨h1, n, h2, h3, -⟩ := hasValidType_pow_iff.1 h
    obtain ⟨p, hp⟩ := ihb h1
    refine ⟨p ^ n.toNat, fun σ x hx => ?_⟩
    obtain ⟨y, z, hy, hz, hxy⟩ := den_pow.1 hx
    have hn := numEval_val σ e _ z h2 hz
    have hk : z = ((n.toNat : ℕ) : ℝ) := by
      rw [← hn, Number.val_rat]
      have : ((n.toNat : ℕ) : ℤ) = n := Int.toNat_of_nonneg h3.le
      exact_mod_cast this.symm
    rw [hk, Spec.pow_nat (by omega)] at hxy
    rw [map_pow, ← hp σ y hy]
    exact (Option.some.inj hxy).symm
  | fn f a _ => cases h
  | atan2 a b _ _ => cases h

theorem not_accepted {u v : Expr D} (hu : NumExps u) (hv : NumExps v)
    (h : ¬PolyShape u ∨ ¬PolyShape v ∨ (u.isZero = true ∧ v.isZero = true)) :
    isPolyInputValid u v = .ok false := by
  unfold isPolyInputValid
  split_ifs with h0
  · rfl
  have h0 : ¬(u.isZero = true ∧ v.isZero = true) := by simpa using h0
  have cu := C56_accepted u hu
  have cv := C56_accepted v hv
  rcases cu.1 with e1 | e1 <;> rw [e1]
  · rcases cv.1 with e2 | e2
    · rcases h with h | h | h
      · exact absurd (cu.2.1 e1) h
      · exact absurd (cv.2.1 e2) h
      · exact absurd h h0
    · exact e2
  · rfl

/-- C56. The operations on polynomials answer Undefined if one of the two expressions is not a polynomial, or
if both are zero. -/
theorem C56_rejected (E : Eng D) (u v x : Expr D) (L : List (Expr D)) (c : Bool) (hu : NumExps u) (hv : NumExps v)
    (h : ¬PolyShape u ∨ ¬PolyShape v ∨ (u.isZero = true ∧ v.isZero = true)) :
    divideL E u v L = .ok ((.undef, .undef), []) ∧
    pseudoDivideImpl E u v x c = .ok ((.undef, .undef), []) ∧
    pseudoRemainder E u v x = .ok (.undef, []) ∧
    polyGcd E u v = .ok (.undef, []) := by
  have hp : pseudoDivideImpl E u v x c = .ok ((.undef, .undef), []) ∧
      pseudoDivideImpl E u v x false = .ok ((.undef, .undef), []) := by
    constructor <;> (rw [pseudoDivideImpl, not_accepted hu hv h]; rfl)
  refine ⟨?_, hp.1, ?_, ?_⟩
  · rw [divideL.eq_def, not_accepted hu hv h]; rfl
  · rw [pseudoRemainder, hp.2]; rfl
  · rw [polyGcd, not_accepted hu hv h]; rfl

section examples
open ExprEx SymEx ValueEx

example : PolyShape (sum [int 1, prod [ratE (1 / 2), a, pow (sum [a, b]) (int 3)]] : Expr Hyb) :=
  .sum _ fun x hx => by
    simp only [List.mem_cons, List.not_mem_nil, or_false] at hx
    rcases hx with rfl | rfl
    · exact .num 1
    · refine .prod _ fun x hx => ?_
      simp only [List.mem_cons, List.not_mem_nil, or_false] at hx
      rcases hx with rfl | rfl | rfl
      · exact .num _
      · exact .sym _
      · refine .pow _ 3 (.sum _ fun x hx => ?_) (by norm_num) (by norm_num)
        simp only [List.mem_cons, List.not_mem_nil, or_false] at hx
        rcases hx with rfl | rfl
        · exact .sym _
        · exact .sym _

example : NumExps (pow a (int (-1)) : Expr Hyb) ∧ ¬PolyShape (pow a (int (-1)) : Expr Hyb) := by
  refine ⟨.pow a (.rat _) (.sym _), fun h => ?_⟩
  have := (C56_accepted (pow a (int (-1)) : Expr Hyb) (.pow a (.rat _) (.sym _))).2.2 h
  rw [hasValidType_pow_iff] at this
  obtain ⟨-, n, h1, h2, -⟩ := this
  rw [int, numEval] at h1
  have h3 : ((-1 : ℤ) : ℚ) = n := by
    have := Option.some.inj (Except.ok.inj h1)
    exact Number.rat.inj this
  have : (-1 : ℤ) = n := by exact_mod_cast h3
  omega

end examples

end Tsym
