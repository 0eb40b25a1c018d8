import Verif.Tot
import Verif.OrderThm
import Verif.PolyVal
import Mathlib.Algebra.BigOperators.Group.List.Basic

set_option autoImplicit false
set_option linter.unusedSectionVars false
set_option linter.unusedSimpArgs false

/-!
# Products of powers with natural exponents
-/

namespace Tsym

open Expr

variable {D : Type} [Flt D] {cfg : Cfg D}

/-- What is needed of the base of a factor: a symbol, or a sum that is not a number. -/
structure PBase (cfg : Cfg D) (b : Expr D) : Prop where
  shape : (∃ s, b = .sym s) ∨ ∃ l, b = .sum l
  exact : Exact b
  polyE : isPolyE b = true
  eval : numEval b = .ok none
  const : isConst b = false
  pos : ∃ v, Tot cfg (fun E => isPos E b) v
  neg : ∃ v, Tot cfg (fun E => isNeg E b) v

/-- A power with a natural exponent. -/
def fac (f : Expr D × ℕ) : Expr D := if f.2 = 1 then f.1 else .pow f.1 (.int f.2)

/-- A factor with a base and an exponent that are allowed. -/
structure PFac (cfg : Cfg D) (f : Expr D × ℕ) : Prop where
  base : PBase cfg f.1
  one_le : 1 ≤ f.2

theorem int_one : (int 1 : Expr D) = one := by simp [int, one]

theorem eqv_rat {p q : ℚ} : ((Number.rat p : Number D).eqv (.rat q) = true) ↔ p = q := by
  simp only [Number.eqv, Bool.and_eq_true, beq_iff_eq]
  exact ⟨fun h => Rat.ext h.1 h.2, fun h => by rw [h]; exact ⟨rfl, rfl⟩⟩

@[simp] theorem eqv_rat_zero {p : ℚ} : (Number.rat p : Number D).eqv 0 = decide (p = 0) := by
  have : ((0 : Number D)) = .rat 0 := by change Number.rat ((0 : ℕ) : ℚ) = _; norm_num
  rw [this, Bool.eq_iff_iff, eqv_rat]; simp

@[simp] theorem eqv_rat_one {p : ℚ} : (Number.rat p : Number D).eqv 1 = decide (p = 1) := by
  have : ((1 : Number D)) = .rat 1 := by change Number.rat ((1 : ℕ) : ℚ) = _; norm_num
  rw [this, Bool.eq_iff_iff, eqv_rat]; simp

theorem isOne_ratE (q : ℚ) : (num (.rat q) : Expr D).isOne = decide (q = 1) := by simp [isOne]
theorem isZero_ratE (q : ℚ) : (num (.rat q) : Expr D).isZero = decide (q = 0) := by simp [isZero]
theorem isOne_int (n : ℤ) : (int n : Expr D).isOne = decide (n = 1) := by simp [int, isOne]
theorem isZero_int (n : ℤ) : (int n : Expr D).isZero = decide (n = 0) := by simp [int, isZero]

theorem exact_ratE (q : ℚ) : Exact (num (.rat q) : Expr D) := by
  intro x hx
  rcases occurs_iff.1 hx with rfl | ⟨o, ho, _⟩
  · simp
  · simp [operands] at ho

theorem exact_of_op {e : Expr D} (h1 : e ≠ undef) (h2 : ∀ d, e ≠ num (.dbl d)) (h : ∀ o ∈ operands e, Exact o) : Exact e := by
  intro x hx
  rcases occurs_iff.1 hx with rfl | ⟨o, ho, hxo⟩
  · exact ⟨h1, h2⟩
  · exact h o ho x hxo

theorem isEqual_refl {e : Expr D} (h : Exact e) : isEqual e e = true := (isEqual_eq e h e h).2 rfl

theorem isEqual_ne {a b : Expr D} (ha : Exact a) (hb : Exact b) (h : a ≠ b) : isEqual a b = false := by
  rw [← Bool.not_eq_true, isEqual_eq a ha b hb]; exact h

namespace PFac

variable {f g : Expr D × ℕ}

theorem exact (h : PFac cfg f) : Exact (fac f) := by
  unfold fac
  split
  · exact h.base.exact
  · refine exact_of_op (by simp) (by simp) fun o ho => ?_
    simp only [operands, List.mem_cons, List.not_mem_nil, or_false] at ho
    rcases ho with rfl | rfl
    · exact h.base.exact
    · exact exact_ratE _

theorem base_fac (h : PFac cfg f) : (fac f).base = f.1 := by
  unfold fac
  split
  · rcases h.base.shape with ⟨s, hs⟩ | ⟨l, hl⟩
    · rw [hs]; rfl
    · rw [hl]; rfl
  · rfl

theorem exp_fac (h : PFac cfg f) : (fac f).exp = int f.2 := by
  unfold fac
  split
  · rename_i h1
    rw [h1]
    rcases h.base.shape with ⟨s, hs⟩ | ⟨l, hl⟩
    · rw [hs]; exact int_one.symm
    · rw [hl]; exact int_one.symm
  · rfl

theorem inj (hf : PFac cfg f) (hg : PFac cfg g) (h : fac f = fac g) : f = g := by
  have h1 := congrArg Expr.base h
  have h2 := congrArg Expr.exp h
  rw [hf.base_fac, hg.base_fac] at h1
  rw [hf.exp_fac, hg.exp_fac] at h2
  simp only [int, Expr.num.injEq, Number.rat.injEq, Int.cast_natCast, Nat.cast_inj] at h2
  exact Prod.ext h1 h2

theorem isOne (h : PFac cfg f) : (fac f).isOne = false := by
  unfold fac; split
  · rcases h.base.shape with ⟨s, hs⟩ | ⟨l, hl⟩ <;> rw [‹f.1 = _›] <;> rfl
  · rfl

theorem isZero (h : PFac cfg f) : (fac f).isZero = false := by
  unfold fac; split
  · rcases h.base.shape with ⟨s, hs⟩ | ⟨l, hl⟩ <;> rw [‹f.1 = _›] <;> rfl
  · rfl

theorem isUndefined (h : PFac cfg f) : (fac f).isUndefined = false := by
  unfold fac; split
  · rcases h.base.shape with ⟨s, hs⟩ | ⟨l, hl⟩ <;> rw [‹f.1 = _›] <;> rfl
  · rfl

theorem isNumeric (h : PFac cfg f) : (fac f).isNumeric = false := by
  unfold fac; split
  · rcases h.base.shape with ⟨s, hs⟩ | ⟨l, hl⟩ <;> rw [‹f.1 = _›] <;> rfl
  · rfl

theorem isProduct (h : PFac cfg f) : (fac f).isProduct = false := by
  unfold fac; split
  · rcases h.base.shape with ⟨s, hs⟩ | ⟨l, hl⟩ <;> rw [‹f.1 = _›] <;> rfl
  · rfl

theorem isConst (h : PFac cfg f) : (fac f).isConst = false := by
  unfold fac; split
  · exact h.base.const
  · simp [Expr.isConst, h.base.const]

theorem isNumericPower (h : PFac cfg f) : (fac f).isNumericPower = false := by
  unfold fac; split
  · rcases h.base.shape with ⟨s, hs⟩ | ⟨l, hl⟩ <;> rw [‹f.1 = _›] <;> rfl
  · rcases h.base.shape with ⟨s, hs⟩ | ⟨l, hl⟩ <;> rw [‹f.1 = _›] <;> rfl

theorem isSum (h : PFac cfg f) : (fac f).isSum = (decide (f.2 = 1) && f.1.isSum) := by
  unfold fac; split
  · rename_i h1; simp [h1]
  · rename_i h1; simp [h1, Expr.isSum]

theorem eval (h : PFac cfg f) : numEval (fac f) = .ok none := by
  unfold fac; split
  · exact h.base.eval
  · simp [numEval, int, h.base.eval]; rfl

theorem factors (h : PFac cfg f) : factors (fac f) = [fac f] := by
  unfold fac; split
  · rcases h.base.shape with ⟨s, hs⟩ | ⟨l, hl⟩ <;> rw [‹f.1 = _›] <;> rfl
  · rfl

/-- A number comes before everything else. -/
theorem permute_num (h : PFac cfg f) (q : ℚ) : doPermute (num (.rat q)) (fac f) = false := by
  rw [doPermute_eq]
  unfold permStep
  cases hs : fac f <;> simp [permSame, permDiff]
  rename_i n
  have := h.isNumeric
  rw [hs] at this
  simp [Expr.isNumeric] at this

theorem permute_num' (h : PFac cfg f) (q : ℚ) : doPermute (fac f) (num (.rat q)) = true := by
  rw [doPermute_eq]
  unfold fac
  rcases h.base.shape with ⟨s, hs⟩ | ⟨l, hl⟩ <;> rw [‹f.1 = _›] <;> split <;> simp [permStep, permSame, permDiff]

end PFac

/-! ## Numbers -/

theorem tot_sum_num (p q : ℚ) : Tot cfg (fun E => E.sumCreate [num (.rat p), num (.rat q)]) (num (.rat (p + q))) := by
  refine tot_sum ?_
  simp only [sumCreate, List.any_cons, List.any_nil, Expr.isUndefined, Bool.or_self, Bool.false_eq_true, if_false]
  refine tot_bind (a := if p = 0 then [num (.rat q)] else if q = 0 then [num (.rat p)] else
    if p + q = 0 then [] else [num (.rat (p + q))]) (tot_sumSimplify ?_) ?_
  · simp only [simplSum, simplTwoSummands, simplTwoSummandsWithoutSum, Expr.isSum, Bool.or_self, Bool.false_eq_true,
      if_false, isZero_ratE, decide_eq_true_eq, addNumerics, Number.add, eqv_rat_zero]
    split
    · exact tot_pure _
    · split
      · exact tot_pure _
      · exact tot_pure _
  · by_cases h1 : p = 0
    · simp only [h1, if_true, zero_add]; exact tot_pure _
    · by_cases h2 : q = 0
      · simp only [h1, h2, if_true, if_false, add_zero]; exact tot_pure _
      · by_cases h3 : p + q = 0
        · simp only [h1, h2, h3, if_true, if_false]; exact tot_pure _
        · simp only [h1, h2, h3, if_false]; exact tot_pure _

/-! ## Powers -/

theorem tot_powCreate {b : Expr D} (hb : PBase cfg b) {k : ℕ} (hk : 2 ≤ k) :
    Tot cfg (fun E => powCreate E b (int k)) (fac (b, k)) := by
  have hf : PFac cfg (b, 1) := ⟨hb, le_refl _⟩
  have h1 : b.isUndefined = false := hf.isUndefined
  have h2 : b.isOne = false := hf.isOne
  have h3 : b.isZero = false := hf.isZero
  have e1 : (int k : Expr D).isUndefined = false := rfl
  have e2 : (int k : Expr D).isZero = false := by rw [isZero_int]; simp; omega
  have e3 : (int k : Expr D).isOne = false := by rw [isOne_int]; simp; omega
  simp only [powCreate, h1, h2, h3, e1, e2, e3, Bool.or_self, Bool.false_eq_true, if_false, powCreateNonTrivial]
  refine tot_bind (a := (b, int k)) (tot_simplPow ?_) ?_
  · simp only [simplPow]
    obtain ⟨v, hv⟩ := hb.neg
    refine tot_bind (a := false) (tot_whenTrue (tot_bind (tot_lift (a := some (.rat k)) (by simp [numEval, int]; rfl))
      (tot_bind (tot_isNeg hv) ?_))) ?_
    · simp only [Number.isInt, Number.isRational, Number.denominator]
      simp only [Rat.den_natCast]
      simp
      exact tot_pure _
    · simp only [Bool.false_eq_true, if_false]
      rcases hb.shape with ⟨s, rfl⟩ | ⟨l, rfl⟩
      · exact tot_pure _
      · exact tot_pure _
  · simp only [h2, e3, Bool.false_eq_true, if_false, fac]
    rw [if_neg (by omega)]
    exact tot_pure _

/-! ## Two factors -/

theorem tot_simplTwoEqualBases {b : Expr D} {j k : ℕ} (hf : PFac cfg (b, j)) (hg : PFac cfg (b, k)) :
    Tot cfg (fun E => simplTwoEqualBases E (fac (b, j)) (fac (b, k))) [fac (b, j + k)] := by
  obtain ⟨v, hv⟩ := hf.base.pos
  obtain ⟨w, hw⟩ := hf.base.neg
  have hj := hf.one_le
  have hk := hg.one_le
  simp only at hj hk
  simp only [simplTwoEqualBases, hf.base_fac, hf.exp_fac, hg.exp_fac]
  refine tot_bind (a := int (j + k : ℕ)) ?_ ?_
  · have := tot_sum_num (cfg := cfg) (j : ℚ) (k : ℚ)
    simpa [int] using this
  refine tot_bind (tot_silent (tot_isPos hv)) ?_
  refine tot_bind (a := v || w) ?_ ?_
  · cases v
    · simp only [Bool.false_eq_true, if_false, Bool.false_or]
      exact tot_silent (tot_isNeg hw)
    · simp only [if_true, Bool.true_or]; exact tot_pure _
  refine tot_bind (a := false) ?_ ?_
  · cases v || w
    · simp only [Bool.false_eq_true, if_false]
      refine tot_bind (a := false) (tot_lift ?_) ?_
      · simp [isFractionNumeric, numEval, int, Number.isFraction, Number.denominator]; rfl
      simp only [Bool.false_eq_true, if_false]
      refine tot_bind (tot_pure _) ?_
      simp only [Bool.false_eq_true, if_false]
      exact tot_pure _
    · simp only [if_true]; exact tot_pure _
  simp only [Bool.false_eq_true, if_false]
  refine tot_bind (tot_pow (tot_powCreate hf.base (k := j + k) (by omega))) ?_
  exact tot_pure _

theorem tot_simplTwoFactors {f g : Expr D × ℕ} (hf : PFac cfg f) (hg : PFac cfg g) :
    Tot cfg (fun E => simplTwoFactors E (fac f) (fac g))
      (if isEqual f.1 g.1 then [fac (f.1, f.2 + g.2)] else ordered (fac f) (fac g)) := by
  simp only [simplTwoFactors, hf.isProduct, hg.isProduct, Bool.or_self, Bool.false_eq_true, if_false,
    simplTwoFactorsWithoutProduct, hf.isOne, hg.isOne, hf.isConst, hg.isConst, haveEqualBases, hf.base_fac,
    hg.base_fac, Bool.and_self]
  split
  · rename_i h
    rw [isEqual_eq _ hf.base.exact _ hg.base.exact] at h
    obtain ⟨b, j⟩ := f
    obtain ⟨c, k⟩ := g
    simp only at h
    subst h
    exact tot_simplTwoEqualBases hf hg
  · exact tot_pure _

/-! ## Merging -/

/-- The result of `mergeProd` for factors. -/
def mergeF : List (Expr D × ℕ) → List (Expr D × ℕ) → List (Expr D × ℕ)
  | [], Q => Q
  | f :: P, [] => f :: P
  | f :: P, g :: Q =>
    if isEqual f.1 g.1 then (f.1, f.2 + g.2) :: mergeF P Q
    else if doPermute (fac f) (fac g) then g :: mergeF (f :: P) Q
    else f :: mergeF P (g :: Q)
termination_by P Q => P.length + Q.length

/-- All factors are allowed. -/
def PFacs (cfg : Cfg D) (P : List (Expr D × ℕ)) : Prop := ∀ f ∈ P, PFac cfg f

theorem PFacs.cons {f : Expr D × ℕ} {P : List (Expr D × ℕ)} (h : PFacs cfg (f :: P)) : PFac cfg f ∧ PFacs cfg P :=
  ⟨h f (by simp), fun g hg => h g (by simp [hg])⟩

theorem PFac.add {f g : Expr D × ℕ} (h : PFac cfg f) (_ : PFac cfg g) : PFac cfg (f.1, f.2 + g.2) :=
  ⟨h.base, by have := h.one_le; simp only; omega⟩

theorem areEqual_pair (a b c d : Expr D) : areEqual [a, b] [c, d] = (isEqual a c && isEqual b d) := by
  simp [areEqual]

theorem tot_mergeProd_fac {P Q : List (Expr D × ℕ)} (hP : PFacs cfg P) (hQ : PFacs cfg Q) :
    Tot cfg (fun E => mergeProd E (P.map fac) (Q.map fac)) ((mergeF P Q).map fac) := by
  induction hn : P.length + Q.length using Nat.strong_induction_on generalizing P Q with
  | _ n ih =>
  match P, Q with
  | [], Q => unfold mergeF; simp only [List.map_nil, mergeProd]; exact tot_pure _
  | f :: P, [] => unfold mergeF; simp only [List.map_nil, List.map_cons, mergeProd]; exact tot_pure _
  | f :: P, g :: Q =>
    obtain ⟨hf, hP'⟩ := hP.cons
    obtain ⟨hg, hQ'⟩ := hQ.cons
    unfold mergeF
    simp only [List.map_cons, mergeProd]
    simp only [List.length_cons] at hn
    refine tot_bind (tot_simplTwoFactors hf hg) ?_
    by_cases h : isEqual f.1 g.1 = true
    · simp only [h, if_true, (hf.add hg).isOne, Bool.false_eq_true, if_false]
      refine tot_bind (tot_mergeProd (ih _ (by omega) hP' hQ' rfl)) ?_
      exact tot_pure _
    · simp only [h, Bool.false_eq_true, if_false]
      have hne : fac f ≠ fac g := fun e => h (by
        rw [isEqual_eq _ hf.base.exact _ hg.base.exact, hf.inj hg e])
      unfold ordered
      by_cases h2 : doPermute (fac f) (fac g) = true
      · simp only [h2, if_true, areEqual_pair]
        simp only [isEqual_ne hg.exact hf.exact hne.symm, isEqual_refl hf.exact, isEqual_refl hg.exact, Bool.and_self,
          Bool.false_and, Bool.false_eq_true, if_false, if_true]
        refine tot_bind (tot_mergeProd (ih (P := f :: P) (Q := Q) _ (by simp only [List.length_cons]; omega) hP hQ' rfl)) ?_
        exact tot_pure _
      · simp only [h2, Bool.false_eq_true, if_false, areEqual_pair, isEqual_refl hf.exact, isEqual_refl hg.exact,
          Bool.and_self, if_true]
        refine tot_bind (tot_mergeProd (ih (P := P) (Q := g :: Q) _ (by simp only [List.length_cons]; omega) hP' hQ rfl)) ?_
        exact tot_pure _

/-- The list of the operands of a product: a number, unless it is 1, and factors. -/
def rl (q : ℚ) (P : List (Expr D × ℕ)) : List (Expr D) := (if q = 1 then [] else [.num (.rat q)]) ++ P.map fac

theorem rl_one (P : List (Expr D × ℕ)) : rl 1 P = P.map fac := by simp [rl]

theorem rl_ne {q : ℚ} (h : q ≠ 1) (P : List (Expr D × ℕ)) : rl q P = .num (.rat q) :: P.map fac := by simp [rl, h]

theorem mergeF_nil (P : List (Expr D × ℕ)) : mergeF P [] = P := by cases P <;> simp [mergeF]

theorem nil_mergeF (P : List (Expr D × ℕ)) : mergeF [] P = P := by simp [mergeF]

theorem num_isProduct (n : Number D) : (num n).isProduct = false := rfl

/-- A number and a factor. -/
theorem tot_two_num_fac {q : ℚ} (hq : q ≠ 1) {f : Expr D × ℕ} (hf : PFac cfg f) :
    Tot cfg (fun E => simplTwoFactors E (.num (.rat q)) (fac f)) [.num (.rat q), fac f] := by
  have hb : haveEqualBases (.num (.rat q)) (fac f) = false := by
    unfold haveEqualBases
    rw [hf.base_fac]
    refine isEqual_ne (exact_ratE _) hf.base.exact ?_
    rcases hf.base.shape with ⟨s, hs⟩ | ⟨l, hl⟩ <;> rw [‹f.1 = _›] <;> simp [Expr.base]
  simp only [simplTwoFactors, hf.isProduct, num_isProduct, Bool.or_self, Bool.false_eq_true, if_false,
    simplTwoFactorsWithoutProduct, isOne_ratE, hq, decide_false, hf.isOne, hf.isConst, Bool.and_false, hb, ordered,
    hf.permute_num]
  exact tot_pure _

theorem tot_two_fac_num {q : ℚ} (hq : q ≠ 1) {f : Expr D × ℕ} (hf : PFac cfg f) :
    Tot cfg (fun E => simplTwoFactors E (fac f) (.num (.rat q))) [.num (.rat q), fac f] := by
  have hb : haveEqualBases (fac f) (.num (.rat q)) = false := by
    unfold haveEqualBases
    rw [hf.base_fac]
    refine isEqual_ne hf.base.exact (exact_ratE _) ?_
    rcases hf.base.shape with ⟨s, hs⟩ | ⟨l, hl⟩ <;> rw [‹f.1 = _›] <;> simp [Expr.base]
  simp only [simplTwoFactors, hf.isProduct, num_isProduct, Bool.or_self, Bool.false_eq_true, if_false,
    simplTwoFactorsWithoutProduct, isOne_ratE, hq, decide_false, hf.isOne, hf.isConst, Bool.false_and, hb, ordered,
    hf.permute_num', if_true]
  exact tot_pure _

theorem PFac.ne_num {f : Expr D × ℕ} (hf : PFac cfg f) (n : Number D) : fac f ≠ .num n := by
  have := hf.isNumeric
  intro h
  rw [h] at this
  simp [Expr.isNumeric] at this

/-- Two numbers, neither 1. -/
theorem tot_two_num {p q : ℚ} (hp : p ≠ 1) (hq : q ≠ 1) :
    Tot cfg (fun E => simplTwoFactors E (.num (.rat p)) (.num (.rat q))) (rl (p * q) []) := by
  simp only [simplTwoFactors, num_isProduct, Bool.or_self, Bool.false_eq_true, if_false,
    simplTwoFactorsWithoutProduct, isOne_ratE, hp, hq, decide_false, isConst, Bool.and_self, if_true, simplTwoConst,
    mulNumerics, Number.mul, eqv_rat_one, decide_eq_true_eq, rl, List.map_nil, List.append_nil]
  exact tot_pure _

theorem tot_mergeProd_rl {p q : ℚ} {P Q : List (Expr D × ℕ)} (hP : PFacs cfg P) (hQ : PFacs cfg Q) :
    Tot cfg (fun E => mergeProd E (rl p P) (rl q Q)) (rl (p * q) (mergeF P Q)) := by
  have key := tot_mergeProd_fac hP hQ
  by_cases hp : p = 1
  · subst hp
    by_cases hq : q = 1
    · subst hq; simpa only [rl_one, mul_one] using key
    · rw [rl_one, rl_ne hq, one_mul, rl_ne hq]
      match P with
      | [] => simp only [List.map_nil, mergeProd, mergeF]; exact tot_pure _
      | f :: P =>
        obtain ⟨hf, hP'⟩ := hP.cons
        simp only [List.map_cons, mergeProd]
        refine tot_bind (tot_two_fac_num hq hf) ?_
        simp only [areEqual_pair, isEqual_ne (exact_ratE q) hf.exact (hf.ne_num _).symm, isEqual_refl (exact_ratE q),
          isEqual_refl hf.exact, Bool.false_and, Bool.and_self, Bool.false_eq_true, if_false, if_true]
        exact tot_bind (tot_mergeProd key) (tot_pure _)
  · by_cases hq : q = 1
    · subst hq
      rw [rl_one, rl_ne hp, mul_one, rl_ne hp]
      match Q with
      | [] => simp only [List.map_nil, mergeProd, mergeF_nil]; exact tot_pure _
      | f :: Q =>
        obtain ⟨hf, hQ'⟩ := hQ.cons
        simp only [List.map_cons, mergeProd]
        refine tot_bind (tot_two_num_fac hp hf) ?_
        simp only [areEqual_pair, isEqual_refl (exact_ratE p), isEqual_refl hf.exact, Bool.and_self, if_true]
        exact tot_bind (tot_mergeProd key) (tot_pure _)
    · rw [rl_ne hp, rl_ne hq]
      simp only [mergeProd]
      refine tot_bind (tot_two_num hp hq) ?_
      by_cases h : p * q = 1
      · simp only [rl, h, if_true, List.map_nil, List.append_nil, List.nil_append]
        exact tot_mergeProd key
      · simp only [rl, h, if_false, List.map_nil, List.append_nil, isOne_ratE, decide_false, Bool.false_eq_true,
          List.cons_append, List.nil_append]
        exact tot_bind (tot_mergeProd key) (tot_pure _)

end Tsym
