import Verif.PolySimpl
import Verif.PolyBase
import Verif.OrderTrans
import Mathlib.Data.Finsupp.Basic
import Mathlib.Algebra.Group.Finsupp

set_option autoImplicit false
set_option linter.unusedSectionVars false
set_option linter.unusedSimpArgs false
set_option linter.unusedVariables false

/-!
# Products of powers with integer exponents, or rational exponents of positive bases

The lists of factors are in the order of the library and have no two equal bases. They are determined by
the exponents of the bases.
-/

namespace Tsym

namespace Qf

open Expr

variable {D : Type} [Flt D] [LawfulFlt D] {cfg : Cfg D}

/-- What is needed of the base of a factor: a symbol, or a sum that is not a number. -/
structure QB (cfg : Cfg D) (b : Expr D) : Prop where
  shape : (∃ s, b = .sym s) ∨ ∃ l, b = .sum l
  good : Expr.Good b
  eval : numEval b = .ok none
  const : isConst b = false
  pos : ∃ v, Tot cfg (fun E => isPos E b) v
  neg : ∃ v, Tot cfg (fun E => isNeg E b) v

/-- The base is positive. -/
def Ps (cfg : Cfg D) (b : Expr D) : Prop := Tot cfg (fun E => isPos E b) true ∧ Tot cfg (fun E => isNeg E b) false

/-- The exponents that are allowed: integers, and all rational numbers if the base is positive. -/
def Ex (cfg : Cfg D) (b : Expr D) (q : ℚ) : Prop := q.den = 1 ∨ Ps cfg b

theorem Ex.one {b : Expr D} : Ex cfg b 1 := .inl rfl

theorem Ex.int {b : Expr D} (k : ℤ) : Ex cfg b k := .inl (Rat.den_intCast k)

theorem Ex.add {b : Expr D} {p q : ℚ} (hp : Ex cfg b p) (hq : Ex cfg b q) : Ex cfg b (p + q) := by
  rcases hp with hp | hp
  · rcases hq with hq | hq
    · rw [← Rat.coe_int_num_of_den_eq_one hp, ← Rat.coe_int_num_of_den_eq_one hq, ← Int.cast_add]; exact .int _
    · exact .inr hq
  · exact .inr hp

theorem Ex.mul {b : Expr D} {p q : ℚ} (hp : Ex cfg b p) (hq : Ex cfg b q) : Ex cfg b (p * q) := by
  rcases hp with hp | hp
  · rcases hq with hq | hq
    · rw [← Rat.coe_int_num_of_den_eq_one hp, ← Rat.coe_int_num_of_den_eq_one hq, ← Int.cast_mul]; exact .int _
    · exact .inr hq
  · exact .inr hp

/-- A power with a rational exponent. -/
def fac (f : Expr D × ℚ) : Expr D := if f.2 = 1 then f.1 else .pow f.1 (.num (.rat f.2))

/-- A factor with a base and an exponent that are allowed. -/
structure QF (cfg : Cfg D) (f : Expr D × ℚ) : Prop where
  base : QB cfg f.1
  ok : Ex cfg f.1 f.2
  ne : f.2 ≠ 0

theorem good_ratE (q : ℚ) : Expr.Good (num (.rat q) : Expr D) := by
  refine Good.of_ops (by simp) (by simp) (by simp) (by simp) (by simp) (by simp) ?_
  intro o ho; simp [operands] at ho

namespace QF

variable {f g : Expr D × ℚ}

theorem good (h : QF cfg f) : Expr.Good (fac f) := by
  unfold fac
  split
  · exact h.base.good
  · rename_i h1
    refine Good.of_ops (by simp) (by simp) (by simp) (by simp) (by simp) ?_ ?_
    · intro b e
      simp only [Expr.pow.injEq] at e
      have := e.2
      rw [one_eq] at this
      simp only [Expr.num.injEq, Number.rat.injEq] at this
      exact h1 this
    · intro o ho
      simp only [operands, List.mem_cons, List.not_mem_nil, or_false] at ho
      rcases ho with rfl | rfl
      · exact h.base.good
      · exact good_ratE _

theorem exact (h : QF cfg f) : Exact (fac f) := h.good.exact

theorem base_fac (h : QF cfg f) : (fac f).base = f.1 := by
  unfold fac
  split
  · rcases h.base.shape with ⟨s, hs⟩ | ⟨l, hl⟩
    · rw [hs]; rfl
    · rw [hl]; rfl
  · rfl

theorem exp_fac (h : QF cfg f) : (fac f).exp = .num (.rat f.2) := by
  unfold fac
  split
  · rename_i h1
    rw [h1]
    rcases h.base.shape with ⟨s, hs⟩ | ⟨l, hl⟩
    · rw [hs]; exact one_eq
    · rw [hl]; exact one_eq
  · rfl

theorem inj (hf : QF cfg f) (hg : QF cfg g) (h : fac f = fac g) : f = g := by
  have h1 := congrArg Expr.base h
  have h2 := congrArg Expr.exp h
  rw [hf.base_fac, hg.base_fac] at h1
  rw [hf.exp_fac, hg.exp_fac] at h2
  simp only [Expr.num.injEq, Number.rat.injEq] at h2
  exact Prod.ext h1 h2

theorem isOne (h : QF cfg f) : (fac f).isOne = false := by
  unfold fac; split
  · rcases h.base.shape with ⟨s, hs⟩ | ⟨l, hl⟩ <;> rw [‹f.1 = _›] <;> rfl
  · rfl

theorem isZero (h : QF cfg f) : (fac f).isZero = false := by
  unfold fac; split
  · rcases h.base.shape with ⟨s, hs⟩ | ⟨l, hl⟩ <;> rw [‹f.1 = _›] <;> rfl
  · rfl

theorem isUndefined (h : QF cfg f) : (fac f).isUndefined = false := by
  unfold fac; split
  · rcases h.base.shape with ⟨s, hs⟩ | ⟨l, hl⟩ <;> rw [‹f.1 = _›] <;> rfl
  · rfl

theorem isNumeric (h : QF cfg f) : (fac f).isNumeric = false := by
  unfold fac; split
  · rcases h.base.shape with ⟨s, hs⟩ | ⟨l, hl⟩ <;> rw [‹f.1 = _›] <;> rfl
  · rfl

theorem isProduct (h : QF cfg f) : (fac f).isProduct = false := by
  unfold fac; split
  · rcases h.base.shape with ⟨s, hs⟩ | ⟨l, hl⟩ <;> rw [‹f.1 = _›] <;> rfl
  · rfl

theorem big (h : QF cfg f) : Expr.big (fac f) = true := by
  unfold fac; split
  · rcases h.base.shape with ⟨s, hs⟩ | ⟨l, hl⟩ <;> rw [‹f.1 = _›] <;> rfl
  · rfl

theorem isConst (h : QF cfg f) : (fac f).isConst = false := by
  unfold fac; split
  · exact h.base.const
  · simp [Expr.isConst, h.base.const]

theorem isNumericPower (h : QF cfg f) : (fac f).isNumericPower = false := by
  unfold fac; split
  · rcases h.base.shape with ⟨s, hs⟩ | ⟨l, hl⟩ <;> rw [‹f.1 = _›] <;> rfl
  · rcases h.base.shape with ⟨s, hs⟩ | ⟨l, hl⟩ <;> rw [‹f.1 = _›] <;> rfl

theorem isSum (h : QF cfg f) : (fac f).isSum = (decide (f.2 = 1) && f.1.isSum) := by
  unfold fac; split
  · rename_i h1; simp [h1]
  · rename_i h1; simp [h1, Expr.isSum]

theorem eval (h : QF cfg f) : numEval (fac f) = .ok none := by
  unfold fac; split
  · exact h.base.eval
  · simp [numEval, h.base.eval]; rfl

theorem factors (h : QF cfg f) : factors (fac f) = [fac f] := by
  unfold fac; split
  · rcases h.base.shape with ⟨s, hs⟩ | ⟨l, hl⟩ <;> rw [‹f.1 = _›] <;> rfl
  · rfl

theorem viewP (h : QF cfg f) : Expr.viewP (fac f) = [fac f] := by
  unfold fac; split
  · rcases h.base.shape with ⟨s, hs⟩ | ⟨l, hl⟩ <;> rw [‹f.1 = _›] <;> rfl
  · rfl

theorem viewB (h : QF cfg f) : Expr.viewB (fac f) = f.1 := by
  unfold fac; split
  · rcases h.base.shape with ⟨s, hs⟩ | ⟨l, hl⟩ <;> rw [‹f.1 = _›] <;> rfl
  · rfl

theorem ne_prod (h : QF cfg f) (l : List (Expr D)) : fac f ≠ .prod l := by
  intro e
  have := h.isProduct
  rw [e] at this
  simp [Expr.isProduct] at this

/-- A number comes before everything else. -/
theorem permute_num (h : QF cfg f) (q : ℚ) : doPermute (num (.rat q)) (fac f) = false := by
  rw [doPermute_eq]
  unfold permStep
  cases hs : fac f <;> simp [permSame, permDiff]
  rename_i n
  have := h.isNumeric
  rw [hs] at this
  simp [Expr.isNumeric] at this

theorem permute_num' (h : QF cfg f) (q : ℚ) : doPermute (fac f) (num (.rat q)) = true := by
  rw [doPermute_eq]
  unfold fac
  rcases h.base.shape with ⟨s, hs⟩ | ⟨l, hl⟩ <;> rw [‹f.1 = _›] <;> split <;> simp [permStep, permSame, permDiff]

/-- The order of factors with different bases is the order of the bases. -/
theorem order (hf : QF cfg f) (hg : QF cfg g) (h : f.1 ≠ g.1) : L (fac f) (fac g) = L f.1 g.1 := by
  have := (L_viewB hf.good hg.good hf.big hg.big hf.ne_prod hg.ne_prod).2
  rw [hf.viewB, hg.viewB] at this
  exact this h

end QF

/-! ## Powers -/

/-- A power, where 1 stands for the power with the exponent 0. -/
def fac0 (f : Expr D × ℚ) : Expr D := if f.2 = 0 then one else fac f

theorem tot_powCreate {b : Expr D} (hb : QB cfg b) {k : ℚ} (hk : Ex cfg b k) :
    Tot cfg (fun E => powCreate E b (.num (.rat k))) (fac0 (b, k)) := by
  have hf : QF cfg (b, 1) := ⟨hb, .one, one_ne_zero⟩
  have h1 : b.isUndefined = false := hf.isUndefined
  have h2 : b.isOne = false := hf.isOne
  have h3 : b.isZero = false := hf.isZero
  have e1 : (.num (.rat k) : Expr D).isUndefined = false := rfl
  by_cases hk0 : k = 0
  · simp only [powCreate, h1, h2, h3, e1, isZero_ratE, hk0, Bool.or_self, Bool.false_eq_true, if_false, fac0, decide_true,
      Bool.true_or, if_true]
    exact tot_pure _
  have e2 : (.num (.rat k) : Expr D).isZero = false := by rw [isZero_ratE]; simpa using hk0
  by_cases hk1 : k = 1
  · have e3 : (.num (.rat k) : Expr D).isOne = true := by rw [isOne_ratE]; simpa using hk1
    simp only [powCreate, h1, h2, h3, e1, e2, e3, Bool.or_self, Bool.false_eq_true, if_false, if_true, fac0, hk0, fac, hk1]
    exact tot_pure _
  have e3 : (.num (.rat k) : Expr D).isOne = false := by rw [isOne_ratE]; simpa using hk1
  simp only [powCreate, h1, h2, h3, e1, e2, e3, Bool.or_self, Bool.false_eq_true, if_false, powCreateNonTrivial]
  refine tot_bind (a := (b, .num (.rat k))) (tot_simplPow ?_) ?_
  · simp only [simplPow]
    refine tot_bind (a := false) (tot_whenTrue (tot_bind (tot_lift (a := some (.rat k)) (by simp [numEval]; rfl)) ?_)) ?_
    · rcases hk with hk | hk
      · obtain ⟨v, hv⟩ := hb.neg
        refine tot_bind (tot_isNeg hv) ?_
        simp only [Number.isInt, Number.isRational, Number.denominator, hk]
        simp
        exact tot_pure _
      · refine tot_bind (tot_isNeg hk.2) ?_
        simp only [Bool.false_and, Bool.false_eq_true, if_false]
        exact tot_pure _
    · simp only [Bool.false_eq_true, if_false]
      rcases hb.shape with ⟨s, rfl⟩ | ⟨l, rfl⟩
      · exact tot_pure _
      · exact tot_pure _
  · simp only [h2, e3, Bool.false_eq_true, if_false, fac0, fac, hk0, hk1]
    exact tot_pure _

/-! ## Two factors -/

theorem tot_simplTwoEqualBases {b : Expr D} {j k : ℚ} (hf : QF cfg (b, j)) (hg : QF cfg (b, k)) :
    Tot cfg (fun E => simplTwoEqualBases E (fac (b, j)) (fac (b, k))) [fac0 (b, j + k)] := by
  simp only [simplTwoEqualBases, hf.base_fac, hf.exp_fac, hg.exp_fac]
  refine tot_bind (tot_sum_num (cfg := cfg) j k) ?_
  have fin : Tot cfg (fun E => E.powCreate b (.num (.rat (j + k)))) (fac0 (b, j + k)) := tot_pow (tot_powCreate hf.base (hf.ok.add hg.ok))
  rcases hf.ok with hj | hj
  · obtain ⟨v, hv⟩ := hf.base.pos
    obtain ⟨w, hw⟩ := hf.base.neg
    refine tot_bind (tot_silent (tot_isPos hv)) ?_
    refine tot_bind (a := v || w) ?_ ?_
    · cases v
      · simp only [Bool.false_eq_true, if_false, Bool.false_or]
        exact tot_silent (tot_isNeg hw)
      · simp only [if_true, Bool.true_or]; exact tot_pure _
    refine tot_bind (a := false) ?_ ?_
    · cases v || w
      · simp only [Bool.false_eq_true, if_false]
        refine tot_bind (a := false) (tot_lift ?_) ?_
        · simp only at hj
          simp [isFractionNumeric, numEval, Number.isFraction, Number.denominator, hj]; rfl
        simp only [Bool.false_eq_true, if_false]
        refine tot_bind (tot_pure _) ?_
        simp only [Bool.false_eq_true, if_false]
        exact tot_pure _
      · simp only [if_true]; exact tot_pure _
    simp only [Bool.false_eq_true, if_false]
    exact tot_bind fin (tot_pure _)
  · refine tot_bind (tot_silent (tot_isPos hj.1)) ?_
    simp only [if_true]
    refine tot_bind (tot_pure _) ?_
    simp only [if_true]
    refine tot_bind (tot_pure _) ?_
    simp only [Bool.false_eq_true, if_false]
    exact tot_bind fin (tot_pure _)

theorem tot_simplTwoFactors {f g : Expr D × ℚ} (hf : QF cfg f) (hg : QF cfg g) :
    Tot cfg (fun E => simplTwoFactors E (fac f) (fac g))
      (if isEqual f.1 g.1 then [fac0 (f.1, f.2 + g.2)] else ordered (fac f) (fac g)) := by
  simp only [simplTwoFactors, hf.isProduct, hg.isProduct, Bool.or_self, Bool.false_eq_true, if_false,
    simplTwoFactorsWithoutProduct, hf.isOne, hg.isOne, hf.isConst, hg.isConst, haveEqualBases, hf.base_fac,
    hg.base_fac, Bool.and_self]
  split
  · rename_i h
    rw [isEqual_eq _ hf.base.good.exact _ hg.base.good.exact] at h
    obtain ⟨b, j⟩ := f
    obtain ⟨c, k⟩ := g
    simp only at h
    subst h
    exact tot_simplTwoEqualBases hf hg
  · exact tot_pure _

/-! ## Merging -/

/-- The result of `mergeProd` for factors. -/
def mergeF : List (Expr D × ℚ) → List (Expr D × ℚ) → List (Expr D × ℚ)
  | [], Q => Q
  | f :: P, [] => f :: P
  | f :: P, g :: Q =>
    if isEqual f.1 g.1 then
      (if f.2 + g.2 = 0 then mergeF P Q else (f.1, f.2 + g.2) :: mergeF P Q)
    else if doPermute (fac f) (fac g) then g :: mergeF (f :: P) Q
    else f :: mergeF P (g :: Q)
termination_by P Q => P.length + Q.length

/-- All factors are allowed. -/
def QFs (cfg : Cfg D) (P : List (Expr D × ℚ)) : Prop := ∀ f ∈ P, QF cfg f

theorem QFs.cons {f : Expr D × ℚ} {P : List (Expr D × ℚ)} (h : QFs cfg (f :: P)) : QF cfg f ∧ QFs cfg P :=
  ⟨h f (by simp), fun g hg => h g (by simp [hg])⟩

theorem QFs.nil : QFs cfg ([] : List (Expr D × ℚ)) := by simp [QFs]

theorem QFs.single {f : Expr D × ℚ} (h : QF cfg f) : QFs cfg [f] := by
  intro x hx; rw [List.mem_singleton.1 hx]; exact h

theorem tot_mergeProd_fac {P Q : List (Expr D × ℚ)} (hP : QFs cfg P) (hQ : QFs cfg Q) :
    Tot cfg (fun E => mergeProd E (P.map fac) (Q.map fac)) ((mergeF P Q).map fac) := by
  induction hn : P.length + Q.length using Nat.strong_induction_on generalizing P Q with
  | _ n ih =>
  match P, Q with
  | [], Q => unfold mergeF; simp only [List.map_nil, mergeProd]; exact tot_pure _
  | f :: P, [] => unfold mergeF; simp only [List.map_nil, List.map_cons, mergeProd]; exact tot_pure _
  | f :: P, g :: Q =>
    obtain ⟨hf, hP'⟩ := hP.cons
    obtain ⟨hg, hQ'⟩ := hQ.cons
    unfold mergeF
    simp only [List.map_cons, mergeProd]
    simp only [List.length_cons] at hn
    refine tot_bind (tot_simplTwoFactors hf hg) ?_
    by_cases h : isEqual f.1 g.1 = true
    · by_cases h0 : f.2 + g.2 = 0
      · simp only [h, if_true, h0, fac0, one_eq, isOne_ratE, decide_true]
        exact tot_mergeProd (ih _ (by omega) hP' hQ' rfl)
      · have hfg : QF cfg (f.1, f.2 + g.2) := ⟨hf.base, hf.ok.add (by rw [isEqual_eq _ hf.base.good.exact _ hg.base.good.exact] at h; rw [h]; exact hg.ok), h0⟩
        simp only [h, if_true, fac0, h0, if_false, hfg.isOne, Bool.false_eq_true, List.map_cons]
        refine tot_bind (tot_mergeProd (ih _ (by omega) hP' hQ' rfl)) ?_
        exact tot_pure _
    · simp only [h, Bool.false_eq_true, if_false]
      have hne : fac f ≠ fac g := fun e => h (by
        rw [isEqual_eq _ hf.base.good.exact _ hg.base.good.exact, hf.inj hg e])
      unfold ordered
      by_cases h2 : doPermute (fac f) (fac g) = true
      · simp only [h2, if_true, areEqual_pair]
        simp only [isEqual_ne hg.exact hf.exact hne.symm, isEqual_refl hf.exact, isEqual_refl hg.exact, Bool.and_self,
          Bool.false_and, Bool.false_eq_true, if_false, if_true]
        refine tot_bind (tot_mergeProd (ih (P := f :: P) (Q := Q) _ (by simp only [List.length_cons]; omega) hP hQ' rfl)) ?_
        exact tot_pure _
      · simp only [h2, Bool.false_eq_true, if_false, areEqual_pair, isEqual_refl hf.exact, isEqual_refl hg.exact,
          Bool.and_self, if_true]
        refine tot_bind (tot_mergeProd (ih (P := P) (Q := g :: Q) _ (by simp only [List.length_cons]; omega) hP' hQ rfl)) ?_
        exact tot_pure _

/-! ## Canonical lists of factors -/

/-- The exponents of the bases. -/
noncomputable def cnt (P : List (Expr D × ℚ)) : Expr D →₀ ℚ := (P.map fun f => Finsupp.single f.1 f.2).sum

@[simp] theorem cnt_nil : cnt ([] : List (Expr D × ℚ)) = 0 := rfl
@[simp] theorem cnt_cons (f : Expr D × ℚ) (P : List (Expr D × ℚ)) : cnt (f :: P) = Finsupp.single f.1 f.2 + cnt P := by simp [cnt]
theorem cnt_append (P Q : List (Expr D × ℚ)) : cnt (P ++ Q) = cnt P + cnt Q := by simp [cnt]
theorem cnt_perm {P Q : List (Expr D × ℚ)} (h : P.Perm Q) : cnt P = cnt Q := (h.map _).sum_eq

/-- Factors in order, with different bases. -/
structure Can (cfg : Cfg D) (P : List (Expr D × ℚ)) : Prop where
  facs : QFs cfg P
  sorted : P.Pairwise fun f g => L f.1 g.1 = true

theorem Can.nil : Can cfg ([] : List (Expr D × ℚ)) := ⟨QFs.nil, by simp⟩
theorem Can.single {f : Expr D × ℚ} (h : QF cfg f) : Can cfg [f] := ⟨QFs.single h, by simp⟩

theorem Can.cons {f : Expr D × ℚ} {P : List (Expr D × ℚ)} (h : Can cfg (f :: P)) :
    QF cfg f ∧ Can cfg P ∧ ∀ g ∈ P, L f.1 g.1 = true := by
  have := List.pairwise_cons.1 h.sorted
  exact ⟨h.facs.cons.1, ⟨h.facs.cons.2, this.2⟩, this.1⟩

theorem Can.mk_cons {f : Expr D × ℚ} {P : List (Expr D × ℚ)} (hf : QF cfg f) (hP : Can cfg P)
    (h : ∀ g ∈ P, L f.1 g.1 = true) : Can cfg (f :: P) :=
  ⟨fun x hx => by
    rcases List.mem_cons.1 hx with rfl | hx
    exacts [hf, hP.facs x hx], List.pairwise_cons.2 ⟨h, hP.sorted⟩⟩

theorem cnt_none {P : List (Expr D × ℚ)} {b : Expr D} (h : ∀ g ∈ P, g.1 ≠ b) : cnt P b = 0 := by
  induction P with
  | nil => simp
  | cons f P ih =>
    rw [cnt_cons, Finsupp.add_apply, ih fun g hg => h g (by simp [hg]), Finsupp.single_eq_of_ne (h f (by simp)).symm, add_zero]

theorem Can.ne {f : Expr D × ℚ} {P : List (Expr D × ℚ)} (h : Can cfg (f :: P)) : ∀ g ∈ P, g.1 ≠ f.1 := by
  intro g hg e
  have := h.cons.2.2 g hg
  rw [e, h.cons.1.base.good.irrefl] at this
  cases this

theorem Can.mem_iff {P : List (Expr D × ℚ)} (h : Can cfg P) (f : Expr D × ℚ) : f ∈ P ↔ cnt P f.1 = f.2 ∧ f.2 ≠ 0 := by
  induction P with
  | nil => simp; exact fun h => h.symm
  | cons g P ih =>
    obtain ⟨hg, hP, hL⟩ := h.cons
    rw [List.mem_cons, ih hP, cnt_cons, Finsupp.add_apply]
    by_cases e : g.1 = f.1
    · rw [e, Finsupp.single_eq_same, cnt_none (by rw [← e]; exact h.ne), add_zero]
      constructor
      · rintro (rfl | ⟨h1, h2⟩)
        · exact ⟨rfl, hg.ne⟩
        · exact absurd h1.symm h2
      · rintro ⟨h1, h2⟩
        exact .inl (Prod.ext e.symm h1.symm)
    · rw [Finsupp.single_eq_of_ne (Ne.symm e), zero_add]
      constructor
      · rintro (rfl | h)
        · exact absurd rfl e
        · exact h
      · exact .inr

theorem Can.nodup {P : List (Expr D × ℚ)} (h : Can cfg P) : P.Nodup := by
  induction P with
  | nil => simp
  | cons f P ih => exact List.nodup_cons.2 ⟨fun hm => h.ne f hm rfl, ih h.cons.2.1⟩

/-- Lists in order are determined by the exponents. -/
theorem Can.ext {P Q : List (Expr D × ℚ)} (hP : Can cfg P) (hQ : Can cfg Q) (h : cnt P = cnt Q) : P = Q := by
  have hp : P.Perm Q := (List.perm_ext_iff_of_nodup hP.nodup hQ.nodup).2 fun f => by rw [hP.mem_iff, hQ.mem_iff, h]
  refine hp.eq_of_pairwise (le := fun f g : Expr D × ℚ => L f.1 g.1 = true) ?_ hP.sorted hQ.sorted
  intro a b ha hb h1 h2
  rw [(hP.facs a ha).base.good.asymm (hQ.facs b hb).base.good h1] at h2
  cases h2

theorem mergeF_nil (P : List (Expr D × ℚ)) : mergeF P [] = P := by cases P <;> simp [mergeF]

theorem nil_mergeF (P : List (Expr D × ℚ)) : mergeF [] P = P := by simp [mergeF]

theorem mergeF_can {P Q : List (Expr D × ℚ)} (hP : Can cfg P) (hQ : Can cfg Q) :
    Can cfg (mergeF P Q) ∧ cnt (mergeF P Q) = cnt P + cnt Q ∧ ∀ f ∈ mergeF P Q, ∃ g ∈ P ++ Q, g.1 = f.1 := by
  induction hn : P.length + Q.length using Nat.strong_induction_on generalizing P Q with
  | _ n ih =>
  match P, Q with
  | [], Q => rw [nil_mergeF]; exact ⟨hQ, by simp, fun f hf => ⟨f, by simpa using hf, rfl⟩⟩
  | f :: P, [] => rw [mergeF_nil]; exact ⟨hP, by simp, fun f hf => ⟨f, by simpa using hf, rfl⟩⟩
  | f :: P, g :: Q =>
    obtain ⟨hf, hP', lP⟩ := hP.cons
    obtain ⟨hg, hQ', lQ⟩ := hQ.cons
    simp only [List.length_cons] at hn
    unfold mergeF
    by_cases h : isEqual f.1 g.1 = true
    · obtain ⟨i1, i2, i3⟩ := ih _ (by omega) hP' hQ' rfl
      rw [if_pos h]
      rw [isEqual_eq _ hf.base.good.exact _ hg.base.good.exact] at h
      have lt : ∀ x ∈ mergeF P Q, L f.1 x.1 = true := by
        intro x hx
        obtain ⟨y, hy, e⟩ := i3 x hx
        rw [← e]
        rcases List.mem_append.1 hy with hy | hy
        · exact lP y hy
        · rw [h]; exact lQ y hy
      have sub : ∀ x ∈ mergeF P Q, ∃ y ∈ (f :: P) ++ (g :: Q), y.1 = x.1 := by
        intro x hx
        obtain ⟨y, hy, e⟩ := i3 x hx
        refine ⟨y, ?_, e⟩
        rcases List.mem_append.1 hy with hy | hy <;> simp [hy]
      have hc : Finsupp.single f.1 (f.2 + g.2) + (cnt P + cnt Q) = cnt (f :: P) + cnt (g :: Q) := by
        rw [cnt_cons, cnt_cons, ← h, Finsupp.single_add]
        abel
      split
      · rename_i h0
        refine ⟨i1, ?_, sub⟩
        rw [i2, ← hc, h0, Finsupp.single_zero, zero_add]
      · rename_i h0
        refine ⟨Can.mk_cons ⟨hf.base, hf.ok.add (by rw [h]; exact hg.ok), h0⟩ i1 lt, ?_, ?_⟩
        · rw [cnt_cons, i2, hc]
        · intro x hx
          rcases List.mem_cons.1 hx with rfl | hx
          · exact ⟨f, by simp, rfl⟩
          · exact sub x hx
    · rw [if_neg h]
      have hne : f.1 ≠ g.1 := by rwa [isEqual_eq _ hf.base.good.exact _ hg.base.good.exact] at h
      have ho : doPermute (fac f) (fac g) = L g.1 f.1 := hg.order hf hne.symm
      rw [ho]
      split
      · rename_i hl
        obtain ⟨i1, i2, i3⟩ := ih (P := f :: P) (Q := Q) _ (by simp only [List.length_cons]; omega) hP hQ' rfl
        refine ⟨Can.mk_cons hg i1 ?_, ?_, ?_⟩
        · intro x hx
          obtain ⟨y, hy, e⟩ := i3 x hx
          rw [← e]
          rcases List.mem_append.1 hy with hy | hy
          · rcases List.mem_cons.1 hy with rfl | hy
            · exact hl
            · exact Good.trans hg.base.good hf.base.good (hP'.facs y hy).base.good hl (lP y hy)
          · exact lQ y hy
        · rw [cnt_cons, i2, cnt_cons g]; abel
        · intro x hx
          rcases List.mem_cons.1 hx with rfl | hx
          · exact ⟨x, by simp, rfl⟩
          · obtain ⟨y, hy, e⟩ := i3 x hx
            refine ⟨y, ?_, e⟩
            rcases List.mem_append.1 hy with hy | hy
            · exact List.mem_append_left _ hy
            · simp [hy]
      · rename_i hl
        have hl' : L f.1 g.1 = true := hg.base.good.total hf.base.good (by simpa using hl) hne.symm
        obtain ⟨i1, i2, i3⟩ := ih (P := P) (Q := g :: Q) _ (by simp only [List.length_cons]; omega) hP' hQ rfl
        refine ⟨Can.mk_cons hf i1 ?_, ?_, ?_⟩
        · intro x hx
          obtain ⟨y, hy, e⟩ := i3 x hx
          rw [← e]
          rcases List.mem_append.1 hy with hy | hy
          · exact lP y hy
          · rcases List.mem_cons.1 hy with rfl | hy
            · exact hl'
            · exact Good.trans hf.base.good hg.base.good (hQ'.facs y hy).base.good hl' (lQ y hy)
        · rw [cnt_cons, i2, cnt_cons f]; abel
        · intro x hx
          rcases List.mem_cons.1 hx with rfl | hx
          · exact ⟨x, by simp, rfl⟩
          · obtain ⟨y, hy, e⟩ := i3 x hx
            refine ⟨y, ?_, e⟩
            rcases List.mem_append.1 hy with hy | hy
            · simp [hy]
            · exact List.mem_append_right _ hy

end Qf

end Tsym
