import Verif.TrigSym
import Verif.SqrtSum

set_option autoImplicit false
set_option linter.unusedSectionVars false
set_option linter.unusedSimpArgs false
set_option linter.unusedVariables false

/-!
# Helper lemmas: rational multiples of π and the range of the argument (src/numtrigosimpl.cpp)
-/

namespace Tsym

open Expr

variable {D : Type} [Flt D] [LawfulFlt D] {cfg : Cfg D}

/-- A rational multiple of π, as the library writes it. -/
def piM (q : ℚ) : Expr D := if q = 0 then zero else if q = 1 then .cst .pi else .prod [.num (.rat q), .cst .pi]

theorem exact_pi : Exact (.cst .pi : Expr D) := exact_of_op (by simp) (by simp) (by intro o ho; simp [operands] at ho)

theorem piM_zero : (piM 0 : Expr D) = zero := if_pos rfl
theorem piM_one : (piM 1 : Expr D) = .cst .pi := by simp [piM]
theorem piM_else {q : ℚ} (h0 : q ≠ 0) (h1 : q ≠ 1) : (piM q : Expr D) = .prod [.num (.rat q), .cst .pi] := by simp [piM, h0, h1]

theorem piM_isUndefined (q : ℚ) : (piM q : Expr D).isUndefined = false := by unfold piM; split_ifs <;> rfl
theorem piM_isZero (q : ℚ) : (piM q : Expr D).isZero = decide (q = 0) := by
  by_cases h0 : q = 0
  · rw [h0, piM_zero, zero_eq, isZero_ratE]
  · unfold piM; rw [if_neg h0]; split_ifs <;> simp [h0, Expr.isZero]
theorem piM_isSum (q : ℚ) : (piM q : Expr D).isSum = false := by unfold piM; split_ifs <;> rfl
theorem piM_isFunction (q : ℚ) : (piM q : Expr D).isFunction = false := by unfold piM; split_ifs <;> rfl

theorem piM_exact (q : ℚ) : Exact (piM q : Expr D) := by
  unfold piM; split_ifs
  · rw [zero_eq]; exact exact_ratE _
  · exact exact_pi
  · refine exact_of_op (by simp) (by simp) fun o ho => ?_
    simp only [operands, List.mem_cons, List.not_mem_nil, or_false] at ho
    rcases ho with rfl | rfl
    · exact exact_ratE _
    · exact exact_pi

theorem piM_inj {p q : ℚ} (h : (piM p : Expr D) = piM q) : p = q := by
  unfold piM at h
  split_ifs at h <;> first | (simp_all; done) | (rw [zero_eq] at h; cases h)

theorem piM_isEqual (p q : ℚ) : isEqual (piM p : Expr D) (piM q) = decide (p = q) := by
  by_cases h : p = q
  · subst h; simp [isEqual_refl (piM_exact p)]
  · rw [isEqual_ne (piM_exact p) (piM_exact q) fun e => h (piM_inj e)]; simp [h]

/-- The value of a multiple of π. -/
theorem piM_eval (q : ℚ) : ∃ x : Number D, numEval (piM q : Expr D) = .ok (some x) ∧ x.val = q * Real.pi := by
  by_cases h0 : q = 0
  · subst h0
    refine ⟨.rat 0, ?_, by simp⟩
    rw [piM_zero, zero_eq]; rfl
  by_cases h1 : q = 1
  · subst h1
    refine ⟨.ofDouble Flt.pi, by rw [piM_one]; rfl, by simp [LawfulFlt.pi]⟩
  · refine ⟨((1 : Number D).mul (.rat q)).mul (.ofDouble Flt.pi), by rw [piM_else h0 h1]; rfl, ?_⟩
    rw [Number.val_mul, Number.val_mul, Number.val_ofDouble, LawfulFlt.pi, Number.one_def]
    simp

/-! ## Arithmetic with multiples of π -/

theorem tot_two_num_pi {q : ℚ} (hq : q ≠ 1) :
    Tot cfg (fun E => simplTwoFactors E (.num (.rat q)) (.cst .pi)) [.num (.rat q), .cst .pi] := by
  have hb : haveEqualBases (.num (.rat q)) (.cst .pi : Expr D) = false := by
    unfold haveEqualBases
    exact isEqual_ne (exact_ratE _) exact_pi (by simp [Expr.base])
  have hp : doPermute (.num (.rat q)) (.cst .pi : Expr D) = false := by
    rw [doPermute_eq]; simp [permStep, permSame, permDiff]
  simp only [simplTwoFactors, Expr.isProduct, Bool.or_self, Bool.false_eq_true, if_false,
    simplTwoFactorsWithoutProduct, isOne_ratE, hq, decide_false, show (Expr.cst .pi : Expr D).isOne = false from rfl,
    show (Expr.cst .pi : Expr D).isConst = false by simp [isConst], Bool.and_false, hb, ordered, hp]
  exact tot_pure _

theorem needsExp_pi (q : ℚ) : needsExpansion [num (Number.rat q), (.cst .pi : Expr D)] = false := by
  simp [needsExpansion, constElements, nonConstElements, isConst, Expr.isSum]

/-- timesPi. -/
theorem tot_prod_pi (q : ℚ) : Tot cfg (fun E => prodCreate E [.num (.rat q), .cst .pi]) (piM q) := by
  by_cases h0 : q = 0
  · subst h0
    have z : (num (.rat 0) : Expr D).isZero = true := by rw [isZero_ratE]; simp
    simp only [prodCreate, List.any_cons, List.any_nil, show (Expr.num (.rat 0) : Expr D).isUndefined = false from rfl,
      show (Expr.cst .pi : Expr D).isUndefined = false from rfl, z, Bool.or_self, Bool.false_eq_true, if_false, Bool.true_or, if_true, piM_zero]
    exact tot_pure _
  by_cases h1 : q = 1
  · subst h1
    rw [piM_one]
    have := tot_timesPi_one (D := D) (cfg := cfg)
    have z : (num (.rat 1) : Expr D).isZero = false := by rw [isZero_ratE]; simp
    have o : (num (.rat 1) : Expr D).isOne = true := by rw [isOne_ratE]; simp
    simp only [prodCreate, List.any_cons, List.any_nil, show (Expr.num (.rat 1) : Expr D).isUndefined = false from rfl,
      show (Expr.cst .pi : Expr D).isUndefined = false from rfl, z, show (Expr.cst .pi : Expr D).isZero = false from rfl, Bool.or_self,
      Bool.false_eq_true, if_false]
    refine tot_bind (a := [.cst .pi]) (tot_prodSimplify ?_) (by simp only; exact tot_pure _)
    unfold simplProd
    refine tot_bind (a := [.num (.rat 1), .cst .pi]) (tot_extract (u := [.num (.rat 1), .cst .pi]) (by simp)) ?_
    refine tot_bind (a := [.num (.rat 1), .cst .pi]) (tot_contract_pw (simpl := fun E => contractTrigFctPowers E) ?_) ?_
    · simp [num_trig_pair]
    · simp only [simplTwoFactors, show (Expr.num (.rat 1) : Expr D).isProduct = false from rfl, show (Expr.cst .pi : Expr D).isProduct = false from rfl,
        Bool.or_self, Bool.false_eq_true, if_false, simplTwoFactorsWithoutProduct, o, if_true]
      exact tot_pure _
  rw [piM_else h0 h1]
  have z : (num (.rat q) : Expr D).isZero = false := by rw [isZero_ratE]; simpa using h0
  simp only [prodCreate, List.any_cons, List.any_nil, show (Expr.num (.rat q) : Expr D).isUndefined = false from rfl,
    show (Expr.cst .pi : Expr D).isUndefined = false from rfl, z, show (Expr.cst .pi : Expr D).isZero = false from rfl, Bool.or_self,
    Bool.false_eq_true, if_false]
  refine tot_bind (a := [.num (.rat q), .cst .pi]) (tot_prodSimplify ?_) ?_
  · unfold simplProd
    refine tot_bind (a := [.num (.rat q), .cst .pi]) (tot_extract (u := [.num (.rat q), .cst .pi]) (by simp)) ?_
    refine tot_bind (a := [.num (.rat q), .cst .pi]) (tot_contract_pw (simpl := fun E => contractTrigFctPowers E) ?_) ?_
    · simp [num_trig_pair]
    · exact tot_two_num_pi h1
  · simp only [needsExp_pi, Bool.false_eq_true, if_false]
    exact tot_pure _

theorem tot_timesPi (q : ℚ) : Tot cfg (fun E => timesPi E q) (piM q) := tot_prod (tot_prod_pi q)

theorem GItem.pi : GItem (.cst .pi : Expr D) := .inr ⟨rfl, by simp [isContractableConst, isConst], rfl⟩

/-- A number times a multiple of π. -/
theorem tot_num_piM (hc : cfg.Ok) (p q : ℚ) : Tot cfg (fun E => prodCreate E [.num (.rat p), piM q]) (piM (p * q)) := by
  by_cases h1 : q = 1
  · subst h1; rw [piM_one, mul_one]; exact tot_prod_pi p
  by_cases h0 : q = 0 ∨ p = 0
  · have e : p * q = 0 := by rcases h0 with rfl | rfl <;> simp
    have z : (num (.rat p) : Expr D).isZero = true ∨ (piM q : Expr D).isZero = true := by
      rw [isZero_ratE, piM_isZero]; rcases h0 with rfl | rfl <;> simp
    rw [e, piM_zero]
    simp only [prodCreate, List.any_cons, List.any_nil, show (Expr.num (.rat p) : Expr D).isUndefined = false from rfl, piM_isUndefined,
      Bool.or_self, Bool.false_eq_true, if_false]
    have : ((num (.rat p) : Expr D).isZero || ((piM q : Expr D).isZero || false)) = true := by
      rcases z with z | z <;> simp [z]
    simp only [this, if_true]
    exact tot_pure _
  push Not at h0
  have z : (num (.rat p) : Expr D).isZero = false := by rw [isZero_ratE]; simpa using h0.2
  have z2 : (piM q : Expr D).isZero = false := by rw [piM_isZero]; simpa using h0.1
  simp only [prodCreate, List.any_cons, List.any_nil, show (Expr.num (.rat p) : Expr D).isUndefined = false from rfl, piM_isUndefined, z, z2,
      Bool.or_self, Bool.false_eq_true, if_false]
  have hpq : p * q ≠ 0 := mul_ne_zero h0.2 h0.1
  have fin : Tot cfg (fun E => simplProd E [.num (.rat p), piM q]) (if p * q = 1 then [.cst .pi] else [.num (.rat (p * q)), .cst .pi]) := by
    unfold simplProd
    rw [piM_else h0.1 h1]
    refine tot_bind (a := [.num (.rat p), .num (.rat q), .cst .pi]) ?_ ?_
    · exact tot_extract (cfg := cfg) (u := [.num (.rat p), .prod [.num (.rat q), .cst .pi]]) (by
        intro l hl y hy
        simp only [List.mem_cons, List.not_mem_nil, or_false, Expr.prod.injEq] at hl
        rcases hl with hl | hl
        · cases hl
        · subst hl
          simp only [List.mem_cons, List.not_mem_nil, or_false] at hy
          rcases hy with rfl | rfl <;> rfl)
    refine tot_bind (a := [.num (.rat p), .num (.rat q), .cst .pi]) (tot_contract_pw (simpl := fun E => contractTrigFctPowers E) ?_) ?_
    · simp [num_trig_pair]
    · obtain ⟨P, hP, hT⟩ := tot_prepare_gen (cfg := cfg) hc (l := [.num (.rat p), .num (.rat q), .cst .pi]) (by
        intro e he
        simp only [List.mem_cons, List.not_mem_nil, or_false] at he
        rcases he with rfl | rfl | rfl
        · exact .inl ⟨_, rfl⟩
        · exact .inl ⟨_, rfl⟩
        · exact GItem.pi)
      have e : [.num (.rat p), .num (.rat q), (.cst .pi : Expr D)].filter (fun e => !e.isNumeric) = [.cst .pi] := rfl
      rw [e, List.perm_singleton] at hP
      subst hP
      have e2 : qs [.num (.rat p), .num (.rat q), (.cst .pi : Expr D)] = p * q := by simp [qs, qOf]
      rw [e2] at hT
      refine tot_bind hT ?_
      by_cases h : p * q = 1
      · simp only [h, ne_eq, not_true_eq_false, false_or, reduceCtorEq, if_false, if_true, simplPreparedFactors]; exact tot_pure _
      · simp only [h, ne_eq, not_false_eq_true, true_or, if_false, if_true, simplPreparedFactors]; exact tot_two_num_pi h
  refine tot_bind (tot_prodSimplify fin) ?_
  by_cases h : p * q = 1
  · simp only [h, if_true, piM_one]; exact tot_pure _
  · simp only [h, if_false, piM_else hpq h, needsExp_pi, Bool.false_eq_true]; exact tot_pure _

theorem tot_minus_piM (hc : cfg.Ok) (q : ℚ) : Tot cfg (fun E => E.minus (piM q)) (piM (-q)) := by
  unfold Eng.minus
  rw [mOne_rat]
  have := tot_num_piM (D := D) (cfg := cfg) hc (-1) q
  rw [neg_one_mul] at this
  exact tot_prod this

theorem piM_terms {q : ℚ} (h0 : q ≠ 0) :
    Tot cfg (fun E => nonConstTerm E (piM q : Expr D)) (.cst .pi) ∧ Tot cfg (fun E => constTerm E (piM q : Expr D)) (.num (.rat q)) := by
  by_cases h1 : q = 1
  · subst h1
    rw [piM_one]
    refine ⟨?_, ?_⟩
    · simp only [nonConstTerm, isConst, Bool.false_eq_true, if_false]; exact tot_pure _
    · simp only [constTerm, isConst, Bool.false_eq_true, if_false, ← one_eq]; exact tot_pure _
  · rw [piM_else h0 h1]
    have z : (num (.rat q) : Expr D).isZero = false := by rw [isZero_ratE]; simpa using h0
    have e1 : nonConstElements [.num (.rat q), (.cst .pi : Expr D)] = [.cst .pi] := by simp [nonConstElements, isConst]
    have e2 : constElements [.num (.rat q), (.cst .pi : Expr D)] = [.num (.rat q)] := by
      simp only [constElements]
      rw [List.filter_cons_of_pos (by simp [isConst]), List.filter_cons_of_neg (by simp [isConst]), List.filter_nil]
    refine ⟨?_, ?_⟩
    · simp only [nonConstTerm, e1, List.isEmpty_cons, Bool.false_eq_true, if_false]
      exact tot_prod (tot_prod_single rfl rfl)
    · simp only [constTerm, e2, List.isEmpty_cons, Bool.false_eq_true, if_false]
      exact tot_prod (tot_prod_single rfl z)

/-- The sum of two multiples of π. -/
theorem tot_sum_piM (p q : ℚ) : Tot cfg (fun E => sumCreate E [piM p, piM q]) (piM (p + q)) := by
  simp only [sumCreate, List.any_cons, List.any_nil, piM_isUndefined, Bool.or_self, Bool.false_eq_true, if_false]
  refine tot_bind (a := [piM (p + q)]) (tot_sumSimplify ?_) (tot_pure _)
  simp only [simplSum, simplTwoSummands, piM_isSum, Bool.or_self, Bool.false_eq_true, if_false, simplTwoSummandsWithoutSum, piM_isZero]
  by_cases hp : p = 0
  · simp only [hp, decide_true, if_true, zero_add]; exact tot_pure _
  by_cases hq : q = 0
  · simp only [hp, hq, decide_false, decide_true, Bool.false_eq_true, if_true, if_false, add_zero]; exact tot_pure _
  simp only [hp, hq, decide_false, Bool.false_eq_true, if_false]
  obtain ⟨n1, c1⟩ := piM_terms (D := D) (cfg := cfg) hp
  obtain ⟨n2, c2⟩ := piM_terms (D := D) (cfg := cfg) hq
  have hnum : ∀ {r : ℚ}, r ≠ 0 → (piM r : Expr D).isNumeric = false := by
    intro r hr; unfold piM; rw [if_neg hr]; split_ifs <;> rfl
  have key : Tot cfg (fun E => simplTwoOther E (piM p) (piM q)) [piM (p + q)] := by
    unfold simplTwoOther
    refine tot_bind (a := true) (tot_whenTrue ?_) ?_
    · unfold haveEqualNonConstTerms
      refine tot_bind n1 (tot_bind n2 ?_)
      simp only [show (Expr.cst .pi : Expr D).isOne = false from rfl, Bool.or_self, Bool.false_eq_true, if_false, isEqual_refl exact_pi]
      exact tot_pure _
    simp only [if_true]
    unfold simplEqualNonConstTerms
    refine tot_bind c1 (tot_bind c2 (tot_bind (tot_sum_num p q) ?_))
    simp only [show (num (.rat (p + q)) : Expr D).isSum = false from rfl, Bool.not_false, if_true]
    exact tot_bind n1 (tot_bind (tot_prod (tot_prod_pi _)) (tot_pure _))
  have hx := hnum hp
  split
  · rename_i x y e1 e2
    rw [e1] at hx; cases hx
  · exact key

/-! ## Division by π -/

/-- 1/π. -/
def piInv : Expr D := .pow (.cst .pi) mOne

theorem exact_piInv : Exact (piInv : Expr D) := by
  refine exact_of_op (by simp [piInv]) (by simp [piInv]) fun o ho => ?_
  simp only [piInv, operands, List.mem_cons, List.not_mem_nil, or_false] at ho
  rcases ho with rfl | rfl
  · exact exact_pi
  · rw [mOne_rat]; exact exact_ratE _

theorem tot_oneOver_pi : Tot cfg (fun E => E.oneOver .piE) (piInv : Expr D) := by
  unfold Eng.oneOver
  refine tot_pow ?_
  have z : (mOne : Expr D).isZero = false := by rw [mOne_rat, isZero_ratE]; simp
  have o : (mOne : Expr D).isOne = false := by rw [mOne_rat, isOne_ratE]; norm_num
  simp only [powCreate, show (mOne : Expr D).isUndefined = false from rfl, show (Expr.piE : Expr D).isUndefined = false from rfl, z, o,
    show (Expr.piE : Expr D).isOne = false from rfl, show (Expr.piE : Expr D).isZero = false from rfl, Bool.or_self, Bool.false_eq_true, if_false]
  unfold powCreateNonTrivial
  refine tot_bind (a := (.cst .pi, mOne)) (tot_simplPow ?_) ?_
  · unfold simplPow
    refine tot_bind (a := false) ?_ ?_
    · unfold doesInvolveComplexNumbers
      refine tot_whenTrue (tot_bind (tot_lift (a := some (.rat (-1))) (by rw [mOne_rat]; rfl)) (tot_bind (a := false) (tot_isNeg ?_) ?_))
      · simp only [isNeg, Expr.piE]; exact tot_pure _
      · simp only [Bool.false_and, Bool.false_eq_true, if_false]; exact tot_pure _
    · have : isEqual (.cst .pi) (.cst .e : Expr D) = false := isEqual_ne exact_pi
        (exact_of_op (by simp) (by simp) (by intro o ho; simp [operands] at ho)) (by simp)
      simp only [Bool.false_eq_true, if_false, Expr.piE, simplifyConstantBase, this, Bool.false_and]
      exact tot_pure _
  · simp only [o, Bool.false_eq_true, if_false, show (Expr.cst .pi : Expr D).isOne = false from rfl]
    exact tot_pure _

theorem tot_isPos_pi : Tot cfg (fun E => E.isPos (.cst .pi : Expr D)) true := by
  refine tot_isPos ?_
  simp only [isPos]; exact tot_pure _

/-- π times 1/π, in any order. -/
theorem tot_two_pi_inv {a b : Expr D} (h : (a = .cst .pi ∧ b = piInv) ∨ (a = piInv ∧ b = .cst .pi)) :
    Tot cfg (fun E => simplTwoFactors E a b) [one] := by
  have hb : haveEqualBases a b = true := by
    unfold haveEqualBases
    rcases h with ⟨rfl, rfl⟩ | ⟨rfl, rfl⟩ <;> exact isEqual_refl exact_pi
  have hbase : a.base = .cst .pi := by rcases h with ⟨rfl, rfl⟩ | ⟨rfl, rfl⟩ <;> rfl
  have p1 : a.isProduct = false ∧ b.isProduct = false ∧ a.isOne = false ∧ b.isOne = false ∧ (a.isConst && b.isConst) = false := by
    rcases h with ⟨rfl, rfl⟩ | ⟨rfl, rfl⟩ <;> refine ⟨rfl, rfl, rfl, rfl, ?_⟩ <;> simp [isConst]
  obtain ⟨p1, p2, p3, p4, p5⟩ := p1
  simp only [simplTwoFactors, p1, p2, Bool.or_self, Bool.false_eq_true, if_false, simplTwoFactorsWithoutProduct, p3, p4, p5, hb, if_true]
  unfold simplTwoEqualBases
  refine tot_bind (a := num (.rat 0)) ?_ ?_
  · rcases h with ⟨rfl, rfl⟩ | ⟨rfl, rfl⟩
    · have := tot_sum_num (D := D) (cfg := cfg) 1 (-1)
      rw [show (1 + -1 : ℚ) = 0 by norm_num, ← mOne_rat, ← one_eq] at this
      exact this
    · have := tot_sum_num (D := D) (cfg := cfg) (-1) 1
      rw [show (-1 + 1 : ℚ) = 0 by norm_num, ← mOne_rat, ← one_eq] at this
      exact this
  simp only [hbase]
  refine tot_bind (tot_silent tot_isPos_pi) ?_
  simp only [if_true]
  refine tot_bind (tot_pure _) (tot_bind (tot_pure _) ?_)
  simp only [Bool.false_eq_true, if_false]
  refine tot_bind (a := one) (tot_pow ?_) (tot_pure _)
  have z : (num (.rat 0) : Expr D).isZero = true := by rw [isZero_ratE]; simp
  simp only [powCreate, show (num (.rat 0) : Expr D).isUndefined = false from rfl, show (Expr.cst .pi : Expr D).isUndefined = false from rfl, z,
    Bool.or_self, Bool.false_eq_true, if_false, Bool.true_or, if_true]
  exact tot_pure _

theorem pi_not_trig {a b y : Expr D} (h : (a = .cst .pi ∧ b = piInv) ∨ (a = piInv ∧ b = .cst .pi)) :
    areContractableTrigFctPowers a y = pure false := by
  unfold areContractableTrigFctPowers
  rcases h with ⟨rfl, rfl⟩ | ⟨rfl, rfl⟩ <;> rfl

theorem tot_simplProd_pi_inv {a b : Expr D} (h : (a = .cst .pi ∧ b = piInv) ∨ (a = piInv ∧ b = .cst .pi)) :
    Tot cfg (fun E => simplProd E [a, b]) [one] := by
  unfold simplProd
  refine tot_bind (a := [a, b]) ?_ ?_
  · have := tot_extract (cfg := cfg) (u := [a, b]) (by
      intro l hl
      simp only [List.mem_cons, List.not_mem_nil, or_false] at hl
      rcases h with ⟨rfl, rfl⟩ | ⟨rfl, rfl⟩ <;> rcases hl with e | e <;> cases e)
    have e : [a, b].flatMap factors = [a, b] := by rcases h with ⟨rfl, rfl⟩ | ⟨rfl, rfl⟩ <;> rfl
    rwa [e] at this
  refine tot_bind (a := [a, b]) (tot_contract_pw (simpl := fun E => contractTrigFctPowers E) ?_) (tot_two_pi_inv h)
  simp [pi_not_trig h]

theorem GItem.piInv : GItem (piInv : Expr D) := .inr ⟨rfl, by simp [isContractableConst, isConst, Tsym.piInv], rfl⟩

/-- A multiple of π divided by π. -/
theorem tot_piM_div (hc : cfg.Ok) (q : ℚ) : Tot cfg (fun E => prodCreate E [piM q, piInv]) (.num (.rat q)) := by
  have zi : (piInv : Expr D).isZero = false := rfl
  by_cases h0 : q = 0
  · subst h0
    have z : (zero : Expr D).isZero = true := by rw [zero_eq, isZero_ratE]; simp
    simp only [prodCreate, List.any_cons, List.any_nil, piM_isUndefined, show (piInv : Expr D).isUndefined = false from rfl, piM_zero, z,
      show (zero : Expr D).isUndefined = false from rfl, Bool.or_self, Bool.false_eq_true, if_false, Bool.true_or, if_true, ← zero_eq]
    exact tot_pure _
  have z2 : (piM q : Expr D).isZero = false := by rw [piM_isZero]; simpa using h0
  simp only [prodCreate, List.any_cons, List.any_nil, show (piInv : Expr D).isUndefined = false from rfl, piM_isUndefined, zi, z2,
      Bool.or_self, Bool.false_eq_true, if_false]
  by_cases h1 : q = 1
  · subst h1
    rw [piM_one, ← one_eq]
    exact tot_bind (tot_prodSimplify (tot_simplProd_pi_inv (.inl ⟨rfl, rfl⟩))) (tot_pure _)
  refine tot_bind (a := [.num (.rat q)]) (tot_prodSimplify ?_) (tot_pure _)
  unfold simplProd
  rw [piM_else h0 h1]
  refine tot_bind (a := [.num (.rat q), .cst .pi, piInv]) ?_ ?_
  · exact tot_extract (cfg := cfg) (u := [.prod [.num (.rat q), .cst .pi], piInv]) (by
      intro l hl y hy
      simp only [List.mem_cons, List.not_mem_nil, or_false, Expr.prod.injEq] at hl
      rcases hl with hl | hl
      · subst hl
        simp only [List.mem_cons, List.not_mem_nil, or_false] at hy
        rcases hy with rfl | rfl <;> rfl
      · cases hl)
  refine tot_bind (a := [.num (.rat q), .cst .pi, piInv]) (tot_contract_pw (simpl := fun E => contractTrigFctPowers E) ?_) ?_
  · simp [num_trig_pair, pi_not_trig (a := Expr.cst .pi) (b := piInv) (.inl ⟨rfl, rfl⟩)]
  obtain ⟨P, hP, hT⟩ := tot_prepare_gen (cfg := cfg) hc (l := [.num (.rat q), .cst .pi, piInv]) (by
    intro e he
    simp only [List.mem_cons, List.not_mem_nil, or_false] at he
    rcases he with rfl | rfl | rfl
    · exact .inl ⟨_, rfl⟩
    · exact GItem.pi
    · exact GItem.piInv)
  have e : [.num (.rat q), (.cst .pi : Expr D), piInv].filter (fun e => !e.isNumeric) = [.cst .pi, piInv] := rfl
  rw [e] at hP
  have e2 : qs [.num (.rat q), (.cst .pi : Expr D), piInv] = q := by simp [qs, qOf, piInv]
  rw [e2] at hT
  simp only [ne_eq, h1, not_false_eq_true, true_or, if_true] at hT
  obtain ⟨a, b, rfl, hab⟩ : ∃ a b : Expr D, P = [a, b] ∧ ((a = .cst .pi ∧ b = piInv) ∨ (a = piInv ∧ b = .cst .pi)) := by
    have hl := hP.length_eq
    match P, hl with
    | [a, b], _ =>
      refine ⟨a, b, rfl, ?_⟩
      have h1 : a ∈ [.cst .pi, (piInv : Expr D)] := hP.mem_iff.1 (by simp)
      simp only [List.mem_cons, List.not_mem_nil, or_false] at h1
      rcases h1 with rfl | rfl
      · have := (List.perm_cons _).1 hP
        rw [List.perm_singleton] at this
        exact .inl ⟨rfl, by simpa using this⟩
      · have := (List.perm_cons _).1 (hP.trans (List.Perm.swap _ _ _))
        rw [List.perm_singleton] at this
        exact .inr ⟨rfl, by simpa using this⟩
  refine tot_bind hT ?_
  have o : (one : Expr D).isOne = true := by rw [one_eq, isOne_ratE]; simp
  have oq : (num (.rat q) : Expr D).isOne = false := by rw [isOne_ratE]; simpa using h1
  simp only [simplPreparedFactors]
  refine tot_bind (tot_simplProd (tot_simplProd_pi_inv hab)) (tot_mergeProd ?_)
  unfold mergeProd
  refine tot_bind (a := [.num (.rat q)]) ?_ ?_
  · simp only [simplTwoFactors, show (num (.rat q) : Expr D).isProduct = false from rfl, show (one : Expr D).isProduct = false from rfl,
      Bool.or_self, Bool.false_eq_true, if_false, simplTwoFactorsWithoutProduct, o, oq, if_true]
    exact tot_pure _
  · simp only [oq, Bool.false_eq_true, if_false]
    refine tot_bind (a := []) (tot_mergeProd ?_) (tot_pure _)
    simp only [mergeProd]; exact tot_pure _

/-! ## The range of the argument -/

theorem tot_isNeg_piM (q : ℚ) : Tot cfg (fun E => E.isNeg (piM q : Expr D)) (decide (q < 0)) := by
  by_cases h0 : q = 0
  · subst h0
    refine tot_isNeg ?_
    rw [piM_zero, zero_eq]
    simp only [isNeg, NumPowerSimpl.rat_lt_zero]; exact tot_pure _
  by_cases h1 : q = 1
  · subst h1
    refine tot_isNeg ?_
    rw [piM_one]
    simp only [isNeg, show ¬ ((1 : ℚ) < 0) by norm_num, decide_false]; exact tot_pure _
  rw [piM_else h0 h1]
  refine tot_isNeg ?_
  simp only [isNeg]
  have hpos : Tot cfg (fun E => E.isPos (num (.rat q) : Expr D)) (decide (0 < q)) := by
    refine tot_isPos ?_
    have : Number.lt 0 (.rat q : Number D) = decide (0 < q) := by rw [Number.zero_def, lt_rat]
    simp only [isPos, this]; exact tot_pure _
  have hneg : Tot cfg (fun E => E.isNeg (num (.rat q) : Expr D)) (decide (q < 0)) := by
    refine tot_isNeg ?_
    simp only [isNeg, NumPowerSimpl.rat_lt_zero]; exact tot_pure _
  have key : ∀ a : ℤ, Tot cfg (fun E => signOfProduct E a [(.cst .pi : Expr D)]) a := by
    intro a
    simp only [signOfProduct]
    refine tot_bind (tot_whenTrue tot_isPos_pi) ?_
    simp only [if_true]; exact tot_pure _
  refine tot_bind (a := if 0 < q then 1 else -1) ?_ ?_
  · simp only [signOfProduct]
    refine tot_bind (tot_whenTrue hpos) ?_
    by_cases hq : 0 < q
    · simp only [hq, decide_true, if_true]
      exact key 1
    · have hq' : q < 0 := lt_of_le_of_ne (not_lt.1 hq) h0
      simp only [hq, decide_false, Bool.false_eq_true, if_false]
      refine tot_bind (tot_whenTrue hneg) ?_
      simp only [hq', decide_true, if_true]
      exact key _
  · by_cases hq : 0 < q
    · have hq' : ¬ q < 0 := by linarith
      simp only [hq, hq', decide_false, if_true]; exact tot_pure _
    · have hq' : q < 0 := lt_of_le_of_ne (not_lt.1 hq) h0
      simp only [hq, hq', decide_true, if_false]; exact tot_pure _

theorem optGe_piM {p q : ℚ} {x y : Number D} (hx : x.val = p * Real.pi) (hy : y.val = q * Real.pi) :
    optGe (some x) (some y) = decide (q ≤ p) := by
  have : (y.val ≤ x.val) ↔ q ≤ p := by
    rw [hx, hy, mul_le_mul_iff_left₀ Real.pi_pos]; exact_mod_cast Iff.rfl
  rw [Bool.eq_iff_iff, decide_eq_true_iff, ← this, optGe]
  rw [Bool.not_eq_true', ← Bool.not_eq_true, Number.lt_iff, not_lt]

theorem optLt_piM {p q : ℚ} {x y : Number D} (hx : x.val = p * Real.pi) (hy : y.val = q * Real.pi) :
    optLt (some x) (some y) = decide (p < q) := by
  have : (x.val < y.val) ↔ p < q := by
    rw [hx, hy, mul_lt_mul_iff_left₀ Real.pi_pos]; exact_mod_cast Iff.rfl
  rw [Bool.eq_iff_iff, decide_eq_true_iff, ← this, optLt, Number.lt_iff]

namespace NumTrigo

/-- The remainder of `q` modulo 2. -/
def rem2 (q : ℚ) : ℚ := q - 2 * ⌊q / 2⌋

theorem rem2_nonneg (q : ℚ) : 0 ≤ rem2 q := by
  have := Int.floor_le (q / 2); unfold rem2; linarith
theorem rem2_lt (q : ℚ) : rem2 q < 2 := by
  have := Int.lt_floor_add_one (q / 2); unfold rem2; linarith
theorem rem2_add (q : ℚ) (k : ℤ) : rem2 (q + 2 * k) = rem2 q := by
  unfold rem2
  rw [show (q + 2 * k) / 2 = q / 2 + k by ring, Int.floor_add_intCast]; push_cast; ring
theorem rem2_self {q : ℚ} (h0 : 0 ≤ q) (h2 : q < 2) : rem2 q = q := by
  unfold rem2
  rw [Int.floor_eq_zero_iff.2 ⟨by positivity, by linarith⟩]; simp

theorem tot_adjustUp {q : ℚ} : Tot cfg (fun E => adjustUp E (piM 2) (piM q)) (if q < 0 then piM (rem2 q) else piM q) := by
  unfold adjustUp
  refine tot_loop (f := fun (E : Eng D) a => do
    let n ← M.silent (E.isNeg a)
    if n then do
      let s ← E.sumCreate [a, piM 2]
      pure (.inl s)
    else pure (.inr a)) ?_
  have base : ∀ {p : ℚ}, 0 ≤ p → Rounds cfg (fun (E : Eng D) a => do
    let n ← M.silent (E.isNeg a)
    if n then do
      let s ← E.sumCreate [a, piM 2]
      pure (.inl s)
    else pure (.inr a)) (piM p) (piM p) := by
    intro p hp
    refine .done _ (tot_bind (tot_silent (tot_isNeg_piM p)) ?_)
    simp only [not_lt.2 hp, decide_false, Bool.false_eq_true, if_false]; exact tot_pure _
  by_cases hq : q < 0
  · simp only [hq, if_true]
    suffices key : ∀ (n : ℕ) (q : ℚ), q < 0 → -(2 * n) ≤ q → Rounds cfg (fun (E : Eng D) a => do
        let n ← M.silent (E.isNeg a)
        if n then do
          let s ← E.sumCreate [a, piM 2]
          pure (.inl s)
        else pure (.inr a)) (piM (rem2 q)) (piM q) by
      obtain ⟨n, hn⟩ := exists_nat_ge (-q)
      exact key n q hq (by have : (0 : ℚ) ≤ n := Nat.cast_nonneg n; linarith)
    intro n
    induction n with
    | zero => intro q h1 h2; simp at h2; linarith
    | succ n ih =>
      intro q h1 h2
      have e : rem2 (q + 2) = rem2 q := by have := rem2_add q 1; simpa using this
      refine .next _ (piM (q + 2)) (tot_bind (tot_silent (tot_isNeg_piM q)) ?_) ?_
      · simp only [h1, decide_true, if_true]
        exact tot_bind (tot_sum (tot_sum_piM q 2)) (tot_pure _)
      · rw [← e]
        by_cases h3 : q + 2 < 0
        · exact ih _ h3 (by push_cast at h2; linarith)
        · rw [rem2_self (not_lt.1 h3) (by linarith)]
          exact base (not_lt.1 h3)
  · simp only [hq, if_false]
    exact base (not_lt.1 hq)

theorem tot_adjustDown (hc : cfg.Ok) {q : ℚ} (hq : 0 ≤ q) : Tot cfg (fun E => adjustDown E (piM 2) (piM q)) (piM (rem2 q)) := by
  unfold adjustDown
  set F : Eng D → Expr D → M D (Expr D ⊕ Expr D) := fun (E : Eng D) a => do
    let n ← M.lift (numEval a)
    let t ← M.lift (numEval (piM 2 : Expr D))
    if optGe n t then do
      let m ← E.minus (piM 2)
      let s ← E.sumCreate [a, m]
      pure (.inl s)
    else pure (.inr a) with hF
  refine tot_loop (f := F) ?_
  suffices key : ∀ (n : ℕ) (q : ℚ), 0 ≤ q → q < 2 * n → Rounds cfg F (piM (rem2 q)) (piM q) by
    obtain ⟨n, hn⟩ := exists_nat_gt q
    exact key n q hq (by have : (0 : ℚ) ≤ n := Nat.cast_nonneg n; linarith)
  intro n
  induction n with
  | zero => intro q h1 h2; simp at h2; linarith
  | succ n ih =>
    intro q h1 h2
    obtain ⟨x, hx, vx⟩ := piM_eval (D := D) q
    obtain ⟨y, hy, vy⟩ := piM_eval (D := D) 2
    have hge := optGe_piM vx vy
    by_cases h3 : 2 ≤ q
    · have e : rem2 (q + -2) = rem2 q := by have := rem2_add q (-1); simpa using this
      refine .next _ (piM (q + -2)) ?_ ?_
      · rw [hF]
        refine tot_bind (tot_lift hx) (tot_bind (tot_lift hy) ?_)
        simp only [hge, h3, decide_true, if_true]
        exact tot_bind (tot_minus_piM hc 2) (tot_bind (tot_sum (tot_sum_piM q (-2))) (tot_pure _))
      · rw [← e]
        exact ih _ (by linarith) (by push_cast at h2; linarith)
    · rw [rem2_self h1 (not_le.1 h3)]
      refine .done _ ?_
      rw [hF]
      refine tot_bind (tot_lift hx) (tot_bind (tot_lift hy) ?_)
      simp only [hge, h3, decide_false, Bool.false_eq_true, if_false]
      exact tot_pure _

/-- The argument is shifted into [0, 2π). -/
theorem tot_adjustArgRange (hc : cfg.Ok) (q : ℚ) : Tot cfg (fun E => adjustArgRange E (piM q)) (piM (rem2 q)) := by
  unfold adjustArgRange
  refine tot_bind (tot_timesPi 2) (tot_bind tot_adjustUp ?_)
  by_cases h : q < 0
  · simp only [h, if_true]
    have := tot_adjustDown (D := D) hc (rem2_nonneg q)
    rwa [rem2_self (rem2_nonneg q) (rem2_lt q)] at this
  · simp only [h, if_false]
    exact tot_adjustDown hc (not_lt.1 h)

/-- The quadrant of `q`π. -/
def quad (q : ℚ) : ℕ := if q < 1 / 2 then 1 else if q < 1 then 2 else if q < 3 / 2 then 3 else 4

theorem tot_getQuadrant (hc : cfg.Ok) {q : ℚ} (h0 : 0 ≤ q) (h2 : q < 2) : Tot cfg (fun E => getQuadrant E (piM q : Expr D)) (quad q) := by
  unfold getQuadrant
  refine tot_bind tot_oneOver_pi (tot_bind (tot_prod (tot_piM_div hc q)) ?_)
  have ev : Tot cfg (fun _ => evalE (num (.rat q) : Expr D)) (.rat q) := by
    unfold evalE
    exact tot_bind (tot_lift (a := some (.rat q)) rfl) (tot_pure _)
  refine tot_bind ev ?_
  have two : (2 : Number D) = .rat 2 := by change Number.rat ((2 : ℕ) : ℚ) = _; norm_num
  have l0 : ¬ q < 0 := not_lt.2 h0
  simp only [Number.zero_def, Number.one_def, two, lt_rat, l0, h2, decide_false, decide_true, Bool.not_true, Bool.or_self, Bool.false_eq_true, if_false]
  unfold quad
  by_cases a : q < 1 / 2
  · simp only [a, decide_true, if_true]; exact tot_pure _
  by_cases b : q < 1
  · simp only [a, b, decide_true, decide_false, Bool.false_eq_true, if_true, if_false]; exact tot_pure _
  by_cases c : q < 3 / 2
  · simp only [a, b, c, decide_true, decide_false, Bool.false_eq_true, if_true, if_false]; exact tot_pure _
  · simp only [a, b, c, decide_true, decide_false, Bool.false_eq_true, if_true, if_false]; exact tot_pure _

theorem tot_shiftDown (hc : cfg.Ok) (n : ℕ) : ∀ q : ℚ, Tot cfg (fun E => shiftDown E (piM (1 / 2)) n (piM q)) (piM (q - n / 2) : Expr D) := by
  induction n with
  | zero => intro q; simp only [shiftDown, Nat.cast_zero, zero_div, sub_zero]; exact tot_pure _
  | succ n ih =>
    intro q
    simp only [shiftDown]
    refine tot_bind (tot_minus_piM hc _) (tot_bind (tot_sum (tot_sum_piM _ _)) ?_)
    have := ih (q + -(1 / 2))
    rwa [show q + -(1 / 2) - (n : ℚ) / 2 = q - ((n + 1 : ℕ) : ℚ) / 2 by push_cast; ring] at this

/-- The argument in the first quadrant. -/
def first (q : ℚ) : ℚ := if q < 1 / 2 then q else if q < 1 then 1 - q else if q < 3 / 2 then q - 1 else 2 - q

theorem tot_shiftToFirst (hc : cfg.Ok) (q : ℚ) : Tot cfg (fun E => shiftToFirstQuadrant E (quad q) (piM q)) (piM (first q) : Expr D) := by
  unfold shiftToFirstQuadrant
  refine tot_bind (tot_timesPi _) (tot_bind (tot_shiftDown hc _ _) ?_)
  unfold quad first
  by_cases a : q < 1 / 2
  · simp only [a, if_true, show ¬ (1 = 2 ∨ 1 = 4) by omega, if_false, Nat.sub_self, Nat.cast_zero, zero_div, sub_zero]; exact tot_pure _
  by_cases b : q < 1
  · simp only [a, b, if_true, if_false, true_or]
    refine tot_bind (tot_minus_piM hc _) ?_
    have := tot_sum (tot_sum_piM (D := D) (cfg := cfg) (1 / 2) (-(q - ((2 - 1 : ℕ) : ℚ) / 2)))
    rwa [show (1 / 2 + -(q - ((2 - 1 : ℕ) : ℚ) / 2) : ℚ) = 1 - q by push_cast; ring] at this
  by_cases c : q < 3 / 2
  · simp only [a, b, c, if_true, if_false, show ¬ (3 = 2 ∨ 3 = 4) by omega]
    rw [show (q - ((3 - 1 : ℕ) : ℚ) / 2 : ℚ) = q - 1 by push_cast; ring]
    exact tot_pure _
  · simp only [a, b, c, if_false, or_true, if_true]
    refine tot_bind (tot_minus_piM hc _) ?_
    have := tot_sum (tot_sum_piM (D := D) (cfg := cfg) (1 / 2) (-(q - ((4 - 1 : ℕ) : ℚ) / 2)))
    rwa [show (1 / 2 + -(q - ((4 - 1 : ℕ) : ℚ) / 2) : ℚ) = 2 - q by push_cast; ring] at this

end NumTrigo

end Tsym
