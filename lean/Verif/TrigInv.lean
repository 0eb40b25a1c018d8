import Verif.TrigSym

set_option autoImplicit false
set_option linter.unusedSectionVars false
set_option linter.unusedSimpArgs false
set_option linter.unusedVariables false

/-!
# Functions of polynomials: inverse functions, squares of sine and cosine, exponential function
-/

namespace Tsym

open Expr

variable {D : Type} [Flt D] [LawfulFlt D] {cfg : Cfg D}

/-! ## The inverse functions -/

theorem eval_fn {x : Expr D} (h : numEval x = .ok none) (f : Fn) : numEval (.fn f x) = .ok none := by
  simp only [numEval, h]; rfl

/-- A function of its inverse function. -/
theorem trigCreate_inverse (E : Eng D) (f g : Fn) (hg : g ≠ .log) (h : isOtherTheInverse f g = true) (x : Expr D) :
    trigCreate E f (.fn g x) = pure x := by
  cases g <;> first | exact absurd rfl hg | simp only [trigCreate, createFromTrigo, h, if_true]

/-- The negative of a function is expanded. -/
theorem tot_expand_mfn {f : Fn} {x : Expr D} (hx : Exact x) :
    Tot cfg (fun E => expand E (.prod [mOne, .fn f x])) (.prod [mOne, .fn f x]) := by
  simp only [expand]
  refine tot_succ (g := fun E => E.expandAsProduct [mOne, .fn f x]) (f := fun E => expandAsProduct E [mOne, .fn f x]) (fun _ => rfl) ?_
  refine tot_expandAsProduct_nil (A := [mOne, .fn f x]) ?_ ?_
  · simp only [defScalarAndSums]
    refine tot_bind (tot_expand (a := mOne) ?_) (tot_bind (tot_bind (tot_expand (a := .fn f x) ?_) (tot_bind (tot_pure _) (tot_pure _))) (tot_pure _))
    · rw [mOne_rat]; simp only [expand]; exact tot_pure _
    · simp only [expand]; exact tot_pure _
  · simp only [List.isEmpty_cons, Bool.false_eq_true, if_false]
    refine tot_prod ?_
    rw [mOne_rat]
    exact tot_num_fn hx (by norm_num) (by norm_num)

theorem tot_symm_mfn {f : Fn} {x : Expr D} (hx : Exact x) :
    Tot cfg (fun E => doesSymmetryApply E (.prod [mOne, .fn f x])) true := by
  simp only [doesSymmetryApply]
  refine tot_bind (tot_expand (tot_expand_mfn hx)) (tot_bind (tot_terms_mfn f x).2.1 ?_)
  have := (sg_num (cfg := cfg) (-1)).neg
  rw [show sgq (-1) = -1 from sgq_neg.2 (by norm_num)] at this
  rw [mOne_rat]
  exact tot_isNeg this

/-- A function of the negative of its inverse function. -/
theorem tot_inverse_neg (hc : cfg.Ok) {r r' : Expr D} (h : NC r) (h' : EP r') (hp : poly r' = - poly r) {f g : Fn} (hg : g ≠ .log)
    (hi : isOtherTheInverse f g = true) (hf : f ≠ .cos ∧ f ≠ .acos) :
    Tot cfg (fun E => trigCreate E f (.prod [mOne, .fn g r'])) r := by
  have n' := h.neg h' hp
  refine tot_trig_symm rfl rfl (tot_symm_mfn n'.exact) ?_
  unfold createBySymmetry
  refine tot_bind (tot_minus_minus_fn n'.exact hc) (tot_bind (a := r') (tot_trig ?_) ?_)
  · simp only [trigCreate_inverse _ f g hg hi]; exact tot_pure _
  · have := n'.tot_minus hc (cfg := cfg) h.ep (by rw [hp, neg_neg])
    cases f <;> first | exact absurd rfl hf.1 | exact absurd rfl hf.2 | exact this

/-! ## Squares -/

theorem two_eq : (two : Expr D) = .num (.rat 2) := by
  change Expr.num (Number.rat ((2 : ℕ) : ℚ)) = _; norm_num

theorem neg_fn {x : Expr D} (h : numEval x = .ok none) {f : Fn} (hf : f = .sin ∨ f = .cos) :
    Tot cfg (fun E => isNeg E (.fn f x)) false := by
  rcases hf with rfl | rfl <;> simp only [isNeg, evalIsNeg] <;> exact tot_bind (tot_lift (eval_fn h _)) (tot_pure _)

theorem pos_fn {x : Expr D} (h : numEval x = .ok none) {f : Fn} (hf : f = .sin ∨ f = .cos) :
    Tot cfg (fun E => isPos E (.fn f x)) false := by
  rcases hf with rfl | rfl <;> simp only [isPos, evalIsPos] <;> exact tot_bind (tot_lift (eval_fn h _)) (tot_pure _)

theorem tot_square_fn {x : Expr D} (h : numEval x = .ok none) {f : Fn} (hf : f = .sin ∨ f = .cos) :
    Tot cfg (fun E => powCreate E (.fn f x) two) (.pow (.fn f x) two) := by
  have z : (two : Expr D).isZero = false := by rw [two_eq, isZero_ratE]; simp
  have o : (two : Expr D).isOne = false := by rw [two_eq, isOne_ratE]; simp
  simp only [powCreate, show (two : Expr D).isUndefined = false from rfl, show (Expr.fn f x).isUndefined = false from rfl, Bool.or_self,
    Bool.false_eq_true, if_false, z, show (Expr.fn f x).isOne = false from rfl, show (Expr.fn f x).isZero = false from rfl, o,
    powCreateNonTrivial]
  refine tot_bind (a := (.fn f x, two)) (tot_simplPow ?_) (by simp only [o, show (Expr.fn f x).isOne = false from rfl, Bool.false_eq_true, if_false]; exact tot_pure _)
  unfold simplPow
  refine tot_bind (a := false) ?_ (by simp only [Bool.false_eq_true, if_false]; exact tot_pure _)
  unfold doesInvolveComplexNumbers
  refine tot_whenTrue ?_
  refine tot_bind (a := some (.rat 2)) (tot_lift (by rw [two_eq]; rfl)) (tot_bind (tot_isNeg (neg_fn h hf)) ?_)
  simp only [Bool.false_and, Bool.false_eq_true, if_false]
  exact tot_pure _

theorem GItem.sq (f : Fn) (x : Expr D) : GItem (.pow (.fn f x) two : Expr D) := .inr ⟨rfl, by simp [isContractableConst, isConst], rfl⟩
theorem GItem.one : GItem (one : Expr D) := .inl ⟨1, one_eq⟩

/-- One times a square times one. -/
theorem tot_prod_one_sq (hc : cfg.Ok) (f : Fn) (x : Expr D) :
    Tot cfg (fun E => prodCreate E [one, .pow (.fn f x) two, one]) (.pow (.fn f x) two) := by
  have z : (one : Expr D).isZero = false := by rw [one_eq, isZero_ratE]; simp
  simp only [prodCreate, List.any_cons, List.any_nil, show (one : Expr D).isUndefined = false from rfl,
    show (Expr.pow (.fn f x) two).isUndefined = false from rfl, z, show (Expr.pow (.fn f x) two).isZero = false from rfl,
    Bool.or_self, Bool.false_eq_true, if_false]
  refine tot_bind (a := [.pow (.fn f x) two]) (tot_prodSimplify ?_) (by simp only; exact tot_pure _)
  unfold simplProd
  refine tot_bind (a := [one, .pow (.fn f x) two, one]) (tot_extract (by simp [one_eq])) ?_
  refine tot_bind (a := [one, .pow (.fn f x) two, one]) (tot_contract_pw (simpl := fun E => contractTrigFctPowers E) ?_) ?_
  · have e : areContractableTrigFctPowers (.pow (.fn f x) two) (.num (.rat 1) : Expr D) = pure false := by
      unfold areContractableTrigFctPowers
      rw [num_not_trig]
      cases f <;> rfl
    simp [one_eq, num_trig_pair, e]
  · obtain ⟨P, hP, hT⟩ := tot_prepare_gen (cfg := cfg) hc (l := [one, .pow (.fn f x) two, one]) (by simp [GItem.sq, GItem.one])
    have e : [one, Expr.pow (.fn f x) two, one].filter (fun e => !e.isNumeric) = [Expr.pow (.fn f x) two] := rfl
    rw [e, List.perm_singleton] at hP
    subst hP
    have e2 : qs [one, Expr.pow (.fn f x) two, one] = 1 := by
      simp [qs, qOf, one_eq]
    rw [e2] at hT
    simp only [ne_eq, not_true_eq_false, false_or, reduceCtorEq, if_false] at hT
    exact tot_bind hT (by simp only [simplPreparedFactors]; exact tot_pure _)

/-- The square of the negative of a function. -/
theorem tot_square_mfn (hc : cfg.Ok) {x : Expr D} (h : numEval x = .ok none) {f : Fn} (hf : f = .sin ∨ f = .cos) :
    Tot cfg (fun E => powCreate E (.prod [mOne, .fn f x]) two) (.pow (.fn f x) two) := by
  have z : (two : Expr D).isZero = false := by rw [two_eq, isZero_ratE]; simp
  have o : (two : Expr D).isOne = false := by rw [two_eq, isOne_ratE]; simp
  have o1 : (one : Expr D).isOne = true := by rw [one_eq, isOne_ratE]; simp
  simp only [powCreate, show (two : Expr D).isUndefined = false from rfl, show (Expr.prod [mOne, Expr.fn f x]).isUndefined = false from rfl, Bool.or_self,
    Bool.false_eq_true, if_false, z, show (Expr.prod [mOne, Expr.fn f x]).isOne = false from rfl, show (Expr.prod [mOne, Expr.fn f x]).isZero = false from rfl, o,
    powCreateNonTrivial]
  refine tot_bind (a := (.pow (.fn f x) two, one)) (tot_simplPow ?_) (by simp only [o1, if_true]; exact tot_pure _)
  unfold simplPow
  refine tot_bind (a := false) ?_ ?_
  · unfold doesInvolveComplexNumbers
    refine tot_whenTrue ?_
    refine tot_bind (a := some (.rat 2)) (tot_lift (by rw [two_eq]; rfl)) ?_
    refine tot_bind (a := false) (tot_isNeg ?_) (by simp only [Bool.false_and, Bool.false_eq_true, if_false]; exact tot_pure _)
    simp only [isNeg]
    refine tot_bind (a := 0) ?_ (tot_pure _)
    have s1 := sg_num (cfg := cfg) (-1)
    rw [show sgq (-1) = -1 from sgq_neg.2 (by norm_num), ← mOne_rat] at s1
    simp only [signOfProduct]
    refine tot_bind (a := false) (tot_whenTrue (tot_isPos s1.pos)) ?_
    simp only [Bool.false_eq_true, if_false]
    refine tot_bind (a := true) (tot_whenTrue (tot_isNeg s1.neg)) ?_
    simp only [if_true]
    refine tot_bind (a := false) (tot_whenTrue (tot_isPos (pos_fn h hf))) ?_
    simp only [Bool.false_eq_true, if_false]
    refine tot_bind (a := false) (tot_whenTrue (tot_isNeg (neg_fn h hf))) ?_
    simp only [Bool.false_eq_true, if_false]
    exact tot_pure _
  simp only [Bool.false_eq_true, if_false, simplifyProductBase]
  refine tot_bind (a := true) (tot_lift (by rw [two_eq]; rfl)) ?_
  refine tot_bind (a := ([mOne, .fn f x], [one, .pow (.fn f x) two], [])) ?_ ?_
  · simp only [splitFactors, if_true]
    refine tot_bind (a := true) (tot_pure _) ?_
    simp only [if_true]
    refine tot_bind (a := one) (tot_pow ?_) (tot_bind (a := ([.fn f x], [.pow (.fn f x) two], [])) ?_ (tot_pure _))
    · have := tot_powNum (cfg := cfg) hc (q := -1) (n := 2) (.inl (by norm_num)) (by decide) fun _ => .inr ⟨?_, ?_⟩
      · rw [mOne_rat, one_eq]
        rw [show (two : Expr D) = int 2 from rfl]
        simpa using this
      all_goals simpa using (numOk_one (max := 1000)).resolve_left (by norm_num) |>.2
    · refine tot_bind (a := true) (tot_pure _) ?_
      simp only [if_true]
      exact tot_bind (tot_pow (tot_square_fn h hf)) (tot_bind (tot_pure _) (tot_pure _))
  · simp only [List.isEmpty_cons, Bool.false_eq_true, if_false, Bool.true_or, Bool.not_true]
    refine tot_bind (a := ()) (tot_logIf rfl) (tot_bind (tot_prod (tot_prod_nil hc)) (tot_bind (a := one) (tot_pow ?_) (tot_bind (tot_prod (tot_prod_one_sq hc f x)) (tot_pure _))))
    simp only [powCreate, show (two : Expr D).isUndefined = false from rfl, show (one : Expr D).isUndefined = false from rfl, Bool.or_self,
      Bool.false_eq_true, if_false, z, o1, Bool.or_true, if_true]
    exact tot_pure _

/-! ## The sum of the squares -/

theorem exact_sq {x : Expr D} (hx : Exact x) (f : Fn) : Exact (.pow (.fn f x) two : Expr D) := by
  refine exact_of_op (by simp) (by simp) fun o ho => ?_
  simp only [operands, List.mem_cons, List.not_mem_nil, or_false] at ho
  rcases ho with rfl | rfl
  · exact exact_fn hx
  · rw [two_eq]; exact exact_ratE _

/-- The squares of sine and cosine give one. -/
theorem tot_sincos {x : Expr D} (hx : Exact x) {f g : Fn} (hf : f = .sin ∧ g = .cos ∨ f = .cos ∧ g = .sin) :
    Tot cfg (fun E => sumCreate E [.pow (.fn f x) two, .pow (.fn g x) two]) one := by
  have n1 : ∀ f : Fn, Tot cfg (fun E => nonConstTerm E (.pow (.fn f x) two : Expr D)) (.pow (.fn f x) two) := fun f => by
    simp only [nonConstTerm, show (Expr.pow (.fn f x) two).isConst = false by simp [isConst], Bool.false_eq_true, if_false]; exact tot_pure _
  have c1 : ∀ f : Fn, Tot cfg (fun E => constTerm E (.pow (.fn f x) two : Expr D)) one := fun f => by
    simp only [constTerm, show (Expr.pow (.fn f x) two).isConst = false by simp [isConst], Bool.false_eq_true, if_false]; exact tot_pure _
  have m1 : ∀ f : Fn, Tot cfg (fun E => nonNumericTerm E (.pow (.fn f x) two : Expr D)) (.pow (.fn f x) two) := fun f => by
    simp only [nonNumericTerm]; exact tot_pure _
  have ne : isEqual (.pow (.fn f x) two) (.pow (.fn g x) two : Expr D) = false :=
    isEqual_ne (exact_sq hx f) (exact_sq hx g) (by rcases hf with ⟨rfl, rfl⟩ | ⟨rfl, rfl⟩ <;> simp)
  have oo : isEqual (one : Expr D) one = true := isEqual_refl (by rw [one_eq]; exact exact_ratE _)
  simp only [sumCreate, List.any_cons, List.any_nil, show ∀ f, (Expr.pow (.fn f x) two).isUndefined = false from fun _ => rfl,
    Bool.or_self, Bool.false_eq_true, if_false]
  refine tot_bind (a := [one]) (tot_sumSimplify ?_) (by simp only; exact tot_pure _)
  simp only [simplSum, simplTwoSummands, show ∀ f, (Expr.pow (.fn f x) two).isSum = false from fun _ => rfl, Bool.or_self, Bool.false_eq_true, if_false,
    simplTwoSummandsWithoutSum, show ∀ f, (Expr.pow (.fn f x) two).isZero = false from fun _ => rfl, simplTwoOther]
  refine tot_bind (a := false) (tot_whenTrue ?_) ?_
  · unfold haveEqualNonConstTerms
    refine tot_bind (n1 f) (tot_bind (n1 g) ?_)
    simp only [show ∀ f, (Expr.pow (.fn f x) two).isOne = false from fun _ => rfl, Bool.or_self, Bool.false_eq_true, if_false, ne]
    exact tot_pure _
  simp only [Bool.false_eq_true, if_false]
  refine tot_bind (a := false) (tot_whenTrue ?_) ?_
  · unfold haveEqualNonNumericTerms
    refine tot_bind (m1 f) (tot_bind (m1 g) ?_)
    simp only [ne]
    exact tot_pure _
  simp only [Bool.false_eq_true, if_false]
  refine tot_bind (a := true) (tot_whenTrue ?_) ?_
  · unfold haveContractableSinCos
    refine tot_bind (n1 f) (tot_bind (n1 g) (tot_bind (c1 f) (tot_bind (c1 g) ?_)))
    simp only [oo, if_true]
    refine tot_bind (a := true) ?_ ?_
    · have ev : evalsTo (two : Expr D) 2 = pure true := by
        unfold evalsTo
        rw [two_eq]
        rfl
      simp only [areSinAndCosSquare, Expr.isPower, Expr.exp, Expr.base, Bool.not_true, Bool.or_self, Bool.false_eq_true, if_false, ev]
      rcases hf with ⟨rfl, rfl⟩ | ⟨rfl, rfl⟩ <;> exact tot_pure _
    · simp only [if_true, haveEqualFirstOperands, Expr.base, operands, isEqual_refl hx, if_true]
      exact tot_pure _
  simp only [if_true]
  exact tot_bind (c1 f) (tot_pure _)

/-! ## Exponential function and logarithm -/

theorem NC.isNumeric {r : Expr D} (h : NC r) : r.isNumeric = false := by
  have := h.eval
  cases r <;> first | rfl | (simp [numEval, pure, Except.pure] at this)

theorem isZero_of_numeric {r : Expr D} (h : r.isNumeric = false) : r.isZero = false := by
  cases r <;> first | rfl | exact Bool.noConfusion h

theorem isOne_of_numeric {r : Expr D} (h : r.isNumeric = false) : r.isOne = false := by
  cases r <;> first | rfl | exact Bool.noConfusion h

theorem isEqual_e : isEqual (.cst .e) (.cst .e : Expr D) = true := by simp [isEqual]

theorem tot_exp {r : Expr D} (h : NC r) : Tot cfg (fun E => powCreate E (.cst .e) r) (.pow (.cst .e) r) := by
  have hz := isZero_of_numeric h.isNumeric
  have ho := isOne_of_numeric h.isNumeric
  simp only [powCreate, h.ep.isUndefined, show (Expr.cst .e : Expr D).isUndefined = false from rfl, Bool.or_self,
    Bool.false_eq_true, if_false, hz, show (Expr.cst .e : Expr D).isOne = false from rfl, show (Expr.cst .e : Expr D).isZero = false from rfl, ho,
    powCreateNonTrivial]
  refine tot_bind (a := (.cst .e, r)) (tot_simplPow ?_) (by simp only [ho, show (Expr.cst .e : Expr D).isOne = false from rfl, Bool.false_eq_true, if_false]; exact tot_pure _)
  unfold simplPow
  refine tot_bind (a := false) ?_ ?_
  · unfold doesInvolveComplexNumbers
    refine tot_whenTrue ?_
    refine tot_bind (tot_lift h.eval) (tot_bind (a := false) (tot_isNeg ?_) (tot_pure _))
    simp only [isNeg]; exact tot_pure _
  · simp only [Bool.false_eq_true, if_false, simplifyConstantBase, h.isFunction, Bool.and_false]
    exact tot_pure _

theorem tot_log_e : Tot cfg (fun E => logCreate E (.cst .e)) (one : Expr D) := by
  unfold logCreate
  refine tot_bind (a := false) ?_ ?_
  · simp only [isInvalidArg, show (Expr.cst .e : Expr D).isUndefined = false from rfl, show (Expr.cst .e : Expr D).isZero = false from rfl, Bool.or_self,
      Bool.false_eq_true, if_false, show (Expr.cst .e : Expr D).isPower = false from rfl, Bool.false_and]
    refine tot_whenTrue ?_
    refine tot_bind (a := false) (tot_isNeg (by simp only [isNeg]; exact tot_pure _)) ?_
    simp only [Bool.false_eq_true, if_false, evalsTo]
    refine tot_bind (tot_lift (a := some (.ofDouble Flt.e)) rfl) ?_
    have : (Number.ofDouble Flt.e : Number D).eqv 0 = false := by
      rw [Number.eqv_false, Number.val_ofDouble, LawfulFlt.e]
      simp
    simp only [this]
    exact tot_pure _
  · simp only [Bool.false_eq_true, if_false, show (Expr.cst .e : Expr D).isOne = false from rfl, isEqual_e, if_true]
    exact tot_pure _

theorem rs_log_exp (hc : cfg.Ok) {r : Expr D} (h : NC r) : Rs cfg (fun _ => True) (fun E => logCreate E (.pow (.cst .e) r)) r := by
  unfold logCreate
  refine rs_bind (a := false) (Tot.rs ?_) ?_
  · simp only [isInvalidArg, show (Expr.pow (.cst .e) r : Expr D).isUndefined = false from rfl, show (Expr.pow (.cst .e) r : Expr D).isZero = false from rfl, Bool.or_self,
      Bool.false_eq_true, if_false, show (Expr.pow (.cst .e) r : Expr D).isPower = true from rfl, Expr.base, isEqual_e, Bool.and_self, if_true]
    exact tot_pure _
  · simp only [Bool.false_eq_true, if_false, show (Expr.pow (.cst .e) r : Expr D).isOne = false from rfl]
    refine rs_bind (a := ()) (rs_log fun σ _ => ⟨Real.exp 1, by simp [den, Spec.cst], Real.exp_pos 1⟩)
      (rs_bind (Tot.rs (tot_succ (g := fun E => E.logCreate (.cst .e)) (fun _ => rfl) tot_log_e)) (Tot.rs ?_))
    obtain ⟨x, hx, ex, px⟩ := tot_prod_mix (cfg := cfg) hc (A := [r, one]) (by simp) (by
      intro e he
      simp only [List.mem_cons, List.not_mem_nil, or_false] at he
      rcases he with rfl | rfl
      · exact ⟨h.ep, h.ne_zero⟩
      · rw [one_eq]; exact ⟨EP.num _, by rw [poly_ratE]; simp⟩) (.inr ⟨[], r, [one], rfl, by simp [one_eq]⟩)
    have : x = r := ex.unique h.ep (by rw [px]; simp [poly_one])
    rw [this] at hx
    exact hx

/-- The exponential function of a logarithm. -/
theorem tot_exp_log {r : Expr D} (hx : Exact r) (he : numEval r = .ok none) (h : Tot cfg (fun E => E.logCreate r) (.fn .log r)) :
    Tot cfg (fun E => powCreate E (.cst .e) (.fn .log r)) r := by
  have o1 : (one : Expr D).isOne = true := by rw [one_eq, isOne_ratE]; simp
  simp only [powCreate, show (Expr.fn .log r).isUndefined = false from rfl, show (Expr.cst .e : Expr D).isUndefined = false from rfl, Bool.or_self,
    Bool.false_eq_true, if_false, show (Expr.fn .log r).isZero = false from rfl, show (Expr.cst .e : Expr D).isOne = false from rfl, show (Expr.cst .e : Expr D).isZero = false from rfl,
    show (Expr.fn .log r).isOne = false from rfl, powCreateNonTrivial]
  refine tot_bind (a := (r, one)) (tot_simplPow ?_) (by simp only [o1, if_true]; exact tot_pure _)
  unfold simplPow
  refine tot_bind (a := false) ?_ ?_
  · unfold doesInvolveComplexNumbers
    refine tot_whenTrue ?_
    refine tot_bind (tot_lift (eval_fn he _)) (tot_bind (a := false) (tot_isNeg ?_) (tot_pure _))
    simp only [isNeg]; exact tot_pure _
  · simp only [Bool.false_eq_true, if_false, simplifyConstantBase, show (Expr.fn .log r).isFunction = true from rfl, isEqual_e, Bool.and_self, if_true, operands]
    refine tot_bind (tot_silent h) ?_
    simp only [isEqual_refl (exact_fn (f := .log) hx), if_true]
    refine tot_bind (a := ()) (tot_logIf rfl) (tot_pure _)

/-! ## The cosine of π minus an arc cosine -/

theorem tot_cos_pi_acos {x : Expr D} (he : numEval x = .ok none) :
    Tot cfg (fun E => trigCreate E .cos (.sum [.cst .pi, .prod [mOne, .fn .acos x]])) (.fn .cos (.sum [.cst .pi, .prod [mOne, .fn .acos x]])) := by
  refine tot_trig_plain rfl rfl ?_ ?_ .cos
  · have : numEval (.prod [mOne, .fn .acos x] : Expr D) = .ok none := by
      rw [mOne_rat]
      simp only [numEval, numEvalProd, he]
      rfl
    simp only [numEval, numEvalSum] at this ⊢
    simp only [this]
    rfl
  · simp only [doesSymmetryApply, haveAllNegativePrefactors, constTerm, show (Expr.cst .pi : Expr D).isConst = false by simp [isConst], Bool.false_eq_true, if_false]
    refine tot_bind (tot_pure _) (tot_bind (a := true) (tot_isPos ?_) ?_)
    · have := (sg_num (cfg := cfg) 1).pos
      rw [show sgq 1 = 1 from sgq_pos.2 (by norm_num)] at this
      rw [one_eq]
      exact this
    · simp only [if_true]; exact tot_pure _

end Tsym
