import Verif.TrigPi
import Verif.SurdSum
import Verif.Krfl

set_option autoImplicit false
set_option linter.unusedSectionVars false
set_option linter.unusedSimpArgs false
set_option linter.unusedVariables false

/-!
# Helper lemmas: the values of sine and cosine in the table
-/

namespace Tsym

open Expr NumPowerSimpl

variable {D : Type} [Flt D] [LawfulFlt D] {cfg : Cfg D}

/-- Square-free numbers. -/
macro "sqf" : tactic => `(tactic| (rw [Nat.squarefree_iff_minSqFac]; decide +kernel))

/-- A concrete case of `SqSplit`. -/
macro "sqs" : tactic => `(tactic| exact ⟨by norm_num, by norm_num, by decide +kernel, by decide +kernel, by sqf, by sqf⟩)

/-- A concrete case of `SmallQ`. -/
macro "smq" h:term : tactic => `(tactic| exact ⟨le_trans (by decide +kernel) $h, le_trans (by decide +kernel) $h⟩)

/-- A concrete case of `RootOf`. -/
macro "rto" h:term "," s:term : tactic => `(tactic| exact .small $s (by smq $h) (by smq $h) (by sqs) (by norm_num))

/-- A concrete case of `St`. -/
macro "stt" h:term "," s:term : tactic => `(tactic| exact ⟨⟨by norm_num, by norm_num, fun _ => ⟨by sqf, by sqf⟩⟩, by norm_num, by rto $h, $s⟩)

section
variable (h6 : 6 ≤ cfg.maxPrime)
include h6

theorem st_2 : St cfg 1 2 := by stt h6, 1
theorem st_3 : St cfg 1 3 := by stt h6, 1
theorem st_6 : St cfg 1 6 := by stt h6, 1
theorem st_m2 : St cfg (-1) 2 := by stt h6, 1
theorem st_h32 : St cfg (1 / 2) (3 / 2) := by stt h6, (1 / 2)
theorem st_h12 : St cfg (1 / 2) (1 / 2) := by stt h6, (1 / 2)
theorem st_mh32 : St cfg (-1 / 2) (3 / 2) := by stt h6, (1 / 2)
theorem st_mh12 : St cfg (-1 / 2) (1 / 2) := by stt h6, (1 / 2)
theorem st_12 : St cfg 1 (1 / 2) := by stt h6, 1
theorem st_m12 : St cfg (-1) (1 / 2) := by stt h6, 1
theorem st_h3 : St cfg (1 / 2) 3 := by stt h6, (1 / 2)
theorem st_mh3 : St cfg (-1 / 2) 3 := by stt h6, (1 / 2)
theorem st_m3 : St cfg (-1) 3 := by stt h6, 1
theorem st_13 : St cfg 1 (1 / 3) := by stt h6, 1

end

theorem surd_one {a : ℚ} (h : a ≠ 1) : (surd 1 a : Expr D) = rootE a := by simp [surd, h]

/-! ## The order -/

/-- The stored form of the roots that occur. -/
theorem root2 : (rootE 2 : Expr D) = .pow (num (.rat 2)) (num (.rat (1 / 2))) := by rw [rootE, if_neg (by decide +kernel)]
theorem root3 : (rootE 3 : Expr D) = .pow (num (.rat 3)) (num (.rat (1 / 2))) := by rw [rootE, if_neg (by decide +kernel)]
theorem root6 : (rootE 6 : Expr D) = .pow (num (.rat 6)) (num (.rat (1 / 2))) := by rw [rootE, if_neg (by decide +kernel)]
theorem root32 : (rootE (3 / 2) : Expr D) = .pow (num (.rat (3 / 2))) (num (.rat (1 / 2))) := by rw [rootE, if_neg (by decide +kernel)]
theorem root12 : (rootE (1 / 2) : Expr D) = .pow (num (.rat 2)) (num (.rat (-(1 / 2)))) := by
  rw [rootE, if_pos (by decide +kernel), show (1 / 2 : ℚ)⁻¹ = 2 by norm_num]

theorem perm_pow {a b x y : ℚ} (h : a ≠ b) :
    doPermute (.pow (num (.rat a)) (num (.rat x))) (.pow (num (.rat b)) (num (.rat y)) : Expr D) = decide (b < a) := by
  rw [doPermute_eq]
  simp only [permStep, permSame, isEqual, Number.rat_eqv, h, decide_false, Bool.not_false, if_true]
  rw [doPermute_eq]
  simp only [permStep, permSame, lt_rat]

theorem perm_prod {p q : ℚ} {x y : Expr D} (h : isEqual x y = false) (h' : isEqual y x = false) (hp : doPermute x y = !doPermute y x) :
    doPermute (.prod [num (.rat p), x]) (.prod [num (.rat q), y]) = doPermute x y := by
  rw [doPermute_eq]
  simp only [permStep, permSame, permLists, List.reverse_cons, List.reverse_nil, List.nil_append, List.cons_append, lexCmp, h, h', Bool.not_false, Bool.true_and]
  rw [hp]
  cases doPermute y x <;> simp

theorem perm_pow_prod {q : ℚ} {b e y : Expr D} (h : isEqual y (.pow b e) = false) :
    doPermute (.pow b e) (.prod [num (.rat q), y]) = !doPermute y (.pow b e) := by
  rw [doPermute_eq]
  simp [permStep, permSame, permDiff, permLast, h]

theorem isEqual_pow {a b x y : ℚ} (h : a ≠ b) : isEqual (.pow (num (.rat a)) (num (.rat x))) (.pow (num (.rat b)) (num (.rat y)) : Expr D) = false := by
  simp [isEqual, Number.rat_eqv, h]

theorem ordered_pow {a b x y : ℚ} (h : a ≠ b) {p q : ℚ} : ordered (.prod [num (.rat p), .pow (num (.rat a)) (num (.rat x))]) (.prod [num (.rat q), .pow (num (.rat b)) (num (.rat y))] : Expr D) =
    if b < a then [.prod [num (.rat q), .pow (num (.rat b)) (num (.rat y))], .prod [num (.rat p), .pow (num (.rat a)) (num (.rat x))]]
    else [.prod [num (.rat p), .pow (num (.rat a)) (num (.rat x))], .prod [num (.rat q), .pow (num (.rat b)) (num (.rat y))]] := by
  unfold ordered
  rw [perm_prod (isEqual_pow h) (isEqual_pow h.symm), perm_pow h]
  · simp
  · rw [perm_pow h, perm_pow h.symm]
    rcases lt_or_gt_of_ne h with h | h <;> simp [h, h.le]

theorem perm_1 : ordered (surd 1 6) (surd (-1) 2 : Expr D) = [surd (-1) 2, surd 1 6] := by
  rw [surd_one (by norm_num), surd, if_neg (by norm_num), if_neg (by norm_num), root2, root6]
  unfold ordered
  rw [perm_pow_prod (isEqual_pow (by norm_num)), perm_pow (by norm_num)]
  norm_num
theorem perm_2 : ordered (surd 1 6) (surd 1 2 : Expr D) = [surd 1 2, surd 1 6] := by
  rw [surd_one (by norm_num), surd_one (by norm_num), root2, root6]
  unfold ordered
  rw [perm_pow (by norm_num)]
  norm_num
theorem perm_3 : ordered (num (.rat 2)) (surd 1 2 : Expr D) = [num (.rat 2), surd 1 2] := by krfl
theorem perm_4 : ordered (num (.rat 2)) (surd (-1) 2 : Expr D) = [num (.rat 2), surd (-1) 2] := by krfl

theorem surd_prod {p a : ℚ} (h : a ≠ 1) (hp : p ≠ 1) : (surd p a : Expr D) = .prod [num (.rat p), rootE a] := by simp [surd, h, hp]

theorem perm_5 {p q : ℚ} (hp : p ≠ 1) (hq : q ≠ 1) : ordered (surd p (1 / 2)) (surd q (3 / 2) : Expr D) = [surd q (3 / 2), surd p (1 / 2)] := by
  rw [surd_prod (by norm_num) hp, surd_prod (by norm_num) hq, root12, root32, ordered_pow (by norm_num)]
  norm_num
theorem perm_6 {p q : ℚ} (hp : p ≠ 1) (hq : q ≠ 1) : ordered (surd q (3 / 2)) (surd p (1 / 2) : Expr D) = [surd q (3 / 2), surd p (1 / 2)] := by
  rw [surd_prod (by norm_num) hp, surd_prod (by norm_num) hq, root12, root32, ordered_pow (by norm_num)]
  norm_num

/-! ## Numerical values -/

theorem rootE_eval {a : ℚ} (ha : 0 < a) : ∃ x : Number D, numEval (rootE a : Expr D) = .ok (some x) ∧ x.val = Real.sqrt a := by
  have e1 : ((1 / 2 : ℚ).num.natAbs : ℤ) ≤ Number.unsignedMax := by decide +kernel
  have e2 : ((1 / 2 : ℚ).den : ℤ) ≤ Number.unsignedMax := by decide +kernel
  have e3 : ((-(1 / 2) : ℚ).num.natAbs : ℤ) ≤ Number.unsignedMax := by decide +kernel
  have e4 : ((-(1 / 2) : ℚ).den : ℤ) ≤ Number.unsignedMax := by decide +kernel
  have ha' : (0 : ℝ) < a := by exact_mod_cast ha
  unfold rootE
  split_ifs
  · obtain ⟨r, h1, h2⟩ := Number.toThe_total (b := (.rat a⁻¹ : Number D)) (e := -(1 / 2)) (by simpa using ha) e3 e4
    refine ⟨r, by simp only [numEval, h1, bind, Except.bind, pure, Except.pure], ?_⟩
    rw [h2, Real.sqrt_eq_rpow]
    push_cast
    simp only [Number.val_rat, Rat.cast_inv]
    rw [Real.inv_rpow ha'.le, ← Real.rpow_neg ha'.le]; norm_num
  · obtain ⟨r, h1, h2⟩ := Number.toThe_total (b := (.rat a : Number D)) (e := 1 / 2) (by simpa using ha) e1 e2
    refine ⟨r, by simp only [numEval, h1, bind, Except.bind, pure, Except.pure], ?_⟩
    rw [h2, Real.sqrt_eq_rpow]
    push_cast
    simp only [Number.val_rat]

theorem surd_eval {p a : ℚ} (ha : 0 < a) : ∃ x : Number D, numEval (surd p a : Expr D) = .ok (some x) ∧ x.val = p * Real.sqrt a := by
  obtain ⟨x, h1, h2⟩ := rootE_eval (D := D) ha
  unfold surd
  split_ifs with h h'
  · subst h; exact ⟨.rat p, rfl, by simp⟩
  · subst h'; exact ⟨x, h1, by simp [h2]⟩
  · refine ⟨((1 : Number D).mul (.rat p)).mul x, ?_, ?_⟩
    · simp [numEval, numEvalProd, h1, bind, Except.bind, pure, Except.pure]
    · rw [Number.val_mul, Number.val_mul, h2, Number.one_def]; simp

theorem sum2_eval {x y : Expr D} {a b : ℝ} (hx : ∃ v : Number D, numEval x = .ok (some v) ∧ v.val = a) (hy : ∃ v : Number D, numEval y = .ok (some v) ∧ v.val = b) :
    ∃ v : Number D, numEval (.sum [x, y]) = .ok (some v) ∧ v.val = a + b := by
  obtain ⟨u, h1, h2⟩ := hx
  obtain ⟨v, h3, h4⟩ := hy
  refine ⟨((0 : Number D).add u).add v, ?_, ?_⟩
  · simp [numEval, numEvalSum, h1, h3, bind, Except.bind, pure, Except.pure]
  · rw [Number.val_add, Number.val_add, h2, h4, Number.zero_def]; simp

/-! ## Roots of sums -/

/-- The square root of a positive sum. -/
theorem tot_sqrt_sum {l : List (Expr D)} {x : Number D} (h : numEval (.sum l) = .ok (some x)) (hx : 0 ≤ x.val) :
    Tot cfg (fun E => powCreate E (.sum l) (num (.rat (1 / 2)))) (.pow (.sum l) (num (.rat (1 / 2)))) := by
  have z : (num (.rat (1 / 2)) : Expr D).isZero = false := by rw [isZero_ratE]; norm_num
  have o : (num (.rat (1 / 2)) : Expr D).isOne = false := by rw [isOne_ratE]; norm_num
  have hl : x.lt 0 = false := by rw [Bool.eq_false_iff, Ne, Number.lt_iff]; simp [hx]
  simp only [powCreate, show (num (.rat (1 / 2)) : Expr D).isUndefined = false from rfl, show (Expr.sum l).isUndefined = false from rfl, z, o,
    show (Expr.sum l).isOne = false from rfl, show (Expr.sum l).isZero = false from rfl, Bool.or_self, Bool.false_eq_true, if_false, powCreateNonTrivial]
  refine tot_bind (a := (.sum l, num (.rat (1 / 2)))) (tot_simplPow ?_) ?_
  · unfold simplPow
    refine tot_bind (a := false) ?_ ?_
    · unfold doesInvolveComplexNumbers
      refine tot_whenTrue (tot_bind (tot_lift (numEval_rat _)) (tot_bind (a := false) (tot_isNeg ?_) ?_))
      · simp only [isNeg]
        refine tot_bind (tot_lift h) ?_
        simp only [hl]; exact tot_pure _
      · simp only [Bool.false_and, Bool.false_eq_true, if_false]; exact tot_pure _
    · simp only [Bool.false_eq_true, if_false]; exact tot_pure _
  · simp only [o, show (Expr.sum l).isOne = false from rfl, Bool.false_eq_true, if_false]; exact tot_pure _

/-- A multiple of such a root. -/
def msr (p : ℚ) (l : List (Expr D)) : Expr D := .prod [num (.rat p), .pow (.sum l) (num (.rat (1 / 2)))]

theorem GItem.sr (l : List (Expr D)) : GItem (.pow (.sum l) (num (.rat (1 / 2))) : Expr D) :=
  .inr ⟨rfl, by simp [isContractableConst, Expr.isNumeric, Expr.isNumericPower], rfl⟩

theorem tot_two_sr {p : ℚ} (hp : p ≠ 1) {l : List (Expr D)} (hl : (Expr.sum l).isConst = true) :
    Tot cfg (fun E => simplTwoFactors E (num (.rat p)) (.pow (.sum l) (num (.rat (1 / 2))))) [num (.rat p), .pow (.sum l) (num (.rat (1 / 2)))] := by
  have o : (num (.rat p) : Expr D).isOne = false := by rw [isOne_ratE]; simpa using hp
  have c : (Expr.pow (.sum l) (num (.rat (1 / 2))) : Expr D).isConst = true := by simp [isConst] at hl ⊢; exact hl
  have c1 : (num (.rat p) : Expr D).isConst = true := by simp [isConst]
  simp only [simplTwoFactors, show (num (.rat p) : Expr D).isProduct = false from rfl, show (Expr.pow (.sum l) (num (.rat (1 / 2))) : Expr D).isProduct = false from rfl,
    Bool.or_self, Bool.false_eq_true, if_false, simplTwoFactorsWithoutProduct, o, show (Expr.pow (.sum l) (num (.rat (1 / 2))) : Expr D).isOne = false from rfl,
    c, c1, Bool.and_self, if_true, simplTwoConst, simplNumAndConst]
  exact tot_pure _

theorem needsExp_sr (p : ℚ) (l : List (Expr D)) : needsExpansion [num (.rat p), .pow (.sum l) (num (.rat (1 / 2)))] = false := by
  have h1 : ∀ f : Expr D → Bool, ([num (.rat p), .pow (.sum l) (num (.rat (1 / 2)))].filter f).any isSum = false := by
    intro f
    rw [List.any_eq_false]
    intro e he
    have := List.mem_of_mem_filter he
    simp only [List.mem_cons, List.not_mem_nil, or_false] at this
    rcases this with rfl | rfl <;> simp [Expr.isSum]
  unfold needsExpansion constElements nonConstElements
  rw [h1, h1]
  simp

theorem tot_num_sr {p : ℚ} (h0 : p ≠ 0) (hp : p ≠ 1) {l : List (Expr D)} (hl : (Expr.sum l).isConst = true) :
    Tot cfg (fun E => prodCreate E [num (.rat p), .pow (.sum l) (num (.rat (1 / 2)))]) (msr p l) := by
  have z : (num (.rat p) : Expr D).isZero = false := by rw [isZero_ratE]; simpa using h0
  simp only [prodCreate, List.any_cons, List.any_nil, show (Expr.num (.rat p) : Expr D).isUndefined = false from rfl,
    show (Expr.pow (.sum l) (num (.rat (1 / 2))) : Expr D).isUndefined = false from rfl, z,
    show (Expr.pow (.sum l) (num (.rat (1 / 2))) : Expr D).isZero = false from rfl, Bool.or_self, Bool.false_eq_true, if_false]
  refine tot_bind (a := [num (.rat p), .pow (.sum l) (num (.rat (1 / 2)))]) (tot_prodSimplify ?_) ?_
  · unfold simplProd
    refine tot_bind (a := [num (.rat p), .pow (.sum l) (num (.rat (1 / 2)))]) (tot_extract (u := [num (.rat p), .pow (.sum l) (num (.rat (1 / 2)))]) (by simp)) ?_
    refine tot_bind (a := [num (.rat p), .pow (.sum l) (num (.rat (1 / 2)))]) (tot_contract_pw (simpl := fun E => contractTrigFctPowers E) ?_) ?_
    · simp [num_trig_pair]
    · exact tot_two_sr hp hl
  · simp only [needsExp_sr, Bool.false_eq_true, if_false]
    exact tot_pure _

theorem tot_num_msr (hc : cfg.Ok) {p q : ℚ} (h0 : p * q ≠ 0) (hp : p * q ≠ 1) {l : List (Expr D)} (hl : (Expr.sum l).isConst = true) :
    Tot cfg (fun E => prodCreate E [num (.rat p), msr q l]) (msr (p * q) l) := by
  have z : (num (.rat p) : Expr D).isZero = false := by rw [isZero_ratE]; simp; rintro rfl; simp at h0
  simp only [prodCreate, List.any_cons, List.any_nil, show (Expr.num (.rat p) : Expr D).isUndefined = false from rfl,
    show (msr q l : Expr D).isUndefined = false from rfl, z,
    show (msr q l : Expr D).isZero = false from rfl, Bool.or_self, Bool.false_eq_true, if_false]
  refine tot_bind (a := [num (.rat (p * q)), .pow (.sum l) (num (.rat (1 / 2)))]) (tot_prodSimplify ?_) ?_
  · unfold simplProd
    refine tot_bind (a := [num (.rat p), num (.rat q), .pow (.sum l) (num (.rat (1 / 2)))]) ?_ ?_
    · exact tot_extract (cfg := cfg) (u := [.num (.rat p), msr q l]) (by
        intro l' hl y hy
        simp only [msr, List.mem_cons, List.not_mem_nil, or_false, Expr.prod.injEq] at hl
        rcases hl with hl | hl
        · cases hl
        · subst hl
          simp only [List.mem_cons, List.not_mem_nil, or_false] at hy
          rcases hy with rfl | rfl <;> rfl)
    refine tot_bind (a := [num (.rat p), num (.rat q), .pow (.sum l) (num (.rat (1 / 2)))]) (tot_contract_pw (simpl := fun E => contractTrigFctPowers E) ?_) ?_
    · simp [num_trig_pair]
    · obtain ⟨P, hP, hT⟩ := tot_prepare_gen (cfg := cfg) hc (l := [num (.rat p), num (.rat q), .pow (.sum l) (num (.rat (1 / 2)))]) (by
        intro e he
        simp only [List.mem_cons, List.not_mem_nil, or_false] at he
        rcases he with rfl | rfl | rfl
        · exact .inl ⟨_, rfl⟩
        · exact .inl ⟨_, rfl⟩
        · exact GItem.sr l)
      have e : [num (.rat p), num (.rat q), (.pow (.sum l) (num (.rat (1 / 2))) : Expr D)].filter (fun e => !e.isNumeric) = [.pow (.sum l) (num (.rat (1 / 2)))] := rfl
      rw [e, List.perm_singleton] at hP
      subst hP
      have e2 : qs [num (.rat p), num (.rat q), (.pow (.sum l) (num (.rat (1 / 2))) : Expr D)] = p * q := by simp [qs, qOf]
      rw [e2] at hT
      refine tot_bind hT ?_
      simp only [hp, ne_eq, not_false_eq_true, true_or, if_true, simplPreparedFactors]
      exact tot_two_sr hp hl
  · simp only [needsExp_sr, Bool.false_eq_true, if_false]
    exact tot_pure _

/-! ## The values in the table -/

/-- Two minus, and two plus the square root of two. -/
def l2m : List (Expr D) := [num (.rat 2), surd (-1) 2]
def l2p : List (Expr D) := [num (.rat 2), surd 1 2]

theorem l2m_const : (Expr.sum l2m : Expr D).isConst = true := by
  simp only [l2m, isConst, allConst, surd_isConst (D := D) (p := -1) (a := 2) (by norm_num)]; rfl
theorem l2p_const : (Expr.sum l2p : Expr D).isConst = true := by
  simp only [l2p, isConst, allConst, surd_isConst (D := D) (p := 1) (a := 2) (by norm_num)]; rfl

/-- The sine of `q` times π for the angles of the first quadrant that are in the table, times `ε`. -/
def sinTab (ε : ℚ) : List (ℚ × Expr D) :=
  [(0, zero), (1 / 12, .sum [surd (ε / 2) (3 / 2), surd (-ε / 2) (1 / 2)]), (1 / 8, msr (ε / 2) l2m), (1 / 6, num (.rat (ε / 2))),
   (1 / 4, surd ε (1 / 2)), (1 / 3, surd (ε / 2) 3), (3 / 8, msr (ε / 2) l2p),
   (5 / 12, .sum [surd (ε / 2) (3 / 2), surd (ε / 2) (1 / 2)]), (1 / 2, num (.rat ε))]

theorem tot_sqrt_st {a : ℚ} (h : St cfg 1 a) : Tot cfg (fun E => E.sqrt (num (.rat a))) (surd 1 a : Expr D) := by
  rw [surd_one h.ne_one]
  exact tot_pow (tot_rootE h.simple).1

section
variable (hc : cfg.Ok) (h6 : 6 ≤ cfg.maxPrime)
include hc h6

theorem tot_minus_2 : Tot cfg (fun E => E.minus (surd 1 2)) (surd (-1) 2 : Expr D) := by
  unfold Eng.minus
  rw [mOne_rat]
  exact tot_prod (tot_num_surd hc (st_2 h6) (by norm_num) (.inl (by norm_num)) (by norm_num) (by rto h6, 1) (by norm_num) (by norm_num) (st_m2 h6))

theorem sum2m : Tot cfg (fun E => sumCreate E [num (.rat 2), surd (-1) 2]) (.sum l2m : Expr D) := by
  have := tot_sum_num_root (D := D) (c := 2) (by norm_num) (st_m2 h6)
  rwa [perm_4] at this
theorem sum2p : Tot cfg (fun E => sumCreate E [num (.rat 2), surd 1 2]) (.sum l2p : Expr D) := by
  have := tot_sum_num_root (D := D) (c := 2) (by norm_num) (st_2 h6)
  rwa [perm_3] at this

theorem root2m : Tot cfg (fun E => E.sqrt (.sum l2m)) (.pow (.sum l2m) (num (.rat (1 / 2))) : Expr D) := by
  obtain ⟨x, h1, h2⟩ := sum2_eval (D := D) (x := num (.rat 2)) (a := 2) ⟨.rat 2, rfl, by simp⟩ (surd_eval (p := -1) (a := 2) (by norm_num))
  refine tot_pow (tot_sqrt_sum h1 ?_)
  rw [h2]
  have : Real.sqrt 2 ≤ 2 := by rw [Real.sqrt_le_left (by norm_num)]; norm_num
  simp [this]
theorem root2p : Tot cfg (fun E => E.sqrt (.sum l2p)) (.pow (.sum l2p) (num (.rat (1 / 2))) : Expr D) := by
  obtain ⟨x, h1, h2⟩ := sum2_eval (D := D) (x := num (.rat 2)) (a := 2) ⟨.rat 2, rfl, by simp⟩ (surd_eval (p := 1) (a := 2) (by norm_num))
  refine tot_pow (tot_sqrt_sum h1 ?_)
  rw [h2]
  simp; positivity

theorem tot_v12 : Tot cfg (fun E => prodCreate E [num (.rat (1 / 4)), .sum [surd (-1) 2, surd 1 6]]) (.sum [surd (1 / 2) (3 / 2), surd (-1 / 2) (1 / 2)] : Expr D) := by
  have hs := tot_sum_roots (D := D) (st_m2 h6) (st_6 h6) (by norm_num)
  have ho : ordered (surd (-1) 2) (surd 1 6 : Expr D) = [surd (-1) 2, surd 1 6] := by
    rw [surd_one (by norm_num), surd_prod (by norm_num) (by norm_num), root2, root6]
    unfold ordered
    rw [doPermute_eq]
    simp only [permStep, permSame, permDiff, permLast, List.getLast?_cons_cons, List.getLast?_singleton, isEqual_pow (D := D) (show (2 : ℚ) ≠ 6 by norm_num),
      perm_pow (D := D) (show (2 : ℚ) ≠ 6 by norm_num)]
    norm_num
  rw [ho] at hs
  have h1 : Tot cfg (fun E => prodCreate E [num (.rat (1 / 4)), surd (-1) 2]) (surd (-1 / 2) (1 / 2) : Expr D) :=
    tot_num_surd hc (st_m2 h6) (by norm_num) (.inl (by norm_num)) (by norm_num) (by rto h6, (1 / 2)) (by norm_num) (by norm_num) (st_mh12 h6)
  have h2 : Tot cfg (fun E => prodCreate E [num (.rat (1 / 4)), surd 1 6]) (surd (1 / 2) (3 / 2) : Expr D) :=
    tot_num_surd hc (st_6 h6) (by norm_num) (.inl (by norm_num)) (by norm_num) (by rto h6, (1 / 2)) (by norm_num) (by norm_num) (st_h32 h6)
  have h3 := tot_sum_roots (D := D) (st_mh12 h6) (st_h32 h6) (by norm_num)
  rw [perm_5 (by norm_num) (by norm_num)] at h3
  exact tot_num_sum2 (by norm_num) (by norm_num) (st_m2 h6).cs (st_6 h6).cs (surd_isConst (by norm_num)) (surd_isConst (by norm_num)) hs h1 h2
    (st_mh12 h6).cs.exp (st_h32 h6).cs.exp h3

theorem tot_v512 : Tot cfg (fun E => prodCreate E [num (.rat (1 / 4)), .sum [surd 1 2, surd 1 6]]) (.sum [surd (1 / 2) (3 / 2), surd (1 / 2) (1 / 2)] : Expr D) := by
  have hs := tot_sum_roots (D := D) (st_2 h6) (st_6 h6) (by norm_num)
  have ho : ordered (surd 1 2) (surd 1 6 : Expr D) = [surd 1 2, surd 1 6] := by
    rw [surd_one (by norm_num), surd_one (by norm_num), root2, root6]
    unfold ordered
    rw [perm_pow (by norm_num)]
    norm_num
  rw [ho] at hs
  have h1 : Tot cfg (fun E => prodCreate E [num (.rat (1 / 4)), surd 1 2]) (surd (1 / 2) (1 / 2) : Expr D) :=
    tot_num_surd hc (st_2 h6) (by norm_num) (.inl (by norm_num)) (by norm_num) (by rto h6, (1 / 2)) (by norm_num) (by norm_num) (st_h12 h6)
  have h2 : Tot cfg (fun E => prodCreate E [num (.rat (1 / 4)), surd 1 6]) (surd (1 / 2) (3 / 2) : Expr D) :=
    tot_num_surd hc (st_6 h6) (by norm_num) (.inl (by norm_num)) (by norm_num) (by rto h6, (1 / 2)) (by norm_num) (by norm_num) (st_h32 h6)
  have h3 := tot_sum_roots (D := D) (st_h12 h6) (st_h32 h6) (by norm_num)
  rw [perm_5 (by norm_num) (by norm_num)] at h3
  exact tot_num_sum2 (by norm_num) (by norm_num) (st_2 h6).cs (st_6 h6).cs (surd_isConst (by norm_num)) (surd_isConst (by norm_num)) hs h1 h2
    (st_h12 h6).cs.exp (st_h32 h6).cs.exp h3

end

/-! ## Signs -/

theorem tot_num_num {p q : ℚ} (hp : p ≠ 0) (hq : q ≠ 0) : Tot cfg (fun E => prodCreate E [num (.rat p), num (.rat q)]) (num (.rat (p * q)) : Expr D) := by
  have z1 : (num (.rat p) : Expr D).isZero = false := by rw [isZero_ratE]; simpa using hp
  have z2 : (num (.rat q) : Expr D).isZero = false := by rw [isZero_ratE]; simpa using hq
  simp only [prodCreate, List.any_cons, List.any_nil, show ∀ p, (Expr.num (.rat p) : Expr D).isUndefined = false from fun _ => rfl, z1, z2, Bool.or_self, Bool.false_eq_true, if_false]
  have key : Tot cfg (fun E => simplTwoFactors E (num (.rat p)) (num (.rat q) : Expr D)) (if p * q = 1 ∧ p ≠ 1 then [] else [num (.rat (p * q))]) := by
    simp only [simplTwoFactors, show ∀ p, (num (.rat p) : Expr D).isProduct = false from fun _ => rfl, Bool.or_self, Bool.false_eq_true, if_false,
      simplTwoFactorsWithoutProduct, isOne_ratE]
    by_cases h1 : p = 1
    · subst h1; simp; exact tot_pure _
    by_cases h2 : q = 1
    · subst h2; simp [h1]; exact tot_pure _
    simp only [h1, h2, decide_false, Bool.false_eq_true, if_false, show ∀ p, (num (.rat p) : Expr D).isConst = true from fun p => by simp [isConst], Bool.and_self,
      if_true, simplTwoConst, mulNumerics, Number.mul, rat_eqv_one, decide_eq_true_eq, ne_eq, not_false_eq_true, and_true]
    exact tot_pure _
  refine tot_bind (a := if p * q = 1 ∧ p ≠ 1 then [] else [num (.rat (p * q))]) (tot_prodSimplify ?_) ?_
  · unfold simplProd
    refine tot_bind (a := [num (.rat p), num (.rat q)]) (tot_extract (u := [num (.rat p), num (.rat q)]) (by simp)) ?_
    refine tot_bind (a := [num (.rat p), num (.rat q)]) (tot_contract_pw (simpl := fun E => contractTrigFctPowers E) (by simp [num_trig_pair])) key
  · split_ifs with h
    · rw [h.1, ← one_eq]; exact tot_pure _
    · exact tot_pure _

theorem tot_one_gen {e : Expr D} (h1 : e.isUndefined = false) (h2 : e.isZero = false) (h3 : e.isProduct = false) :
    Tot cfg (fun E => prodCreate E [num (.rat 1), e]) e := by
  have z : (num (.rat 1) : Expr D).isZero = false := by rw [isZero_ratE]; simp
  have o : (num (.rat 1) : Expr D).isOne = true := by rw [isOne_ratE]; simp
  have f : factors e = [e] := by cases e <;> first | rfl | exact Bool.noConfusion h3
  simp only [prodCreate, List.any_cons, List.any_nil, show (Expr.num (.rat 1) : Expr D).isUndefined = false from rfl, h1, h2, z, Bool.or_self, Bool.false_eq_true, if_false]
  refine tot_bind (a := [e]) (tot_prodSimplify ?_) (tot_pure _)
  unfold simplProd
  refine tot_bind (a := [num (.rat 1), e]) ?_ ?_
  · have := tot_extract (cfg := cfg) (u := [num (.rat 1), e]) (by
      intro l hl
      simp only [List.mem_cons, List.not_mem_nil, or_false] at hl
      rcases hl with hl | hl
      · cases hl
      · subst hl; cases h3)
    simp only [List.flatMap_cons, List.flatMap_nil, f] at this
    exact this
  refine tot_bind (a := [num (.rat 1), e]) (tot_contract_pw (simpl := fun E => contractTrigFctPowers E) (by simp [num_trig_pair])) ?_
  simp only [simplTwoFactors, show (Expr.num (.rat 1) : Expr D).isProduct = false from rfl, h3, Bool.or_self, Bool.false_eq_true, if_false,
    simplTwoFactorsWithoutProduct, o, if_true]
  exact tot_pure _

/-- Plus or minus one. -/
def Unit1 (ε : ℚ) : Prop := ε = 1 ∨ ε = -1

theorem Unit1.mul {a b : ℚ} (ha : Unit1 a) (hb : Unit1 b) : Unit1 (a * b) := by
  rcases ha with rfl | rfl <;> rcases hb with rfl | rfl <;> simp [Unit1]
theorem Unit1.neg {a : ℚ} (ha : Unit1 a) : Unit1 (-a) := by rcases ha with rfl | rfl <;> simp [Unit1]

section
variable (hc : cfg.Ok) (h6 : 6 ≤ cfg.maxPrime)
include hc h6

theorem tot_sgn_half32 {δ ε : ℚ} (hd : Unit1 δ) (he : Unit1 ε) : St cfg (ε / 2) (3 / 2) ∧ Tot cfg (fun E => prodCreate E [num (.rat δ), surd (ε / 2) (3 / 2)]) (surd (δ * ε / 2) (3 / 2) : Expr D) := by
  have a := st_h32 h6
  have b := st_mh32 h6
  rcases hd with rfl | rfl <;> rcases he with rfl | rfl <;> norm_num at a b ⊢
  · exact ⟨a, tot_num_surd hc a (by norm_num) (.inr (by norm_num)) (by norm_num) (by rto h6, (1 / 2)) (by norm_num) (by norm_num) a⟩
  · exact ⟨b, tot_num_surd hc b (by norm_num) (.inr (by norm_num)) (by norm_num) (by rto h6, (1 / 2)) (by norm_num) (by norm_num) b⟩
  · exact ⟨a, tot_num_surd hc a (by norm_num) (.inr (by norm_num)) (by norm_num) (by rto h6, (1 / 2)) (by norm_num) (by norm_num) b⟩
  · exact ⟨b, tot_num_surd hc b (by norm_num) (.inr (by norm_num)) (by norm_num) (by rto h6, (1 / 2)) (by norm_num) (by norm_num) a⟩

theorem tot_sgn_half12 {δ ε : ℚ} (hd : Unit1 δ) (he : Unit1 ε) : St cfg (ε / 2) (1 / 2) ∧ Tot cfg (fun E => prodCreate E [num (.rat δ), surd (ε / 2) (1 / 2)]) (surd (δ * ε / 2) (1 / 2) : Expr D) := by
  have a := st_h12 h6
  have b := st_mh12 h6
  rcases hd with rfl | rfl <;> rcases he with rfl | rfl <;> norm_num at a b ⊢
  · exact ⟨a, tot_num_surd hc a (by norm_num) (.inr (by norm_num)) (by norm_num) (by rto h6, (1 / 2)) (by norm_num) (by norm_num) a⟩
  · exact ⟨b, tot_num_surd hc b (by norm_num) (.inr (by norm_num)) (by norm_num) (by rto h6, (1 / 2)) (by norm_num) (by norm_num) b⟩
  · exact ⟨a, tot_num_surd hc a (by norm_num) (.inr (by norm_num)) (by norm_num) (by rto h6, (1 / 2)) (by norm_num) (by norm_num) b⟩
  · exact ⟨b, tot_num_surd hc b (by norm_num) (.inr (by norm_num)) (by norm_num) (by rto h6, (1 / 2)) (by norm_num) (by norm_num) a⟩

theorem tot_sgn_half3 {δ ε : ℚ} (hd : Unit1 δ) (he : Unit1 ε) : Tot cfg (fun E => prodCreate E [num (.rat δ), surd (ε / 2) 3]) (surd (δ * ε / 2) 3 : Expr D) := by
  have a := st_h3 h6
  have b := st_mh3 h6
  rcases hd with rfl | rfl <;> rcases he with rfl | rfl <;> norm_num at a b ⊢
  · exact tot_num_surd hc a (by norm_num) (.inr (by norm_num)) (by norm_num) (by rto h6, (1 / 2)) (by norm_num) (by norm_num) a
  · exact tot_num_surd hc b (by norm_num) (.inr (by norm_num)) (by norm_num) (by rto h6, (1 / 2)) (by norm_num) (by norm_num) b
  · exact tot_num_surd hc a (by norm_num) (.inr (by norm_num)) (by norm_num) (by rto h6, (1 / 2)) (by norm_num) (by norm_num) b
  · exact tot_num_surd hc b (by norm_num) (.inr (by norm_num)) (by norm_num) (by rto h6, (1 / 2)) (by norm_num) (by norm_num) a

theorem tot_sgn_12 {δ ε : ℚ} (hd : Unit1 δ) (he : Unit1 ε) : Tot cfg (fun E => prodCreate E [num (.rat δ), surd ε (1 / 2)]) (surd (δ * ε) (1 / 2) : Expr D) := by
  have a := st_12 h6
  have b := st_m12 h6
  rcases hd with rfl | rfl <;> rcases he with rfl | rfl
  · rw [mul_one, surd_one (by norm_num)]; exact (tot_prod_one_root _).1
  · exact tot_num_surd hc b (by norm_num) (.inr (by norm_num)) (by norm_num) (by rto h6, 1) (by norm_num) (by norm_num) (by simpa using b)
  · exact tot_num_surd hc a (by norm_num) (.inl (by norm_num)) (by norm_num) (by rto h6, 1) (by norm_num) (by norm_num) (by simpa using b)
  · rw [show (-1 : ℚ) * -1 = 1 by norm_num, surd_one (by norm_num)]
    exact tot_num_surd_one hc (by norm_num) (by norm_num) (by norm_num) (by norm_num)

/-- The sign of a sum. -/
theorem tot_sgn_sum {δ ε η : ℚ} (hd : Unit1 δ) (he : Unit1 ε) (hn : Unit1 η) :
    Tot cfg (fun E => prodCreate E [num (.rat δ), .sum [surd (ε / 2) (3 / 2), surd (η / 2) (1 / 2)]]) (.sum [surd (δ * ε / 2) (3 / 2), surd (δ * η / 2) (1 / 2)] : Expr D) := by
  have n1 : ∀ {a : ℚ}, Unit1 a → a / 2 ≠ 1 := by rintro a (rfl | rfl) <;> norm_num
  obtain ⟨s1, p1⟩ := tot_sgn_half32 (D := D) hc h6 hd he
  obtain ⟨s2, p2⟩ := tot_sgn_half12 (D := D) hc h6 hd hn
  obtain ⟨s3, _⟩ := tot_sgn_half32 (D := D) hc h6 hd (hd.mul he)
  obtain ⟨s4, _⟩ := tot_sgn_half12 (D := D) hc h6 hd (hd.mul hn)
  have hs := tot_sum_roots (D := D) s1 s2 (by norm_num)
  have hv := tot_sum_roots (D := D) s3 s4 (by norm_num)
  rw [perm_6 (n1 hn) (n1 he)] at hs
  rw [perm_6 (n1 (hd.mul hn)) (n1 (hd.mul he))] at hv
  by_cases h : δ = 1
  · subst h; simp only [one_mul]; exact tot_one_gen rfl rfl rfl
  · exact tot_num_sum2 (by rcases hd with rfl | rfl <;> norm_num) h s1.cs s2.cs (surd_isConst (by norm_num)) (surd_isConst (by norm_num)) hs p1 p2 s3.cs.exp s4.cs.exp hv

end

/-- The entry for an angle. -/
def look (l : List (ℚ × Expr D)) (q : ℚ) : Option (Expr D) := (l.find? fun p => decide (p.1 = q)).map Prod.snd

theorem look_nil (q : ℚ) : look ([] : List (ℚ × Expr D)) q = none := rfl
theorem look_cons (p : ℚ × Expr D) (l : List (ℚ × Expr D)) (q : ℚ) : look (p :: l) q = if p.1 = q then some p.2 else look l q := by
  unfold look
  by_cases h : p.1 = q
  · rw [List.find?_cons_of_pos (by simpa using h), if_pos h]; rfl
  · rw [List.find?_cons_of_neg (by simpa using h), if_neg h]

/-- The sign of an entry. -/
theorem tot_sgn (hc : cfg.Ok) (h6 : 6 ≤ cfg.maxPrime) {δ ε q : ℚ} (hd : Unit1 δ) (he : Unit1 ε) :
    (look (sinTab ε) q = (none : Option (Expr D)) ∧ look (sinTab (δ * ε)) q = (none : Option (Expr D))) ∨
    ∃ v v' : Expr D, look (sinTab ε) q = some v ∧ look (sinTab (δ * ε)) q = some v' ∧ Tot cfg (fun E => prodCreate E [num (.rat δ), v]) v' := by
  have d0 : δ ≠ 0 := by rcases hd with rfl | rfl <;> norm_num
  have e0 : ε ≠ 0 := by rcases he with rfl | rfl <;> norm_num
  have u2 : ∀ {a : ℚ}, Unit1 a → a / 2 ≠ 1 := by rintro a (rfl | rfl) <;> norm_num
  unfold sinTab
  simp only [look_cons, look_nil]
  by_cases h0 : 0 = q
  · refine .inr ⟨zero, zero, by simp [h0], by simp [h0], ?_⟩
    have z : (num (.rat δ) : Expr D).isZero = false := by rw [isZero_ratE]; simpa using d0
    have z0 : (zero : Expr D).isZero = true := by rw [zero_eq, isZero_ratE]; simp
    simp only [prodCreate, List.any_cons, List.any_nil, show (Expr.num (.rat δ) : Expr D).isUndefined = false from rfl,
      show (zero : Expr D).isUndefined = false from rfl, z, z0, Bool.or_self, Bool.false_eq_true, if_false, Bool.true_or, Bool.or_true, if_true]
    exact tot_pure _
  simp only [h0, if_false]
  by_cases h : 1 / 12 = q
  · refine .inr ⟨_, _, by rw [if_pos h], by rw [if_pos h], ?_⟩
    have := tot_sgn_sum (D := D) hc h6 hd he he.neg
    rwa [mul_neg] at this
  simp only [h, if_false]; clear h
  by_cases h : 1 / 8 = q
  · refine .inr ⟨_, _, by rw [if_pos h], by rw [if_pos h], ?_⟩
    rw [mul_div_assoc]
    exact tot_num_msr hc (by simp [d0, e0]) (by rw [← mul_div_assoc]; exact u2 (hd.mul he)) l2m_const
  simp only [h, if_false]; clear h
  by_cases h : 1 / 6 = q
  · refine .inr ⟨_, _, by rw [if_pos h], by rw [if_pos h], ?_⟩
    rw [mul_div_assoc]
    exact tot_num_num d0 (by simp [e0])
  simp only [h, if_false]; clear h
  by_cases h : 1 / 4 = q
  · exact .inr ⟨_, _, by rw [if_pos h], by rw [if_pos h], tot_sgn_12 hc h6 hd he⟩
  simp only [h, if_false]; clear h
  by_cases h : 1 / 3 = q
  · exact .inr ⟨_, _, by rw [if_pos h], by rw [if_pos h], tot_sgn_half3 hc h6 hd he⟩
  simp only [h, if_false]; clear h
  by_cases h : 3 / 8 = q
  · refine .inr ⟨_, _, by rw [if_pos h], by rw [if_pos h], ?_⟩
    rw [mul_div_assoc]
    exact tot_num_msr hc (by simp [d0, e0]) (by rw [← mul_div_assoc]; exact u2 (hd.mul he)) l2p_const
  simp only [h, if_false]; clear h
  by_cases h : 5 / 12 = q
  · exact .inr ⟨_, _, by rw [if_pos h], by rw [if_pos h], tot_sgn_sum hc h6 hd he he⟩
  simp only [h, if_false]; clear h
  by_cases h : 1 / 2 = q
  · exact .inr ⟨_, _, by rw [if_pos h], by rw [if_pos h], tot_num_num d0 e0⟩
  simp only [h, if_false]
  exact .inl (by simp)

/-! ## The table -/

/-- The reciprocal of the root of a whole number. -/
theorem tot_oneOver_root {a : ℚ} (ha : 0 < a) (hn : a.num ≠ 1) (hi : (a⁻¹).num = 1) (h : Simple cfg.maxPrime a⁻¹) :
    Tot cfg (fun E => E.oneOver (rootE a)) (rootE a⁻¹ : Expr D) := by
  have e1 : (rootE a : Expr D) = .pow (num (.rat a)) (num (.rat (1 / 2))) := by rw [rootE, if_neg hn]
  have e2 : (rootE a⁻¹ : Expr D) = .pow (num (.rat a)) (num (.rat (-(1 / 2)))) := by rw [rootE, if_pos hi, inv_inv]
  have a1 : a ≠ 1 := fun h => hn (by rw [h]; rfl)
  rw [e1, e2]
  refine tot_pow ?_
  rw [mOne_rat]
  have ho : (num (.rat (-(1 / 2))) : Expr D).isOne = false := by rw [isOne_ratE]; norm_num
  simp only [powCreate, show (num (.rat (-1)) : Expr D).isUndefined = false from rfl, show (Expr.pow (num (.rat a)) (num (.rat (1 / 2))) : Expr D).isUndefined = false from rfl,
    show (Expr.pow (num (.rat a)) (num (.rat (1 / 2))) : Expr D).isOne = false from rfl, show (Expr.pow (num (.rat a)) (num (.rat (1 / 2))) : Expr D).isZero = false from rfl,
    isZero_ratE, isOne_ratE, show ¬ (-1 : ℚ) = 0 by norm_num, show ¬ (-1 : ℚ) = 1 by norm_num, decide_false, Bool.or_self, Bool.false_eq_true, if_false, powCreateNonTrivial]
  have hcomp := compute_nroot (D := D) (b := a) ha a1 one_ne_zero (by exact h.rootOf)
  unfold rootOut at hcomp
  rw [if_neg h.2.1, if_pos hi, inv_inv] at hcomp
  refine tot_bind (a := (num (.rat a), num (.rat (-(1 / 2))))) (tot_simplPow ?_) ?_
  · unfold simplPow
    refine tot_bind (a := false) ?_ ?_
    · unfold doesInvolveComplexNumbers
      refine tot_whenTrue (tot_bind (tot_lift (numEval_rat _)) (tot_bind (a := false) (tot_isNeg ?_) ?_))
      · simp only [isNeg]; exact tot_pure _
      · simp only [Bool.false_and, Bool.false_eq_true, if_false]; exact tot_pure _
    · simp only [Bool.false_eq_true, if_false]
      unfold simplifyPowerBase
      refine tot_bind (a := some (num (.rat a))) ?_ ?_
      · unfold newPowerBase
        refine tot_bind (a := true) ?_ ?_
        · unfold doContractExpFirst
          have hi : isInteger (num (.rat (1 / 2)) : Expr D) = .ok false := by
            have : (Number.rat (1 / 2) : Number D).isInt = false := by
              simp only [Number.isInt, Number.denominator, Number.isDouble, half_den]; rfl
            simp only [isInteger, numEval, bind, Except.bind, pure, Except.pure, this]
          refine tot_bind (tot_lift hi) ?_
          simp only [Bool.false_eq_true, if_false]
          refine tot_bind (tot_pure _) ?_
          have : areTwoFractionExpWithOddDenom (num (.rat (1 / 2))) (num (.rat (-1)) : Expr D) = false := by
            simp [areTwoFractionExpWithOddDenom, Number.isFraction, Number.denominator]
          simp only [this, Bool.false_eq_true, if_false]
          refine tot_whenTrue (tot_isPos ?_)
          simp only [isPos, Number.zero_def, lt_rat, ha, decide_true]; exact tot_pure _
        · simp only [if_true]; exact tot_pure _
      · have hm := tot_num_num (D := D) (cfg := cfg) (p := 1 / 2) (q := -1) (by norm_num) (by norm_num)
        rw [show (1 / 2 : ℚ) * -1 = -(1 / 2) by norm_num] at hm
        refine tot_bind (tot_prod hm) ?_
        have z : (num (.rat (-(1 / 2))) : Expr D).isZero = false := by rw [isZero_ratE]; norm_num
        simp only [z, Bool.false_eq_true, if_false]
        refine tot_simplPow ?_
        unfold simplPow
        refine tot_bind (tot_noComplex_pos ha _) ?_
        simp only [Bool.false_eq_true, if_false]
        unfold simplifyNumericPower
        refine tot_bind (a := ((⟨.rat a, .rat (-(1 / 2)), .rat 1⟩ : Payload D), true))
          (tot_maxPrime (f := fun k => M.lift (NumPowerSimpl.compute k ⟨.rat a, .rat (-(1 / 2)), 1⟩)) (tot_lift hcomp)) ?_
        simp only [Bool.not_true, rat_eqv_zero, ha.ne', show ¬ (-(1 / 2) : ℚ) = 0 by norm_num, decide_false, Bool.or_self]
        refine tot_bind (tot_logIf rfl) ?_
        simp only [isOne_ratE, decide_true, if_true]; exact tot_pure _
  · simp only [ho, isOne_ratE, a1, decide_false, Bool.false_eq_true, if_false]
    exact tot_pure _

namespace NumTrigo

theorem tot_entry {k v : Eng D → M D (Expr D)} {a b : Expr D} (hk : Tot cfg k a) (hv : Tot cfg v b) :
    Tot cfg (fun E => entry (k E) (v E)) ⟨a, b, []⟩ := by
  unfold entry
  exact tot_bind (tot_capture (tot_bind hk (tot_bind hv (tot_pure (a, b))))) (tot_pure _)

/-- An entry of the table. -/
def ent (p : ℚ × Expr D) : Entry D := ⟨piM p.1, p.2, []⟩

theorem tot_sineTable (hc : cfg.Ok) (h6 : 6 ≤ cfg.maxPrime) : Tot cfg (fun E => sineTable E) ((sinTab 1 : List (ℚ × Expr D)).map ent) := by
  unfold sineTable sinTab ratE
  simp only [M.mapL, show (two : Expr D) = num (.rat 2) by krfl, List.map_cons, List.map_nil, ent]
  rw [show (three : Expr D) = num (.rat 3) by krfl, show (fourth : Expr D) = num (.rat (1 / 4)) by krfl, show (half : Expr D) = num (.rat (1 / 2)) by krfl, piM_zero]
  refine tot_bind (tot_entry (tot_pure _) (tot_pure _)) (tot_bind ?_ (tot_pure _))
  refine tot_bind (tot_entry (tot_timesPi _) (tot_bind (tot_sqrt_st (st_6 h6)) (tot_bind (tot_sqrt_st (st_2 h6)) (tot_bind (tot_minus_2 hc h6)
    (tot_bind (tot_sum (by have := tot_sum_roots (D := D) (st_6 h6) (st_m2 h6) (by norm_num); rwa [perm_1] at this)) (tot_prod (tot_v12 hc h6))))))) (tot_bind ?_ (tot_pure _))
  refine tot_bind (tot_entry (tot_timesPi _) (tot_bind (tot_sqrt_st (st_2 h6)) (tot_bind (tot_minus_2 hc h6)
    (tot_bind (tot_sum (sum2m hc h6)) (tot_bind (root2m hc h6) (tot_prod (tot_num_sr (by norm_num) (by norm_num) l2m_const))))))) (tot_bind ?_ (tot_pure _))
  refine tot_bind (tot_entry (tot_timesPi _) (tot_pure _)) (tot_bind ?_ (tot_pure _))
  refine tot_bind (tot_entry (tot_timesPi _) (tot_bind (tot_sqrt_st (st_2 h6)) (b := surd 1 (1 / 2)) ?_)) (tot_bind ?_ (tot_pure _))
  · have := tot_oneOver_root (D := D) (cfg := cfg) (a := 2) (by norm_num) (by decide +kernel) (by decide +kernel) (by have := (st_12 h6).simple; rwa [one_div] at this)
    rw [surd_one (by norm_num), surd_one (by norm_num), one_div]; exact this
  refine tot_bind (tot_entry (tot_timesPi _) (tot_bind (tot_sqrt_st (st_3 h6)) (tot_prod
    (tot_num_surd hc (st_3 h6) (by norm_num) (.inl (by norm_num)) (by norm_num) (by rto h6, (1 / 2)) (by norm_num) (by norm_num) (st_h3 h6))))) (tot_bind ?_ (tot_pure _))
  refine tot_bind (tot_entry (tot_timesPi _) (tot_bind (tot_sqrt_st (st_2 h6))
    (tot_bind (tot_sum (sum2p hc h6)) (tot_bind (root2p hc h6) (tot_prod (tot_num_sr (by norm_num) (by norm_num) l2p_const)))))) (tot_bind ?_ (tot_pure _))
  refine tot_bind (tot_entry (tot_timesPi _) (tot_bind (tot_sqrt_st (st_6 h6)) (tot_bind (tot_sqrt_st (st_2 h6))
    (tot_bind (tot_sum (by have := tot_sum_roots (D := D) (st_6 h6) (st_2 h6) (by norm_num); rwa [perm_2] at this)) (tot_prod (tot_v512 hc h6)))))) (tot_bind ?_ (tot_pure _))
  refine tot_bind (tot_entry (tot_timesPi _) (tot_pure _)) (tot_bind (tot_pure _) ?_)
  rw [one_eq]
  exact tot_pure _

end NumTrigo

end Tsym
