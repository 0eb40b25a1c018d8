import Verif.SqrtMul

set_option autoImplicit false
set_option linter.unusedSectionVars false
set_option linter.unusedSimpArgs false
set_option linter.unusedVariables false

/-!
# Helper lemmas: sums of multiples of the same square root
-/

namespace Tsym

open Expr NumPowerSimpl

variable {D : Type} [Flt D] [ExactLt D] {cfg : Cfg D}

/-- What is needed of a multiple of a root. -/
theorem surd_facts {p r : ℚ} (hr : r ≠ 1) (hp : p ≠ 0) :
    (surd p r : Expr D).isUndefined = false ∧ (surd p r : Expr D).isZero = false ∧ (surd p r : Expr D).isSum = false ∧ (surd p r : Expr D).isNumeric = false ∧
    Tot cfg (fun E => nonConstTerm E (surd p r : Expr D)) one ∧
    Tot cfg (fun E => nonNumericTerm E (surd p r : Expr D)) (rootE r) ∧
    Tot cfg (fun _ => numericTerm (surd p r : Expr D)) (num (.rat p)) := by
  obtain ⟨B, X, hB, _⟩ := rootE_cases (D := D) r
  unfold surd
  simp only [hr, if_false]
  by_cases h1 : p = 1
  · simp only [h1, if_true, hB]
    refine ⟨rfl, rfl, rfl, rfl, ?_, ?_, ?_⟩
    · simp only [nonConstTerm, isConst, Bool.and_self, if_true]; exact tot_pure _
    · simp only [nonNumericTerm]; exact tot_pure _
    · simp only [numericTerm, one_eq]; exact tot_pure _
  · simp only [h1, if_false, hB]
    refine ⟨rfl, rfl, rfl, rfl, ?_, ?_, ?_⟩
    · have : (nonConstElements [num (.rat p), (.pow (num (.rat B)) (num (.rat X)) : Expr D)]).isEmpty = true := by simp [nonConstElements, isConst]
      simp only [nonConstTerm, this, if_true]; exact tot_pure _
    · simp only [nonNumericTerm, isNumeric, if_true]
      refine tot_prod ?_
      simp only [prodCreate, List.any_cons, List.any_nil, isUndefined, isZero, Bool.or_self, Bool.false_eq_true, if_false]
      exact tot_pure _
    · simp only [numericTerm, isNumeric, if_true]; exact tot_pure _

theorem rootE_exact (r : ℚ) : Exact (rootE r : Expr D) := by
  obtain ⟨B, X, hB, _⟩ := rootE_cases (D := D) r
  rw [hB]
  refine exact_of_op (by simp) (by simp) fun o ho => ?_
  simp only [operands, List.mem_cons, List.not_mem_nil, or_false] at ho
  rcases ho with rfl | rfl <;> exact exact_ratE _

/-- The steps of Product::create for two factors, a root or a number each, that are not zero. -/
theorem tot_prod_two {x y v : Expr D} (hx : (∃ r, x = rootE r) ∨ ∃ q : ℚ, q ≠ 0 ∧ x = num (.rat q))
    (hy : (∃ r, y = rootE r) ∨ ∃ q : ℚ, q ≠ 0 ∧ y = num (.rat q)) (h : Tot cfg (fun E => simplTwoFactorsWithoutProduct E x y) [v]) :
    Tot cfg (fun E => prodCreate E [x, y]) v := by
  have f : ∀ {z : Expr D}, ((∃ r, z = rootE r) ∨ ∃ q : ℚ, q ≠ 0 ∧ z = num (.rat q)) → z.isUndefined = false ∧ z.isZero = false ∧
      z.isProduct = false ∧ factors z = [z] ∧ isContractableTrigFctPower z = pure false := by
    rintro z (⟨r, rfl⟩ | ⟨q, hq, rfl⟩)
    · exact ⟨rootE_isUndefined r, rootE_isZero r, rootE_isProduct r, rootE_factors r, rootE_trig r⟩
    · exact ⟨rfl, by rw [isZero_ratE]; simpa using hq, rfl, rfl, rfl⟩
  obtain ⟨u1, z1, p1, f1, t1⟩ := f hx
  obtain ⟨u2, z2, p2, f2, t2⟩ := f hy
  simp only [prodCreate, List.any_cons, List.any_nil, u1, u2, z1, z2, Bool.or_self, Bool.false_eq_true, if_false]
  refine tot_bind (a := [v]) (tot_prodSimplify ?_) (tot_pure _)
  unfold simplProd
  have e1 : Tot cfg (fun E => extractProducts E [x, y]) [x, y] := by
    have h := tot_extract (cfg := cfg) (u := [x, y]) (by
      intro l hl
      simp only [List.mem_cons, List.not_mem_nil, or_false] at hl
      rcases hl with e | e
      · rw [← e] at p1; cases p1
      · rw [← e] at p2; cases p2)
    have hf : [x, y].flatMap factors = [x, y] := by
      simp only [List.flatMap_cons, f1, f2]; rfl
    rwa [hf] at h
  have e2 : Tot cfg (fun E => contractTrigonometrics E [x, y]) [x, y] := by
    refine tot_contract (simpl := fun E => contractTrigFctPowers E) fun z hz w hw => ?_
    unfold areContractableTrigFctPowers
    simp only [List.mem_cons, List.not_mem_nil, or_false] at hz
    rcases hz with rfl | rfl
    · rw [t1]; rfl
    · rw [t2]; rfl
  refine tot_bind e1 (tot_bind e2 ?_)
  simp only [simplTwoFactors, p1, p2, Bool.or_self, Bool.false_eq_true, if_false]
  exact h

theorem tot_prod_one_root (r : ℚ) : Tot cfg (fun E => prodCreate E [num (.rat 1), (rootE r : Expr D)]) (rootE r) ∧
    Tot cfg (fun E => prodCreate E [(rootE r : Expr D), num (.rat 1)]) (rootE r) := by
  have o : (num (.rat 1) : Expr D).isOne = true := by rw [isOne_ratE]; simp
  refine ⟨tot_prod_two (.inr ⟨1, one_ne_zero, rfl⟩) (.inl ⟨r, rfl⟩) ?_, tot_prod_two (.inl ⟨r, rfl⟩) (.inr ⟨1, one_ne_zero, rfl⟩) ?_⟩
  · simp only [simplTwoFactorsWithoutProduct, o, if_true]; exact tot_pure _
  · simp only [simplTwoFactorsWithoutProduct, o, rootE_isOne, Bool.false_eq_true, if_false, if_true]; exact tot_pure _

/-- The product of a root with itself. -/
theorem tot_root_sq (hc : cfg.Ok) {a : ℚ} (ha : 0 < a) (h1 : Squarefree a.num.natAbs) (h2 : Squarefree a.den) :
    Tot cfg (fun E => prodCreate E [(rootE a : Expr D), rootE a]) (num (.rat a)) := by
  refine tot_prod_two (.inl ⟨a, rfl⟩) (.inl ⟨a, rfl⟩) ?_
  simp only [simplTwoFactorsWithoutProduct, rootE_isOne, rootE_isConst, Bool.and_self, Bool.false_eq_true, if_false, if_true]
  obtain ⟨B, X, e, c⟩ := rootE_cases (D := D) a
  have pB : 0 < B := by
    rcases c with ⟨_, rfl, _⟩ | ⟨_, rfl, _⟩
    · exact inv_pos.2 ha
    · exact ha
  have hbase : haveEqualBases (.pow (num (.rat B)) (num (.rat X)) : Expr D) (.pow (num (.rat B)) (num (.rat X))) = true := by
    simp only [haveEqualBases, Expr.base, isEqual]
    rw [Number.rat_eqv (D := D) _ _]; simp
  have hsum := tot_sum_num (cfg := cfg) X X
  rw [e]
  simp only [simplTwoConst, hbase, if_true]
  unfold simplTwoEqualBases
  refine tot_bind hsum ?_
  have hpos : Tot cfg (fun E => M.silent (E.isPos (num (.rat B) : Expr D))) true := by
    have : Tot cfg (fun E => E.isPos (num (.rat B) : Expr D)) true := by
      refine tot_isPos ?_
      simp only [isPos]
      have : Number.lt 0 (.rat B : Number D) = true := by rw [Number.zero_def, lt_rat]; simpa using pB
      rw [this]; exact tot_pure _
    obtain ⟨n, hn⟩ := this
    exact ⟨n, fun m hm => by
      have := hn m hm
      simp only at this
      simp only [M.silent, this]; rfl⟩
  refine tot_bind hpos ?_
  simp only [if_true]
  refine tot_bind (tot_pure _) (tot_bind (tot_pure _) ?_)
  simp only [Bool.false_eq_true, if_false]
  refine tot_bind (a := num (.rat a)) (tot_pow ?_) (tot_pure _)
  rcases c with ⟨n1, rfl, rfl⟩ | ⟨n1, rfl, rfl⟩
  · have hx : (-(1 / 2) + -(1 / 2) : ℚ) = ((-1 : ℤ) : ℚ) := by norm_num
    rw [hx]
    have hsf : Squarefree a⁻¹.num.natAbs ∧ Squarefree a⁻¹.den := by
      have b1 : 0 < a.num := Rat.num_pos.2 ha
      rw [Rat.num_inv, Rat.den_inv, if_neg b1.ne', Int.sign_eq_one_of_pos b1]
      exact ⟨by simpa using h2, h1⟩
    have four : ∀ {n : ℕ}, Squarefree n → FourFree n := by
      intro n hn p hp hd
      have := hn p ((by rw [show p ^ 4 = p * p * (p * p) by ring]; exact dvd_mul_right _ _ : p * p ∣ p ^ 4).trans hd)
      exact hp.one_lt.ne' (Nat.isUnit_iff.1 this)
    have h := tot_powNum (D := D) (cfg := cfg) hc (q := a⁻¹) (n := -1) (.inl (inv_ne_zero ha.ne')) (by norm_num [Number.unsignedMax])
      (fun _ => .inr ⟨four hsf.1, four hsf.2⟩)
    rw [zpow_neg_one, inv_inv] at h
    exact h
  · have hx : (1 / 2 + 1 / 2 : ℚ) = 1 := by norm_num
    rw [hx]
    have u : ∀ q : ℚ, (num (.rat q) : Expr D).isUndefined = false := fun _ => rfl
    simp only [powCreate, u, isZero_ratE, isOne_ratE, pB.ne', Expr.base, decide_false, decide_true, Bool.or_self, Bool.false_or, Bool.false_eq_true, if_false,
      if_true, one_ne_zero]
    by_cases hB : B = 1
    · simp only [hB, decide_true, if_true, one_eq]; exact tot_pure _
    · simp only [hB, decide_false, Bool.false_eq_true, if_false]; exact tot_pure _

/-- Multiples of the same root are added. -/
theorem tot_sum_surds {a p q s r : ℚ} (ha : Simple cfg.maxPrime a) (hp : p ≠ 0) (hq : q ≠ 0) (h : p + q ≠ 0 → RootOf cfg.maxPrime a (p + q) s r) :
    Tot cfg (fun E => sumCreate E [(surd p a : Expr D), surd q a]) (if p + q = 0 then zero else surd s r) := by
  obtain ⟨u1, z1, s1, n1, a1, b1, c1⟩ := surd_facts (D := D) (cfg := cfg) ha.2.1 hp
  obtain ⟨u2, z2, s2, n2, a2, b2, c2⟩ := surd_facts (D := D) (cfg := cfg) ha.2.1 hq
  have ho : (one : Expr D).isOne = true := by rw [one_eq, isOne_ratE]; simp
  simp only [sumCreate, List.any_cons, List.any_nil, u1, u2, Bool.or_self, Bool.false_eq_true, if_false]
  have key : Tot cfg (fun E => simplTwoOther E (surd p a : Expr D) (surd q a)) (if p + q = 0 then [] else [surd s r]) := by
    unfold simplTwoOther
    refine tot_bind (a := false) (tot_whenTrue ?_) ?_
    · unfold haveEqualNonConstTerms
      refine tot_bind a1 (tot_bind a2 ?_)
      simp only [ho, Bool.or_self, if_true]; exact tot_pure _
    simp only [Bool.false_eq_true, if_false]
    refine tot_bind (a := true) (tot_whenTrue ?_) ?_
    · unfold haveEqualNonNumericTerms
      refine tot_bind b1 (tot_bind b2 ?_)
      rw [isEqual_refl (rootE_exact a)]; exact tot_pure _
    simp only [if_true]
    unfold simplEqualNonNumericTerms
    refine tot_bind c1 (tot_bind c2 (tot_bind (tot_sum_num p q) (tot_bind b1 ?_)))
    by_cases h0 : p + q = 0
    · rw [h0]
      simp only [if_true]
      refine tot_bind (a := zero) (tot_prod ?_) ?_
      · have u : (num (.rat 0) : Expr D).isUndefined = false := rfl
        have z : (num (.rat 0) : Expr D).isZero = true := by rw [isZero_ratE]; simp
        simp only [prodCreate, List.any_cons, List.any_nil, u, z, rootE_isUndefined, Bool.or_self, Bool.true_or, Bool.false_eq_true, if_false, if_true]
        exact tot_pure _
      · simp only [zero_eq, isZero_ratE, decide_true, if_true]; exact tot_pure _
    · simp only [h0, if_false]
      have h := h h0
      have hs0 : s ≠ 0 := by
        rcases h with ⟨s0, h1, h2, h3, rfl⟩ | ⟨h, rfl, rfl⟩
        · have := h3.spos; split <;> linarith
        · exact h0
      refine tot_bind (a := surd s r) (tot_prod ?_) ?_
      · by_cases h1 : p + q = 1
        · rw [h1] at h ⊢
          have : s = 1 ∧ r = a := by
            have h' := ha.rootOf
            rcases h with ⟨s0, x1, x2, x3, rfl⟩ | ⟨x, rfl, rfl⟩
            · rcases h' with ⟨s1, y1, y2, y3, y4⟩ | ⟨y, _, _⟩
              · rw [if_neg (by norm_num)] at y4
                subst y4
                obtain ⟨e1, e2⟩ := x3.unique y3
                exact ⟨e1, e2⟩
              · exact absurd ⟨x1, x2⟩ y
            · exact ⟨rfl, rfl⟩
          obtain ⟨rfl, rfl⟩ := this
          obtain ⟨B, X, hB, _⟩ := rootE_cases (D := D) r
          have t1 := (tot_prod_one_root (D := D) (cfg := cfg) r).1
          simpa [surd, ha.2.1] using t1
        · exact (tot_prod_numRoot ha h0 h1 h).1
      · have : (surd s r : Expr D).isZero = false := by
          by_cases hr : r = 1
          · simp only [surd, hr, if_true, isZero_ratE, hs0, decide_false]
          · exact (surd_facts (D := D) (cfg := cfg) hr hs0).2.1
        rw [this]
        exact tot_pure _
  have hm : Tot cfg (fun E => simplTwoSummandsWithoutSum E (surd p a : Expr D) (surd q a)) (if p + q = 0 then [] else [surd s r]) := by
    unfold simplTwoSummandsWithoutSum
    simp only [z1, z2, Bool.false_eq_true, if_false]
    split
    · rename_i x y e1 e2
      rw [e1] at n1; cases n1
    · exact key
  refine tot_bind (tot_sumSimplify ?_) ?_ (a := if p + q = 0 then [] else [surd s r])
  · simp only [simplSum, simplTwoSummands, s1, s2, Bool.or_self, Bool.false_eq_true, if_false]
    exact hm
  · by_cases h0 : p + q = 0
    · simp only [h0, if_true]; exact tot_pure _
    · simp only [h0, if_false]; exact tot_pure _

end Tsym
