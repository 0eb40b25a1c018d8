import Verif.NumPow
import Verif.PolyDiff
import Verif.PolyTree

set_option autoImplicit false
set_option linter.unusedSectionVars false
set_option linter.unusedSimpArgs false
set_option linter.unusedVariables false

/-!
# Helper lemmas: Power::create for a rational base and an integer exponent
-/

namespace Tsym

open Expr

variable {D : Type} [Flt D] [ExactLt D] {cfg : Cfg D}

theorem tot_maxPrime {α : Type} {f : ℤ → M D α} {a : α} (h : Tot cfg (fun _ => f cfg.maxPrime) a) :
    Tot cfg (fun E => f E.cfg.maxPrime) a := by
  obtain ⟨N, h⟩ := h
  refine ⟨N, fun n hn => ?_⟩
  simp only [eng_cfg]
  exact h n hn

theorem numEval_rat (q : ℚ) : numEval (num (.rat q) : Expr D) = .ok (some (.rat q)) := by
  simp [numEval]; rfl

theorem tot_noComplex_int {b : Expr D} {v : Bool} (hb : Tot cfg (fun E => isNeg E b) v) (n : ℤ) :
    Tot cfg (fun E => doesInvolveComplexNumbers E b (int n)) false := by
  unfold doesInvolveComplexNumbers
  have h0 : numEval (int n : Expr D) = .ok (some (.rat (n : ℚ))) := numEval_rat (n : ℚ)
  refine tot_whenTrue (tot_bind (tot_lift h0) (tot_bind (tot_isNeg hb) ?_))
  have h : (Number.rat (n : ℚ) : Number D).isInt = true := Number.rat_isInt n
  simp only [h, Bool.not_true, Bool.and_false, Bool.false_eq_true, if_false]
  exact tot_pure _

/-- Powers of rational numbers with an integer exponent. -/
theorem tot_powNum (hc : cfg.Ok) {q : ℚ} {n : ℤ} (hq : q ≠ 0 ∨ 0 ≤ n) (hn : 8 * (n.natAbs : ℤ) < Number.unsignedMax)
    (hok : q ≠ 0 → NumOk cfg.maxPrime q) :
    Tot cfg (fun E => powCreate E (num (.rat q)) (int n)) (num (.rat (q ^ n))) := by
  have u1 : (num (.rat q) : Expr D).isUndefined = false := rfl
  have u2 : (int n : Expr D).isUndefined = false := rfl
  have z1 : (int n : Expr D).isZero = decide (n = 0) := isZero_int n
  have o1 : (int n : Expr D).isOne = decide (n = 1) := isOne_int n
  have z2 : (num (.rat q) : Expr D).isZero = decide (q = 0) := isZero_ratE q
  have o2 : (num (.rat q) : Expr D).isOne = decide (q = 1) := isOne_ratE q
  simp only [powCreate, u1, u2, z1, o1, z2, o2, Bool.or_self, Bool.false_eq_true, if_false, Bool.or_eq_true, decide_eq_true_eq]
  by_cases h0 : n = 0 ∨ q = 1
  · simp only [h0, if_true]
    have : q ^ n = 1 := by rcases h0 with rfl | rfl <;> simp
    rw [this, ← one_eq]
    exact tot_pure _
  simp only [h0, if_false]
  push Not at h0
  by_cases hq0 : q = 0
  · simp only [hq0, if_true]
    have hp : 0 < n := by
      rcases hq with h | h
      · exact absurd hq0 h
      · have := h0.1; omega
    refine tot_bind (a := false) (tot_whenTrue (tot_isNeg ?_)) ?_
    · simp only [isNeg, int]
      have : (Number.rat (n : ℚ) : Number D).lt 0 = false := by
        rw [Number.zero_def, lt_rat]; simp; omega
      rw [this]; exact tot_pure _
    · rw [zero_zpow _ h0.1]; simp only [Bool.false_eq_true, if_false, zero_eq]
      exact tot_pure _
  simp only [hq0, if_false]
  by_cases hn1 : n = 1
  · subst hn1
    simp only [if_true, zpow_one]
    exact tot_pure _
  simp only [hn1, if_false]
  obtain ⟨r, hr, hout⟩ := NumPowerSimpl.compute_eq (D := D) (max := cfg.maxPrime) hq0 h0.1 hn (hok hq0)
  have hv0 : q ^ n ≠ 0 := zpow_ne_zero _ hq0
  unfold powCreateNonTrivial
  have hS : ∃ p : Expr D × Expr D, Tot cfg (fun E => simplPow E (num (.rat q)) (int n)) p ∧
      (if p.2.isOne then p.1 else if p.1.isOne then one else .pow p.1 p.2) = num (.rat (q ^ n)) := by
    unfold simplPow
    have hneg : Tot cfg (fun E => isNeg E (num (.rat q) : Expr D)) ((Number.rat q : Number D).lt 0) := by
      simp only [isNeg]; exact tot_pure _
    have e1 : (Number.rat q : Number D).eqv 0 = false := by rw [Number.zero_def, Number.rat_eqv]; simpa using hq0
    have e2 : (Number.rat (n : ℚ) : Number D).eqv 0 = false := by rw [Number.zero_def, Number.rat_eqv]; simpa using h0.1
    have hN : ∃ p : Expr D × Expr D, Tot cfg (fun E => simplifyNumericPower E (.rat q) (.rat (n : ℚ))) p ∧
      (if p.2.isOne then p.1 else if p.1.isOne then one else .pow p.1 p.2) = num (.rat (q ^ n)) := by
      have hstart : ∀ {p : Expr D × Expr D}, Tot cfg (fun E =>
          (if (Expr.num r.preFactor).isOne then (pure (.num r.base, .num r.exp) : M D (Expr D × Expr D))
            else do
              let p ← E.powCreate (.num r.base) (.num r.exp)
              let q ← E.prodCreate [.num r.preFactor, p]
              pure (q, one))) p → Tot cfg (fun E => simplifyNumericPower E (.rat q) (.rat (n : ℚ))) p := by
        intro p hp
        unfold simplifyNumericPower
        refine tot_bind (a := (r, true)) (tot_maxPrime (f := fun k => M.lift (NumPowerSimpl.compute k ⟨.rat q, .rat n, 1⟩)) (tot_lift hr)) ?_
        simp only [Bool.not_true, e1, e2, Bool.or_self]
        exact tot_bind (tot_logIf rfl) hp
      rcases hout with ⟨c, c0, c1, rfl⟩ | rfl
      · by_cases hv : q ^ n = 1
        · have hc1 : c = 1 := by
            by_contra h
            exact (c1 h).1 hv
          subst hc1
          refine ⟨(num (.rat 1), num (.rat 0)), hstart ?_, ?_⟩
          · have : (num (.rat (q ^ n)) : Expr D).isOne = true := by rw [isOne_ratE]; simpa using hv
            simp only [this, if_true]
            exact tot_pure _
          · rw [hv]
            simp [isOne_ratE, one_eq]
        · refine ⟨(num (.rat (q ^ n)), one), hstart ?_, ?_⟩
          · have : (num (.rat (q ^ n)) : Expr D).isOne = false := by rw [isOne_ratE]; simpa using hv
            simp only [this, Bool.false_eq_true, if_false]
            refine tot_bind (a := one) (tot_pow ?_) (tot_bind (a := num (.rat (q ^ n))) (tot_prod ?_) (tot_pure _))
            · have z : (num (.rat 0) : Expr D).isZero = true := by rw [isZero_ratE]; simp
              have u3 : (num (.rat c) : Expr D).isUndefined = false := rfl
              have u4 : (num (.rat 0) : Expr D).isUndefined = false := rfl
              simp only [powCreate, u3, u4, z, Bool.or_self, Bool.true_or, Bool.false_eq_true, if_false, if_true]
              exact tot_pure _
            · obtain ⟨x, hx, hx2, hx3⟩ := tot_prod_em hc (A := [num (.rat (q ^ n)), (one : Expr D)]) (by simp) (by
                intro e he
                simp only [List.mem_cons, List.not_mem_nil, or_false] at he
                rcases he with rfl | rfl
                · exact EM.num _
                · rw [one_eq]; exact EM.num _)
              have : x = num (.rat (q ^ n)) := by
                refine EP.unique hx2.1 (EP.num _) ?_
                rw [hx3, one_eq]
                simp [poly_ratE]
              rwa [this] at hx
          · simp [one_eq, isOne_ratE]
      · refine ⟨(num (.rat (q ^ n)), num (.rat 1)), hstart ?_, ?_⟩
        · have : (num (.rat 1) : Expr D).isOne = true := by rw [isOne_ratE]; simp
          simp only [this, if_true]
          exact tot_pure _
        · simp [isOne_ratE]
    obtain ⟨p, hp, hp2⟩ := hN
    refine ⟨p, tot_bind (tot_noComplex_int hneg n) ?_, hp2⟩
    simp only [Bool.false_eq_true, if_false, int]
    exact hp
  obtain ⟨p, hp, hp2⟩ := hS
  refine tot_bind (tot_simplPow hp) ?_
  rw [hp2]
  exact tot_pure _

end Tsym
