import Verif.SqrtEng

set_option autoImplicit false
set_option linter.unusedSectionVars false
set_option linter.unusedSimpArgs false
set_option linter.unusedVariables false

/-!
# Helper lemmas: products of two square roots
-/

namespace Tsym

open Expr NumPowerSimpl

variable {D : Type} [Flt D] [ExactLt D] {cfg : Cfg D}

/-- NumPowerSimpl and Power::create without a prefactor: the factors. -/
theorem tot_numPowOne {B X : ℚ} (hB : 0 < B) (hX : X ≠ 0) {s r : ℚ}
    (hr : compute cfg.maxPrime (⟨.rat B, .rat X, .rat 1⟩ : Payload D) = .ok (rootOut s r, true)) (hs : s ≠ 0)
    (h : r ≠ 1 → Simple cfg.maxPrime r) :
    Tot cfg (fun E => simplNumAndNumPowN E 1 (.rat B) (.rat X)) (surdList s r : List (Expr D)) := by
  unfold simplNumAndNumPowN surdList
  refine tot_bind (a := ((rootOut s r : Payload D), true))
    (tot_maxPrime (f := fun k => M.lift (NumPowerSimpl.compute k ⟨.rat B, .rat X, 1⟩)) (tot_lift hr)) ?_
  have h10 : (1 : ℚ) ≠ 0 := one_ne_zero
  simp only [Bool.not_true, Number.one_def, rat_eqv_zero, hB.ne', hX, h10, decide_false, Bool.or_self]
  refine tot_bind (tot_logIf rfl) ?_
  by_cases e : r = 1
  · simp only [rootOut, e, if_true]
    refine tot_bind (a := num (.rat s)) (tot_pow ?_) ?_
    · have u1 : (num (.rat s) : Expr D).isUndefined = false := rfl
      have u2 : (num (.rat 1) : Expr D).isUndefined = false := rfl
      simp only [powCreate, u1, u2, isZero_ratE, isOne_ratE, hs, h10, decide_true, decide_false, Bool.or_self, Bool.false_or, Bool.false_eq_true,
        if_false, if_true]
      by_cases h1 : s = 1
      · simp only [h1, decide_true, if_true, one_eq]; exact tot_pure _
      · simp only [h1, decide_false, Bool.false_eq_true, if_false]; exact tot_pure _
    · simp only [isOne_ratE, decide_true, if_true]
      exact tot_pure _
  · obtain ⟨t1, t2⟩ := tot_rootE (cfg := cfg) (h e)
    have hw : Tot cfg (fun E => E.powCreate (.num (rootOut s r : Payload D).base) (.num (rootOut s r : Payload D).exp)) (rootE r : Expr D) ∧
        (rootOut s r : Payload D).preFactor = .rat s := by
      unfold rootOut
      by_cases e2 : r.num = 1
      · simp only [e, e2, if_false, if_true]; exact ⟨tot_pow t2, trivial⟩
      · simp only [e, e2, if_false]; exact ⟨tot_pow t1, trivial⟩
    refine tot_bind hw.1 ?_
    simp only [hw.2, isOne_ratE, e, if_false, decide_eq_true_eq]
    exact tot_pure _

theorem RootOf.spos {max : ℤ} {b s r : ℚ} (h : RootOf max b 1 s r) : 0 < s := by
  rcases h with ⟨s0, h1, h2, h3, rfl⟩ | ⟨h, rfl, rfl⟩
  · exact h3.spos
  · exact one_pos

theorem RootOf.rsimple {max : ℤ} {b s r : ℚ} (hb : 0 < b) (h : RootOf max b 1 s r) (hr : r ≠ 1) : Simple max r := by
  rcases h with ⟨s0, h1, h2, h3, rfl⟩ | ⟨h, rfl, rfl⟩
  · exact ⟨h3.rpos, hr, fun _ => ⟨h3.sfn, h3.sfd⟩⟩
  · exact ⟨hb, hr, fun hs => absurd ⟨hs, hs.one⟩ h⟩

theorem rootOf_one {max : ℤ} {s r : ℚ} (h : RootOf max 1 1 s r) : s = 1 ∧ r = 1 := by
  rcases h with ⟨s0, h1, h2, h3, rfl⟩ | ⟨h, rfl, rfl⟩
  · obtain ⟨e1, e2⟩ := h3.unique (s' := 1) (r' := 1) ⟨one_pos, one_pos, by norm_num, by norm_num, by simp, by simp⟩
    subst e1 e2; norm_num
  · exact ⟨rfl, rfl⟩

/-- The product of two different roots. -/
theorem tot_mul_roots (h1m : 1 ≤ cfg.maxPrime) {a b s r : ℚ} (ha : Simple cfg.maxPrime a) (hb : Simple cfg.maxPrime b) (hab : a ≠ b)
    (h : RootOf cfg.maxPrime (a * b) 1 s r) :
    Tot cfg (fun E => prodCreate E [(rootE a : Expr D), rootE b]) (surd s r) := by
  have h0 : 0 < a * b := mul_pos ha.1 hb.1
  simp only [prodCreate, List.any_cons, List.any_nil, rootE_isUndefined, rootE_isZero, Bool.or_self, Bool.false_eq_true, if_false]
  have hfac : ([rootE a, rootE b] : List (Expr D)).flatMap factors = [rootE a, rootE b] := by
    simp [rootE_factors]
  have t1 : Tot cfg (fun E => extractProducts E [rootE a, rootE b]) [(rootE a : Expr D), rootE b] := by
    have h := tot_extract (cfg := cfg) (u := [(rootE a : Expr D), rootE b]) (by
      intro l hl
      simp only [List.mem_cons, List.not_mem_nil, or_false] at hl
      rcases hl with e | e
      · have := rootE_isProduct (D := D) a; rw [← e] at this; cases this
      · have := rootE_isProduct (D := D) b; rw [← e] at this; cases this)
    rwa [hfac] at h
  have t2 : Tot cfg (fun E => contractTrigonometrics E [rootE a, rootE b]) [(rootE a : Expr D), rootE b] := by
    refine tot_contract (simpl := fun E => contractTrigFctPowers E) fun x hx y hy => ?_
    unfold areContractableTrigFctPowers
    simp only [List.mem_cons, List.not_mem_nil, or_false] at hx
    rcases hx with rfl | rfl <;> (rw [rootE_trig]; rfl)
  suffices hsuf : ∃ L : List (Expr D), Tot cfg (fun E => simplTwoConst E (rootE a) (rootE b)) L ∧ (L = surdList s r ∨ L = [surd s r]) by
    obtain ⟨L, hL, hL2⟩ := hsuf
    refine tot_bind (a := L) (tot_prodSimplify ?_) ?_
    · unfold simplProd
      refine tot_bind t1 (tot_bind t2 ?_)
      simp only [simplTwoFactors, rootE_isProduct, Bool.or_self, Bool.false_eq_true, if_false, simplTwoFactorsWithoutProduct, rootE_isOne,
        rootE_isConst, Bool.and_self, if_true]
      exact hL
    · rcases hL2 with rfl | rfl
      · exact tot_surdList s r
      · exact tot_pure _
  obtain ⟨B1, X1, e1, c1⟩ := rootE_cases (D := D) a
  obtain ⟨B2, X2, e2, c2⟩ := rootE_cases (D := D) b
  have p1 : 0 < B1 := by
    rcases c1 with ⟨_, rfl, _⟩ | ⟨_, rfl, _⟩
    · exact inv_pos.2 ha.1
    · exact ha.1
  have p2 : 0 < B2 := by
    rcases c2 with ⟨_, rfl, _⟩ | ⟨_, rfl, _⟩
    · exact inv_pos.2 hb.1
    · exact hb.1
  have hbase : haveEqualBases (.pow (num (.rat B1)) (num (.rat X1)) : Expr D) (.pow (num (.rat B2)) (num (.rat X2))) = decide (B1 = B2) := by
    simp only [haveEqualBases, Expr.base, isEqual]
    exact Number.rat_eqv (D := D) _ _
  have hexp : areNumPowersWithEqualExp (.pow (num (.rat B1)) (num (.rat X1)) : Expr D) (.pow (num (.rat B2)) (num (.rat X2))) = decide (X1 = X2) := by
    simp only [areNumPowersWithEqualExp, isNumericPower, Expr.exp, isEqual, Bool.true_and]
    exact Number.rat_eqv (D := D) _ _
  have hsum := tot_sum_num (cfg := cfg) X1 X2
  rw [e1, e2]
  simp only [simplTwoConst, hbase, hexp]
  by_cases hB : B1 = B2
  · -- equal bases: one root is the inverse of the other
    have hinv : X1 + X2 = 0 ∧ a * b = 1 := by
      rcases c1 with ⟨n1, x1, y1⟩ | ⟨n1, x1, y1⟩ <;> rcases c2 with ⟨n2, x2, y2⟩ | ⟨n2, x2, y2⟩
      · exact absurd (inv_injective (by rw [← x1, ← x2, hB])) hab
      · refine ⟨by rw [y1, y2]; norm_num, ?_⟩
        rw [← x2, ← hB, x1]; exact mul_inv_cancel₀ ha.1.ne'
      · refine ⟨by rw [y1, y2]; norm_num, ?_⟩
        rw [← x1, hB, x2]; exact inv_mul_cancel₀ hb.1.ne'
      · exact absurd (by rw [← x1, ← x2, hB]) hab
    rw [hinv.2] at h
    obtain ⟨rfl, rfl⟩ := rootOf_one h
    refine ⟨[one], ?_, .inr (by simp [surd, one_eq])⟩
    simp only [hB, decide_true, if_true]
    unfold simplTwoEqualBases
    rw [hinv.1] at hsum
    refine tot_bind hsum ?_
    have hpos : Tot cfg (fun E => M.silent (E.isPos (num (.rat B2) : Expr D))) true := by
      have : Tot cfg (fun E => E.isPos (num (.rat B2) : Expr D)) true := by
        refine tot_isPos ?_
        simp only [isPos]
        have : Number.lt 0 (.rat B2 : Number D) = true := by rw [Number.zero_def, lt_rat]; simpa using p2
        rw [this]; exact tot_pure _
      obtain ⟨n, hn⟩ := this
      exact ⟨n, fun m hm => by
        have := hn m hm
        simp only at this
        simp only [M.silent, this]; rfl⟩
    refine tot_bind hpos ?_
    simp only [if_true]
    refine tot_bind (tot_pure _) (tot_bind (tot_pure _) ?_)
    simp only [Bool.false_eq_true, if_false]
    refine tot_bind (a := one) (tot_pow ?_) (tot_pure _)
    have u1 : (num (.rat B2) : Expr D).isUndefined = false := rfl
    have u2 : (num (.rat 0) : Expr D).isUndefined = false := rfl
    have z : (num (.rat 0) : Expr D).isZero = true := by rw [isZero_ratE]; simp
    simp only [powCreate, u1, u2, z, Expr.base, Bool.or_self, Bool.true_or, Bool.false_eq_true, if_false, if_true]
    exact tot_pure _
  · simp only [hB, decide_false, Bool.false_eq_true, if_false]
    by_cases hX : X1 = X2
    · subst hX
      refine ⟨surdList s r, ?_, .inl rfl⟩
      simp only [decide_true, if_true, simplTwoEqualExp, Number.mul]
      have hX0 : X1 ≠ 0 := by rcases c1 with ⟨_, _, rfl⟩ | ⟨_, _, rfl⟩ <;> norm_num
      refine tot_numPowOne (mul_pos p1 p2) hX0 ?_ h.spos.ne' (h.rsimple h0)
      rcases c1 with ⟨n1, rfl, rfl⟩ | ⟨n1, rfl, rfl⟩ <;> rcases c2 with ⟨n2, rfl, y2⟩ | ⟨n2, rfl, y2⟩
      · -- both negative
        have hne : a⁻¹ * b⁻¹ ≠ 1 := by
          intro h1
          have d1 : (a⁻¹).den = 1 := by
            have := Rat.den_inv a; rw [if_neg (Rat.num_ne_zero.2 ha.1.ne'), n1] at this; simpa using this
          have d2 : (b⁻¹).den = 1 := by
            have := Rat.den_inv b; rw [if_neg (Rat.num_ne_zero.2 hb.1.ne'), n2] at this; simpa using this
          have q1 : a⁻¹ = ((a⁻¹).num : ℚ) := ((Rat.den_eq_one_iff _).1 d1).symm
          have q2 : b⁻¹ = ((b⁻¹).num : ℚ) := ((Rat.den_eq_one_iff _).1 d2).symm
          rw [q1, q2] at h1
          have h2 : (a⁻¹).num * (b⁻¹).num = 1 := by exact_mod_cast h1
          have h3 : 0 < (a⁻¹).num := Rat.num_pos.2 (inv_pos.2 ha.1)
          have h4 : (a⁻¹).num = 1 := Int.eq_one_or_neg_one_of_mul_eq_one h2 |>.resolve_right (by omega)
          rw [h4] at q1
          exact ha.2.1 (by simpa using q1)
        exact compute_nroot (mul_pos p1 p2) hne one_ne_zero (by rwa [mul_inv, inv_inv, inv_inv])
      · norm_num at y2
      · norm_num at y2
      · by_cases hone : B1 * B2 = 1
        · rw [hone] at h ⊢
          obtain ⟨rfl, rfl⟩ := rootOf_one h
          have hs1 : SmallQ cfg.maxPrime 1 := by unfold SmallQ; simp; exact h1m
          have := compute_half (D := D) (max := cfg.maxPrime) (b := 1) (pf := 1) (s := 1) (r := 1) one_pos one_ne_zero
            ⟨one_pos, one_pos, by norm_num, by norm_num, by simp, by simp⟩ hs1 hs1
          rwa [if_neg (by norm_num)] at this
        · exact compute_root h0 hone one_ne_zero h
    · refine ⟨[surd s r], ?_, .inr rfl⟩
      have hz : X1 + X2 = 0 := by
        rcases c1 with ⟨_, _, rfl⟩ | ⟨_, _, rfl⟩ <;> rcases c2 with ⟨_, _, rfl⟩ | ⟨_, _, rfl⟩
        · exact absurd rfl hX
        · norm_num
        · norm_num
        · exact absurd rfl hX
      simp only [hX, decide_false, Bool.false_eq_true, if_false]
      have hzero : Tot cfg (fun E => M.whenTrue (areNumPowersWithZeroSumExp E (.pow (num (.rat B1)) (num (.rat X1)) : Expr D)
          (.pow (num (.rat B2)) (num (.rat X2))))) true := by
        refine tot_whenTrue ?_
        simp only [areNumPowersWithZeroSumExp, isNumericPower, Bool.and_self, if_true, Expr.exp]
        refine tot_bind hsum ?_
        rw [hz, isZero_ratE]
        exact tot_pure _
      refine tot_bind hzero ?_
      simp only [if_true, simplTwoZeroSumExp]
      refine tot_bind (tot_lift (toThe_negone p2.ne')) ?_
      simp only [Number.mul]
      refine tot_bind (tot_pow ?_) (tot_pure _)
      rcases c1 with ⟨n1, rfl, rfl⟩ | ⟨n1, rfl, rfl⟩ <;> rcases c2 with ⟨n2, rfl, rfl⟩ | ⟨n2, rfl, rfl⟩
      · exact absurd rfl hX
      · have := (tot_sqrt (cfg := cfg) (D := D) h0 h).2
        rwa [mul_inv] at this
      · have := (tot_sqrt (cfg := cfg) (D := D) h0 h).1
        rwa [inv_inv]
      · exact absurd rfl hX

end Tsym
