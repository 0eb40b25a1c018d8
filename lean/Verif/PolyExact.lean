import Verif.GcdMath

set_option autoImplicit false
set_option linter.unusedSectionVars false
set_option linter.unusedSimpArgs false
set_option linter.unusedVariables false

/-!
# Helper lemmas: exact division of expanded polynomials

If the division is exact the degrees of the remainders in between do not grow.
-/

namespace Tsym

open Expr

/-- One step of an exact division does not increase the degree in any symbol. -/
theorem exact_step {s : Sym} {v w d r r' : MvPolynomial Sym ℚ} (hv : v ≠ 0) (hw : w ≠ 0) (hr : r = v * w)
    (hd : d * (upoly s v).coeff (v.degreeOf s) = (upoly s r).coeff (r.degreeOf s))
    (hr' : r' = r - d * v * MvPolynomial.X s ^ (r.degreeOf s - v.degreeOf s)) (h0 : r' ≠ 0) (t : Sym) :
    r'.degreeOf t ≤ r.degreeOf t := by
  have hlw : (upoly s r).coeff (r.degreeOf s) = (upoly s v).coeff (v.degreeOf s) * (upoly s w).coeff (w.degreeOf s) := by
    have := Polynomial.leadingCoeff_mul (upoly s v) (upoly s w)
    rw [← map_mul, ← hr] at this
    rw [Polynomial.leadingCoeff, Polynomial.leadingCoeff, Polynomial.leadingCoeff, upoly_natDegree, upoly_natDegree, upoly_natDegree] at this
    exact this
  have hdw : d = (upoly s w).coeff (w.degreeOf s) := by
    refine mul_right_cancel₀ (lead_ne_zero (s := s) hv) ?_
    rw [hd, hlw, mul_comm]
  have hdeg : r.degreeOf s = v.degreeOf s + w.degreeOf s := by rw [hr, degreeOf_mul_ne s hv hw]
  have hw' : r' = v * (w - d * MvPolynomial.X s ^ w.degreeOf s) := by
    rw [hr', hdeg, Nat.add_sub_cancel_left, hr]; ring
  set w' := w - d * MvPolynomial.X s ^ w.degreeOf s with hw'def
  have hw'0 : w' ≠ 0 := by rintro h; rw [h, mul_zero] at hw'; exact h0 hw'
  have hup : upoly s w' = (upoly s w).eraseLead := by
    have hfree : d.degreeOf s = 0 := by rw [hdw]; exact upoly_coeff_free _ _ _
    rw [hw'def, map_sub, map_mul, map_pow, upoly_X, upoly_free hfree, ← Polynomial.self_sub_C_mul_X_pow, Polynomial.leadingCoeff, upoly_natDegree, hdw]
  have hcoe : ∀ i, ((upoly s w').coeff i).degreeOf t ≤ w.degreeOf t := by
    intro i
    rw [hup, Polynomial.eraseLead_coeff]
    split
    · simp
    · exact upoly_coeff_degreeOf _ _ _ _
  have hle : w'.degreeOf t ≤ w.degreeOf t := by
    by_cases hts : t = s
    · subst hts
      rw [← upoly_natDegree, hup, ← upoly_natDegree]
      exact Polynomial.eraseLead_natDegree_le_aux
    · exact degreeOf_of_coeffs hts hcoe
  rw [hw', degreeOf_mul_ne t hv hw'0, hr, degreeOf_mul_ne t hv hw]
  omega

section

variable {D : Type} [Flt D] [ExactLt D] {cfg : Cfg D}

/-- The division of `u` by `v` is exact. -/
def DivEx (cfg : Cfg D) (u v : Expr D) (L : List Sym) : Prop :=
  ∃ q, Rts cfg (fun E => E.divideL u v (L.map .sym)) (q, zero) ∧ EP q ∧ poly u = poly q * poly v

theorem exact_rounds (hc : cfg.Ok) {s : Sym} (hs : s.id.Ok) {R : List Sym} {v : Expr D} (hv : EP v) (h0 : poly v ≠ 0)
    (hbv : ((poly v).degreeOf s : ℤ) < intMax) {U : ℕ} (hU : (U : ℤ) < intMax)
    (ih : ∀ a b : Expr D, EP a → EP b → poly a ≠ 0 → poly b = (upoly s (poly v)).coeff ((poly v).degreeOf s) → poly b ∣ poly a →
      (∀ t, (poly a).degreeOf t ≤ U) → (∀ t, t ∉ R → (poly a).degreeOf t = 0) → DivEx cfg a b R) (m : ℕ) :
    ∀ {q r : Expr D}, Pol cfg q → EP r → poly r ≠ 0 → (poly r).degreeOf s = m → (∀ t, (poly r).degreeOf t ≤ U) →
      (∀ t, t ∉ s :: R → (poly r).degreeOf t = 0) → poly v ∣ poly r →
    ∃ q', RoundsT cfg (fun E => divideStep E v (.sym s) ((poly v).degreeOf s) (R.map .sym)) (q', zero) (q, r, (m : ℤ)) ∧
      EP q' ∧ poly q * poly v + poly r = poly q' * poly v := by
  induction m using Nat.strong_induction_on with
  | _ m ihm =>
    intro q r hq hr hr0 hm hrb hrL hdvd
    have hmn' : (poly v).degreeOf s ≤ m := by have := degreeOf_dvd s hr0 hdvd; omega
    have hUm : (m : ℤ) < intMax := by have := hrb s; omega
    obtain ⟨lr, l1, l2, l3⟩ := tot_lead hc s hr (by rw [hm]; exact hUm)
    obtain ⟨lv, k1, k2, k3⟩ := tot_lead hc s hv hbv
    have hlr0 : poly lr ≠ 0 := by rw [l3]; exact lead_ne_zero hr0
    have hlrt : ∀ t, (poly lr).degreeOf t ≤ (poly r).degreeOf t := fun t => by rw [l3]; exact upoly_coeff_degreeOf s t _ _
    obtain ⟨dq, e1, e2, e4⟩ := ih lr lv l2 k2 hlr0 k3 (by rw [k3, l3]; exact lead_dvd s hr0 hdvd) (fun t => le_trans (hlrt t) (hrb t)) (by
      intro t ht
      by_cases hts : t = s
      · subst hts; rw [l3]; exact upoly_coeff_free _ _ _
      · have := hlrt t
        rw [hrL t (by simp [hts, ht])] at this; omega)
    have hfirst : ∀ {w : (Expr D × Expr D × ℤ) ⊕ (Expr D × Expr D)}, Rts cfg (fun E =>
        (do
          let tmp ← E.powCreate (.sym s) (.int (m - (poly v).degreeOf s))
          let ct ← E.prodCreate [dq, tmp]
          let quotient ← E.sumCreate [q, ct]
          let m ← E.prodCreate [mOne, dq, v, tmp]
          let r ← E.sumCreate [r, m]
          let remainder ← E.expand r
          if remainder.isZero then do
            let q ← E.expand quotient
            pure (.inr (q, remainder))
          else do
            let k ← M.lift (degree (.sym s) remainder)
            pure (.inl (quotient, remainder, k)) : M D ((Expr D × Expr D × ℤ) ⊕ (Expr D × Expr D)))) w →
        Rts cfg (fun E => divideStep E v (.sym s) ((poly v).degreeOf s) (R.map .sym) (q, r, (m : ℤ))) w := by
      intro w hw
      unfold divideStep
      have h1 : ¬ ((m : ℤ) < ((poly v).degreeOf s : ℤ)) := by omega
      have h2 : ¬ ((m : ℤ) < 0 ∨ ((poly v).degreeOf s : ℤ) < 0) := by omega
      simp only [h1, h2, if_false]
      refine rts_bind l1.rts (rts_bind k1.rts (rts_bind e1 ?_))
      have hz : (zero : Expr D).isZero = true := EP.zero.isZero.2 poly_zero
      simp only [hz, Bool.not_true, Bool.false_eq_true, if_false]
      exact hw
    obtain ⟨x1, x2⟩ := EP.symPow (D := D) hs (m - (poly v).degreeOf s)
    have hp := tot_symPow (D := D) (cfg := cfg) s hmn'
    obtain ⟨ct, c1, c2, c3⟩ := tot_prod2 hc (cfg := cfg) e2.pol x1.pol
    obtain ⟨q', q1, q2, q3⟩ := tot_sum2 hc (cfg := cfg) hq c2
    obtain ⟨b, b1, b2, b3⟩ := tot_prod_pol hc (cfg := cfg) (es := [mOne, dq, v, symPow s (m - (poly v).degreeOf s)]) (by simp) (by
      simpa using ⟨Pol.mOne, e2.pol, hv.pol, x1.pol⟩)
    obtain ⟨c, y1, y2, y3⟩ := tot_sum2 hc (cfg := cfg) hr.pol b2
    obtain ⟨r', r1, r2, r3⟩ := tot_expand' hc y2
    have hrp : poly r' = poly r - poly dq * poly v * MvPolynomial.X s ^ (m - (poly v).degreeOf s) := by
      rw [r3, y3, b3]
      simp only [List.map_cons, List.map_nil, List.prod_cons, List.prod_nil, mul_one, poly_mOne, x2]
      ring
    have hqp : poly q' = poly q + poly dq * MvPolynomial.X s ^ (m - (poly v).degreeOf s) := by rw [q3, c3, x2]
    have hdvd' : poly v ∣ poly r' := by
      rw [hrp]; exact dvd_sub hdvd ⟨poly dq * MvPolynomial.X s ^ (m - (poly v).degreeOf s), by ring⟩
    by_cases hr'0 : poly r' = 0
    · obtain ⟨qe', z1, z2, z3⟩ := tot_expand' hc q2
      have hr'z : r' = zero := EP.unique r2 EP.zero (by rw [hr'0, poly_zero])
      refine ⟨qe', .done _ (hfirst ?_), z2, ?_⟩
      · refine rts_bind hp.rts (rts_bind c1.rts (rts_bind q1.rts (rts_bind (tot_prod b1).rts (rts_bind y1.rts (rts_bind r1.rts ?_)))))
        simp only [r2.isZero.2 hr'0, if_true]
        rw [hr'z]
        exact rts_bind z1.rts (tot_pure _).rts
      · rw [hrp] at hr'0
        rw [z3, hqp]; linear_combination hr'0
    · have hz' : r'.isZero = false := by rw [Bool.eq_false_iff]; exact fun h => hr'0 (r2.isZero.1 h)
      have hddvd : poly dq ∣ poly lr := ⟨poly lv, e4⟩
      have hd : (poly r').degreeOf s < m := by
        refine (step_degree s (b := 1) hm rfl hmn' ?_ (by simp) ?_ (by rw [hrp, one_mul])).resolve_left hr'0
        · have h1 := degreeOf_dvd s hlr0 hddvd
          have h2 : (poly lr).degreeOf s = 0 := by rw [l3]; exact upoly_coeff_free s _ _
          omega
        · rw [one_mul, ← k3, ← e4, l3, hm]
      obtain ⟨w, hw⟩ := hdvd
      have hle := exact_step (s := s) (v := poly v) (w := w) (d := poly dq) h0 (by rintro rfl; rw [mul_zero] at hw; exact hr0 hw) hw
        (by rw [← k3, ← e4, l3]) (by rw [hm]; exact hrp) hr'0
      obtain ⟨q'', i1, i2, i4⟩ := ihm _ hd (q := q') (r := r') q2 r2 hr'0 rfl (fun t => le_trans (hle t) (hrb t)) (by
          intro t ht
          have := hle t
          rw [hrL t ht] at this
          omega) hdvd'
      refine ⟨q'', .next _ _ (hfirst ?_) i1, i2, ?_⟩
      · refine rts_bind hp.rts (rts_bind c1.rts (rts_bind q1.rts (rts_bind (tot_prod b1).rts (rts_bind y1.rts (rts_bind r1.rts ?_)))))
        simp only [hz', Bool.false_eq_true, if_false]
        exact rts_bind (tot_lift (degree_ep s r2 (by omega))).rts (tot_pure _).rts
      · rw [← i4, hqp, hrp]; ring

/-- Exact division of expanded polynomials. -/
theorem divideL_exact (hc : cfg.Ok) (L : List Sym) : ∀ (u v : Expr D), (∀ s ∈ L, s.id.Ok) → EP u → EP v → poly u ≠ 0 → poly v ∣ poly u →
    CoeffsOk cfg.maxPrime (poly v) → (∀ t, ((poly u).degreeOf t : ℤ) < intMax) → (∀ t, t ∉ L → (poly u).degreeOf t = 0) → DivEx cfg u v L := by
  induction L with
  | nil =>
    intro u v _ hu hv hu0 hdvd hco hub huL
    have h0 : poly v ≠ 0 := by intro h; rw [h, zero_dvd_iff] at hdvd; exact hu0 hdvd
    have hvL : ∀ t, (poly v).degreeOf t = 0 := fun t => by
      have h1 := degreeOf_dvd t hu0 hdvd
      rw [huL t (by simp)] at h1; omega
    have hu' := const_of_degree fun t => huL t (by simp)
    have hv' := const_of_degree hvL
    have eu := hu.eq_num hu'
    have ev := hv.eq_num hv'
    have hb : (poly v).coeff 0 ≠ 0 := by
      intro h
      rw [h, map_zero] at hv'
      exact h0 hv'
    refine ⟨.num (.rat ((poly u).coeff 0 * ((poly v).coeff 0)⁻¹)), ?_, EP.num _, ?_⟩
    · refine rts_succ (f := fun E => divideL E u v []) (fun _ => rfl) ?_
      unfold divideL
      refine rts_bind (tot_lift (isPolyInputValid_ep hu hv h0 (fun t => by rw [huL t (by simp)]; decide) fun t => by rw [hvL t]; decide)).rts ?_
      simp only [Bool.not_true, Bool.false_eq_true, if_false]
      have := rts_divide_num (D := D) hc (a := (poly u).coeff 0) hb (hco _ hb)
      rwa [← eu, ← ev] at this
    · rw [poly_ratE]
      have h1 : MvPolynomial.C ((poly u).coeff 0 * ((poly v).coeff 0)⁻¹) * MvPolynomial.C ((poly v).coeff 0) = MvPolynomial.C (σ := Sym) ((poly u).coeff 0) := by
        rw [← map_mul, mul_assoc, inv_mul_cancel₀ hb, mul_one]
      rw [← hv', ← hu'] at h1
      exact h1.symm
  | cons s R ihL =>
    intro u v hL hu hv hu0 hdvd hco hub huL
    have h0 : poly v ≠ 0 := by intro h; rw [h, zero_dvd_iff] at hdvd; exact hu0 hdvd
    have hdeg : ∀ t, ((poly v).degreeOf t : ℤ) < intMax := fun t => by have := degreeOf_dvd t hu0 hdvd; have := hub t; omega
    have hok := isPolyInputValid_ep hu hv h0 (fun t => by have := hub t; omega) fun t => by have := hdeg t; omega
    have hpre : ∀ {w : Expr D × Expr D}, Rts cfg (fun E => (if isEqual v u then pure (one, zero)
      else if u.isZero then pure (zero, zero)
      else divideNonEmpty E u v (.sym s) (R.map .sym) : M D (Expr D × Expr D))) w → Rts cfg (fun E => E.divideL u v ((s :: R).map .sym)) w := by
      intro w hw
      refine rts_succ (f := fun E => divideL E u v ((s :: R).map .sym)) (fun _ => rfl) ?_
      unfold divideL
      refine rts_bind (tot_lift hok).rts ?_
      simp only [Bool.not_true, Bool.false_eq_true, if_false, List.map_cons]
      exact hw
    by_cases he : isEqual v u = true
    · have : v = u := (isEqual_eq _ (isPolyE_exact _ hv.polyE) _ (isPolyE_exact _ hu.polyE)).1 he
      refine ⟨one, hpre ?_, by rw [one_eq]; exact EP.num 1, by rw [poly_one, this]; ring⟩
      simp only [he, if_true]; exact (tot_pure _).rts
    have he' : isEqual v u = false := by simpa using he
    have huz : u.isZero = false := by rw [Bool.eq_false_iff]; exact fun h => hu0 (hu.isZero.1 h)
    obtain ⟨U, hU, hUb⟩ : ∃ U : ℕ, (U : ℤ) < intMax ∧ ∀ t, (poly u).degreeOf t ≤ U := by
      refine ⟨(intMax - 1).toNat, by unfold intMax; omega, fun t => ?_⟩
      have := hub t
      have h2 : ((intMax - 1).toNat : ℤ) = intMax - 1 := by unfold intMax; omega
      omega
    have ih : ∀ a b : Expr D, EP a → EP b → poly a ≠ 0 → poly b = (upoly s (poly v)).coeff ((poly v).degreeOf s) → poly b ∣ poly a →
      (∀ t, (poly a).degreeOf t ≤ U) → (∀ t, t ∉ R → (poly a).degreeOf t = 0) → DivEx cfg a b R := by
      intro a b ha hb ha0 hbp hba hab haR
      exact ihL a b (fun t ht => hL t (by simp [ht])) ha hb ha0 hba (by rw [hbp]; exact hco.lead s _) (fun t => by have := hab t; omega) haR
    obtain ⟨q', g1, g2, g4⟩ := exact_rounds hc (hL s (by simp)) hv h0 (hdeg s) hU ih _ (q := zero) (r := u)
      EP.zero.pol hu hu0 rfl hUb huL hdvd
    refine ⟨q', hpre ?_, g2, by rw [← g4, poly_zero]; ring⟩
    simp only [he', huz, Bool.false_eq_true, if_false]
    unfold divideNonEmpty
    refine rts_bind (tot_lift (degree_ep s hu (hub s))).rts (rts_bind (tot_lift (degree_ep s hv (hdeg s))).rts ?_)
    simp only [isSymbol, Bool.not_true, Bool.false_eq_true, if_false]
    exact rts_loop g1

end

end Tsym
