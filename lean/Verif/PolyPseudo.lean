import Verif.PolyUni

set_option autoImplicit false
set_option linter.unusedSectionVars false
set_option linter.unusedSimpArgs false
set_option linter.unusedVariables false

/-!
# Helper lemmas: pseudo-division of expanded polynomials
-/

namespace Tsym

open Expr

variable {D : Type} [Flt D] [ExactLt D] {cfg : Cfg D}

theorem tot_prod2 (hc : cfg.Ok) {a b : Expr D} (ha : Pol cfg a) (hb : Pol cfg b) :
    ∃ r, Tot cfg (fun E => E.prodCreate [a, b]) r ∧ Pol cfg r ∧ poly r = poly a * poly b := by
  obtain ⟨r, h1, h2, h3⟩ := tot_prod_pol hc (es := [a, b]) (by simp) (by simpa using ⟨ha, hb⟩)
  exact ⟨r, tot_prod h1, h2, by rw [h3]; simp⟩

theorem tot_sum2 (hc : cfg.Ok) {a b : Expr D} (ha : Pol cfg a) (hb : Pol cfg b) :
    ∃ r, Tot cfg (fun E => E.sumCreate [a, b]) r ∧ Pol cfg r ∧ poly r = poly a + poly b := by
  obtain ⟨r, h1, h2, h3⟩ := tot_sum_pol hc (es := [a, b]) (by simp) (by simpa using ⟨ha, hb⟩)
  exact ⟨r, tot_sum h1, h2, by rw [h3]; simp⟩

theorem tot_expand' (hc : cfg.Ok) {a : Expr D} (ha : Pol cfg a) :
    ∃ r, Tot cfg (fun E => E.expand a) r ∧ EP r ∧ poly r = poly a := by
  obtain ⟨r, h1, h2, h3⟩ := tot_expand_pol hc ha
  exact ⟨r, tot_expand h1, h2, h3⟩

theorem EP.symPow {s : Sym} (hs : s.id.Ok) (n : ℕ) : EP (symPow s n : Expr D) ∧ poly (Tsym.symPow s n : Expr D) = MvPolynomial.X s ^ n := by
  unfold Tsym.symPow
  split
  · rename_i h; subst h
    exact ⟨by rw [one_eq]; exact EP.num 1, by rw [poly_one, pow_zero]⟩
  · rename_i h
    refine ⟨EP.symFac ⟨hs, by simp only; omega⟩, ?_⟩
    unfold Tsym.symFac
    have hf : PFac (Cfg.std 0) ((.sym s : Expr D), n) := ⟨pbase_sym s, by simp only; omega⟩
    rw [poly_fac hf]; simp [poly]

theorem tot_symPow (s : Sym) {m n : ℕ} (h : n ≤ m) :
    Tot cfg (fun E => E.powCreate (.sym s) (.int ((m : ℤ) - n))) (symPow s (m - n) : Expr D) := by
  have : ((m : ℤ) - n) = ((m - n : ℕ) : ℤ) := by omega
  rw [this]
  exact tot_pow (tot_powSym s (m - n))

/-- One round of the pseudo-division. -/
theorem tot_pseudoDivideStep (hc : cfg.Ok) {s : Sym} (hs : s.id.Ok) {v lv : Expr D} (hv : EP v) (hlv : EP lv)
    (hlvp : poly lv = (upoly s (poly v)).coeff ((poly v).degreeOf s)) (cq : Bool)
    {q r : Expr D} {σ : ℤ} (hq : Pol cfg q) (hr : EP r) (hmn : (poly v).degreeOf s ≤ (poly r).degreeOf s)
    (hb : ((poly r).degreeOf s : ℤ) < intMax) :
    ∃ q' r', Pol cfg q' ∧ EP r' ∧
      poly r' = poly lv * poly r - (upoly s (poly r)).coeff ((poly r).degreeOf s) * poly v * MvPolynomial.X s ^ ((poly r).degreeOf s - (poly v).degreeOf s) ∧
      (cq = true → poly q' = poly lv * poly q + (upoly s (poly r)).coeff ((poly r).degreeOf s) * MvPolynomial.X s ^ ((poly r).degreeOf s - (poly v).degreeOf s)) ∧
      (poly r' = 0 → Tot cfg (fun E => pseudoDivideStep E v (.sym s) lv (poly v |>.degreeOf s) cq (q, r, (poly r).degreeOf s, σ)) (.inr (q', r', σ))) ∧
      (poly r' ≠ 0 → (poly r').degreeOf s < (poly r).degreeOf s ∧
        Tot cfg (fun E => pseudoDivideStep E v (.sym s) lv (poly v |>.degreeOf s) cq (q, r, (poly r).degreeOf s, σ))
          (.inl (q', r', (poly r').degreeOf s, σ + 1))) := by
  obtain ⟨lr, l1, l2, l3⟩ := tot_coeff_ep' hc s ((poly r).degreeOf s) hr
  obtain ⟨x1, x2⟩ := EP.symPow (D := D) hs ((poly r).degreeOf s - (poly v).degreeOf s)
  have hp := tot_symPow (D := D) (cfg := cfg) s hmn
  obtain ⟨tmp, t1, t2, t3⟩ := tot_prod2 hc (cfg := cfg) l2.pol x1.pol
  obtain ⟨a, a1, a2, a3⟩ := tot_prod2 hc (cfg := cfg) hlv.pol hr.pol
  obtain ⟨b, b1, b2, b3⟩ := tot_prod_pol hc (cfg := cfg) (es := [mOne, v, tmp]) (by simp) (by simpa using ⟨Pol.mOne, hv.pol, t2⟩)
  obtain ⟨c, c1, c2, c3⟩ := tot_sum2 hc (cfg := cfg) a2 b2
  obtain ⟨r', r1, r2, r3⟩ := tot_expand' hc c2
  obtain ⟨q', hq1, hq2, hq3⟩ : ∃ q', Tot cfg (fun E => (if cq then do
        let q ← E.prodCreate [lv, q]
        E.sumCreate [q, tmp]
      else pure q : M D (Expr D))) q' ∧ Pol cfg q' ∧ (cq = true → poly q' = poly lv * poly q + poly tmp) := by
    cases cq with
    | false => exact ⟨q, by simp only [Bool.false_eq_true, if_false]; exact tot_pure _, hq, by simp⟩
    | true =>
      obtain ⟨d, d1, d2, d3⟩ := tot_prod2 hc (cfg := cfg) hlv.pol hq
      obtain ⟨e, e1, e2, e3⟩ := tot_sum2 hc (cfg := cfg) d2 t2
      refine ⟨e, ?_, e2, fun _ => by rw [e3, d3]⟩
      simp only [if_true]
      exact tot_bind d1 e1
  have hrp : poly r' = poly lv * poly r - (upoly s (poly r)).coeff ((poly r).degreeOf s) * poly v * MvPolynomial.X s ^ ((poly r).degreeOf s - (poly v).degreeOf s) := by
    rw [r3, c3, a3, b3]
    simp only [List.map_cons, List.map_nil, List.prod_cons, List.prod_nil, mul_one, poly_mOne, t3, l3, x2]
    ring
  have hfirst : ∀ {w : (Expr D × Expr D × ℤ × ℤ) ⊕ (Expr D × Expr D × ℤ)}, Tot cfg (fun _ =>
      (if r'.isZero then pure (.inr (q', r', σ)) else do
        let k ← M.lift (degree (.sym s) r')
        pure (.inl (q', r', k, σ + 1)) : M D ((Expr D × Expr D × ℤ × ℤ) ⊕ (Expr D × Expr D × ℤ)))) w →
      Tot cfg (fun E => pseudoDivideStep E v (.sym s) lv (poly v |>.degreeOf s) cq (q, r, (poly r).degreeOf s, σ)) w := by
    intro w hw
    unfold pseudoDivideStep
    have : ¬ (((poly r).degreeOf s : ℤ) < (poly v).degreeOf s) := by omega
    simp only [this, if_false]
    exact tot_bind l1 (tot_bind hp (tot_bind t1 (tot_bind hq1 (tot_bind a1 (tot_bind (tot_prod b1) (tot_bind c1 (tot_bind r1 hw)))))))
  refine ⟨q', r', hq2, r2, hrp, fun h => by rw [hq3 h, t3, l3, x2], fun h0 => hfirst ?_, fun h0 => ?_⟩
  · simp only [r2.isZero.2 h0, if_true]; exact tot_pure _
  · have hz : r'.isZero = false := by rw [Bool.eq_false_iff]; exact fun h => h0 (r2.isZero.1 h)
    have hd : (poly r').degreeOf s < (poly r).degreeOf s := by
      refine (step_degree s rfl rfl hmn (upoly_coeff_free s _ _) (by rw [hlvp]; exact upoly_coeff_free s _ _) ?_ hrp).resolve_left h0
      rw [hlvp]; ring
    refine ⟨hd, hfirst ?_⟩
    simp only [hz, Bool.false_eq_true, if_false]
    exact tot_bind (tot_lift (degree_ep s r2 (lt_trans (by exact_mod_cast hd) hb))) (tot_pure _)

/-- The loop of the pseudo-division. -/
theorem pseudo_rounds (hc : cfg.Ok) {s : Sym} (hs : s.id.Ok) {v lv : Expr D} (hv : EP v) (hlv : EP lv)
    (hlvp : poly lv = (upoly s (poly v)).coeff ((poly v).degreeOf s)) (cq : Bool) (d : ℕ) :
    ∀ {q r : Expr D} {σ : ℤ}, Pol cfg q → EP r → (poly r).degreeOf s = d → ((poly r).degreeOf s : ℤ) < intMax →
    ∃ q' r', ∃ k j : ℕ, Rounds cfg (fun E => pseudoDivideStep E v (.sym s) lv (poly v |>.degreeOf s) cq) (q', r', σ + k) (q, r, (poly r).degreeOf s, σ) ∧
      Pol cfg q' ∧ EP r' ∧ (k = j ∧ (poly r').degreeOf s < (poly v).degreeOf s ∧ (poly r ≠ 0 → poly r' ≠ 0) ∨ j = k + 1 ∧ poly r' = 0) ∧
      (j : ℤ) ≤ max ((d : ℤ) - (poly v).degreeOf s + 1) 0 ∧
      (∃ Q, poly lv ^ j * poly r = Q * poly v + poly r' ∧ (cq = true → poly q' = poly lv ^ j * poly q + Q)) := by
  induction d using Nat.strong_induction_on with
  | _ d ih =>
    intro q r σ hq hr hd hb
    by_cases hmn : (poly v).degreeOf s ≤ (poly r).degreeOf s
    · obtain ⟨q', r', g1, g2, g3, g4, g5, g6⟩ := tot_pseudoDivideStep hc hs hv hlv hlvp cq (σ := σ) hq hr hmn hb
      by_cases h0 : poly r' = 0
      · refine ⟨q', r', 0, 1, .done _ (by simpa using g5 h0), g1, g2, .inr ⟨rfl, h0⟩, ?_, _, ?_, fun h => by rw [g4 h, pow_one]⟩
        · rw [← hd]; push_cast; omega
        · rw [pow_one, g3]; ring
      · obtain ⟨hlt, g6⟩ := g6 h0
        obtain ⟨q'', r'', k, j, i1, i2, i3, i4, i5, Q, i6, i7⟩ := ih _ (by omega) (σ := σ + 1) g1 g2 rfl (lt_trans (by exact_mod_cast hlt) hb)
        refine ⟨q'', r'', k + 1, j + 1, .next _ _ g6 ?_, i2, i3, ?_, ?_,
          Q + poly lv ^ j * ((upoly s (poly r)).coeff ((poly r).degreeOf s) * MvPolynomial.X s ^ ((poly r).degreeOf s - (poly v).degreeOf s)), ?_, fun h => ?_⟩
        · have : σ + ((k + 1 : ℕ) : ℤ) = σ + 1 + k := by push_cast; ring
          rw [this]; exact i1
        · rcases i4 with ⟨rfl, i4, i5⟩ | ⟨rfl, i4⟩
          · exact .inl ⟨rfl, i4, fun _ => i5 h0⟩
          · exact .inr ⟨rfl, i4⟩
        · push_cast; omega
        · have h1 := i6
          rw [g3] at h1
          rw [pow_succ]
          linear_combination h1
        · rw [i7 h, g4 h]; ring
    · refine ⟨q, r, 0, 0, .done _ ?_, hq, hr, .inl ⟨rfl, by omega, id⟩, by push_cast; omega, 0, by simp, fun _ => by simp⟩
      unfold pseudoDivideStep
      have : (((poly r).degreeOf s : ℤ) < (poly v).degreeOf s) := by omega
      simp only [this, if_true]
      simpa using tot_pure (cfg := cfg) _

/-- Pseudo-division of expanded polynomials. If the remainder is zero, the quotient has one factor too many. -/
theorem tot_pseudoDivide (hc : cfg.Ok) {s : Sym} (hs : s.id.Ok) {u v : Expr D} (hu : EP u) (hv : EP v) (h0 : poly v ≠ 0)
    (hbu : ∀ t, ((poly u).degreeOf t : ℤ) < intMax) (hbv : ∀ t, ((poly v).degreeOf t : ℤ) < intMax)
    (hm : 8 * ((poly u).degreeOf s + 1 : ℤ) < Number.unsignedMax)
    {lv : Expr D} (hlt : Tot cfg (fun E => leadingCoeff E (.sym s) v) lv) (hlv : EP lv)
    (hlvp : poly lv = (upoly s (poly v)).coeff ((poly v).degreeOf s))
    (hco : CoefOk cfg.maxPrime lv) (cq : Bool) :
    ∃ q r Q, Tot cfg (fun E => pseudoDivideImpl E u v (.sym s) cq) (q, r) ∧ EP q ∧ EP r ∧
      poly lv ^ ((poly u).degreeOf s + 1 - (poly v).degreeOf s) * poly u = Q * poly v + poly r ∧
      (poly r = 0 ∨ (poly r).degreeOf s < (poly v).degreeOf s) ∧
      (cq = true → (poly r ≠ 0 → poly q = Q) ∧ (poly r = 0 → poly q = poly lv * Q)) := by
  obtain ⟨q, r, k, j, g1, g2, g3, g4, g5, Q, g6, g7⟩ := pseudo_rounds hc hs hv hlv hlvp cq _ (σ := 0) EP.zero.pol hu rfl (hbu s)
  rw [zero_add] at g1
  set b := poly lv with hbdef
  have hb0 : b ≠ 0 := by rw [hlvp]; exact lead_ne_zero h0
  have hlb : b.degreeOf s = 0 := by rw [hlvp]; exact upoly_coeff_free s _ _
  -- the last power
  obtain ⟨δ, hδ⟩ : ∃ δ : ℕ, max (((poly u).degreeOf s : ℤ) - (poly v).degreeOf s + 1) 0 - k = δ := by
    refine ⟨(max (((poly u).degreeOf s : ℤ) - (poly v).degreeOf s + 1) 0 - k).toNat, ?_⟩
    rw [Int.toNat_of_nonneg]
    rcases g4 with ⟨rfl, _⟩ | ⟨rfl, _⟩
    · omega
    · push_cast at g5; omega
  have hδ' : (poly u).degreeOf s + 1 - (poly v).degreeOf s = δ + k := by omega
  obtain ⟨p, p1, p2, p3⟩ := tot_pow_pol hc (k := δ) hlv.pol (by omega) hco
  obtain ⟨a, a1, a2, a3⟩ := tot_prod2 hc (cfg := cfg) p2 g3.pol
  obtain ⟨r', r1, r2, r3⟩ := tot_expand' hc a2
  obtain ⟨q', q1, q2, q3⟩ : ∃ q', Tot cfg (fun E => (if cq then do
        let b ← E.prodCreate [p, q]
        E.expand b
      else pure zero : M D (Expr D))) q' ∧ EP q' ∧ (cq = true → poly q' = b ^ δ * poly q) := by
    cases cq with
    | false => exact ⟨zero, by simp only [Bool.false_eq_true, if_false]; exact tot_pure _, EP.zero, by simp⟩
    | true =>
      obtain ⟨d, d1, d2, d3⟩ := tot_prod2 hc (cfg := cfg) p2 g2
      obtain ⟨e, e1, e2, e3⟩ := tot_expand' hc d2
      refine ⟨e, ?_, e2, fun _ => by rw [e3, d3, p3]⟩
      simp only [if_true]
      exact tot_bind d1 e1
  have hr' : poly r' = b ^ δ * poly r := by rw [r3, a3, p3]
  have hT : Tot cfg (fun E => pseudoDivideImpl E u v (.sym s) cq) (q', r') := by
    unfold pseudoDivideImpl
    refine tot_bind (tot_lift (isPolyInputValid_ep hu hv h0 (fun t => (hbu t).le) fun t => (hbv t).le)) ?_
    simp only [if_true]
    unfold pseudoDivideChecked
    have hvz : v.isZero = false := by rw [Bool.eq_false_iff]; exact fun h => h0 (hv.isZero.1 h)
    refine tot_bind hlt (tot_bind (tot_lift (degree_ep s hv (hbv s))) (tot_bind (tot_expand (tot_expand_ep hc hu))
      (tot_bind (tot_lift (degree_ep s hu (hbu s))) (tot_bind (tot_silent (tot_expand (tot_expand_ep hc hv))) ?_))))
    simp only [hvz, Bool.false_eq_true, if_false]
    refine tot_bind (tot_loop g1) ?_
    simp only [hδ]
    exact tot_bind (tot_pow p1) (tot_bind a1 (tot_bind r1 (tot_bind q1 (tot_pure _))))
  have hq0 : cq = true → poly q = Q := fun h => by rw [g7 h, poly_zero, mul_zero, zero_add]
  rcases g4 with ⟨rfl, hdeg, hne⟩ | ⟨rfl, hr0⟩
  · refine ⟨q', r', b ^ δ * Q, hT, q2, r2, ?_, ?_, fun h => ⟨fun _ => by rw [q3 h, hq0 h], fun h1 => ?_⟩⟩
    · rw [hδ', hr', pow_add, mul_assoc, g6]; ring
    · rcases eq_or_ne (poly r') 0 with h | h
      · exact .inl h
      · right
        rw [hr', degreeOf_mul_ne s (pow_ne_zero _ hb0) (by rintro h2; rw [hr', h2, mul_zero] at h; exact h rfl)]
        have : (b ^ δ).degreeOf s = 0 := by
          rw [degreeOf_pow_ne s hb0, hlb, mul_zero]
        omega
    · have hu0 : poly u = 0 := by
        by_contra hu0
        rw [hr'] at h1
        exact mul_ne_zero (pow_ne_zero _ hb0) (hne hu0) h1
      rw [hu0, mul_zero] at g6
      have hr0 : poly r = 0 := by
        rw [hr'] at h1
        exact (mul_eq_zero.1 h1).resolve_left (pow_ne_zero _ hb0)
      rw [hr0, add_zero] at g6
      have hQ : Q = 0 := (mul_eq_zero.1 g6.symm).resolve_right h0
      rw [q3 h, hq0 h, hQ]; simp
  · obtain ⟨δ, rfl⟩ : ∃ d, δ = d + 1 := ⟨δ - 1, by push_cast at g5; omega⟩
    refine ⟨q', r', b ^ δ * Q, hT, q2, r2, ?_, ?_, fun h => ⟨fun h1 => ?_, fun h1 => ?_⟩⟩
    · rw [hδ', hr', hr0, mul_zero, add_zero]
      rw [hr0, add_zero] at g6
      rw [show δ + 1 + k = δ + (k + 1) by ring, pow_add, mul_assoc, g6]; ring
    · left; rw [hr', hr0, mul_zero]
    · rw [hr', hr0, mul_zero] at h1; exact absurd rfl h1
    · rw [q3 h, hq0 h, pow_succ]; ring

end Tsym
