import Verif.GcdMath

set_option autoImplicit false
set_option linter.unusedSectionVars false
set_option linter.unusedVariables false

/-!
# Helper lemmas for the greatest common divisor: one round of the algorithm, for polynomials in several
symbols
-/

namespace Tsym

open Polynomial

/-- The leading coefficient with respect to a symbol. -/
noncomputable def lcs (s : Sym) (p : MvPolynomial Sym ℚ) : MvPolynomial Sym ℚ := (upoly s p).leadingCoeff

theorem lcs_eq (s : Sym) (p : MvPolynomial Sym ℚ) : lcs s p = (upoly s p).coeff (p.degreeOf s) := by
  rw [lcs, Polynomial.leadingCoeff, upoly_natDegree]

theorem lcs_ne {s : Sym} {p : MvPolynomial Sym ℚ} (h : p ≠ 0) : lcs s p ≠ 0 := by rw [lcs_eq]; exact lead_ne_zero h

theorem lcs_free (s : Sym) (p : MvPolynomial Sym ℚ) : (lcs s p).degreeOf s = 0 := by rw [lcs_eq]; exact upoly_coeff_free _ _ _

theorem lcs_degreeOf (s t : Sym) (p : MvPolynomial Sym ℚ) : (lcs s p).degreeOf t ≤ p.degreeOf t := by rw [lcs_eq]; exact upoly_coeff_degreeOf _ _ _ _

theorem upoly_ne {s : Sym} {p : MvPolynomial Sym ℚ} (h : p ≠ 0) : upoly s p ≠ 0 := fun h' => h (upoly_eq_zero.1 h')

theorem assoc_ne {A : Type*} [MonoidWithZero A] {a b : A} (h : Associated a b) (hb : b ≠ 0) : a ≠ 0 := by
  rintro rfl
  exact hb ((associated_zero_iff_eq_zero b).1 h.symm)

/-- The polynomials at the start: the degrees, and a common divisor of the leading coefficients. -/
structure Start (s : Sym) (u0 v0 g : MvPolynomial Sym ℚ) (d : ℕ) : Prop where
  u : u0 ≠ 0
  v : v0 ≠ 0
  le : v0.degreeOf s ≤ u0.degreeOf s
  ud : ∀ t, u0.degreeOf t ≤ d
  vd : ∀ t, v0.degreeOf t ≤ d
  gu : g ∣ lcs s u0
  gv : g ∣ lcs s v0
  d1 : 1 ≤ d

/-- What holds before a round. -/
structure Rnd (s : Sym) (u0 v0 g : MvPolynomial Sym ℚ) (d : ℕ) (U V lp σ : MvPolynomial Sym ℚ) : Prop where
  inv : Subres.Inv (upoly s u0) (upoly s v0) (upoly s U) (upoly s V) lp σ
  same : SameDiv (upoly s u0) (upoly s v0) (upoly s U) (upoly s V)
  U0 : U ≠ 0
  dvd : g ∣ lcs s V
  le : V.degreeOf s ≤ v0.degreeOf s
  Us : U.degreeOf s ≤ d
  bU : ∀ t, t ≠ s → U.degreeOf t ≤ 2 * d * d
  bV : ∀ t, t ≠ s → V.degreeOf t ≤ 2 * d * d
  blp : ∀ t, lp.degreeOf t ≤ 2 * d * d
  bσ : ∀ t, σ.degreeOf t ≤ 2 * d * d
  psi : ∀ x, Associated (x * σ ^ (U.degreeOf s - V.degreeOf s - 1)) (lcs s V ^ (U.degreeOf s - V.degreeOf s)) → ∀ t, x.degreeOf t ≤ 2 * d * d

section

variable {s : Sym} {u0 v0 g : MvPolynomial Sym ℚ} {d : ℕ}

theorem Rnd.V0 {U V lp σ : MvPolynomial Sym ℚ} (h : Rnd s u0 v0 g d U V lp σ) : V ≠ 0 := fun e => h.inv.ne (upoly_eq_zero.2 e)

theorem Rnd.UV {U V lp σ : MvPolynomial Sym ℚ} (h : Rnd s u0 v0 g d U V lp σ) : V.degreeOf s ≤ U.degreeOf s := by
  have := h.inv.le
  rwa [upoly_natDegree, upoly_natDegree] at this

/-- The start of the algorithm. -/
theorem Rnd.start (h : Start s u0 v0 g d) {σ : MvPolynomial Sym ℚ} (hσ : IsUnit σ) : Rnd s u0 v0 g d u0 v0 1 σ := by
  have hd : d ≤ 2 * d * d := by nlinarith [h.d1]
  refine ⟨Subres.Inv.start (by rw [upoly_natDegree, upoly_natDegree]; exact h.le) (upoly_ne h.v) hσ, fun P _ => Iff.rfl, h.u, h.gv, le_rfl, h.ud s,
    fun t _ => le_trans (h.ud t) hd, fun t _ => le_trans (h.vd t) hd, fun t => by simp [MvPolynomial.degreeOf_one], fun t => by rw [degreeOf_unit hσ]; omega, ?_⟩
  intro x hx t
  have h1 : Associated x (lcs s v0 ^ (u0.degreeOf s - v0.degreeOf s)) :=
    (associated_mul_unit_left x _ (hσ.pow _)).symm.trans hx
  rw [degreeOf_assoc h1, degreeOf_pow_ne t (lcs_ne h.v)]
  have h2 := lcs_degreeOf s t v0
  have h3 := h.vd t
  have h4 := h.ud s
  calc (u0.degreeOf s - v0.degreeOf s) * (lcs s v0).degreeOf t ≤ d * d := Nat.mul_le_mul (by omega) (by omega)
    _ ≤ 2 * d * d := by nlinarith

/-- The equation of the pseudo-division for polynomials in one symbol. -/
theorem prem_upoly {U V Q H : MvPolynomial Sym ℚ} (hle : V.degreeOf s ≤ U.degreeOf s)
    (h : lcs s V ^ (U.degreeOf s + 1 - V.degreeOf s) * U = Q * V + H) :
    C ((upoly s V).leadingCoeff ^ ((upoly s U).natDegree - (upoly s V).natDegree + 1)) * upoly s U = upoly s Q * upoly s V + upoly s H := by
  have h1 := congrArg (upoly s) h
  rw [map_mul, map_pow, map_add, map_mul, upoly_free (lcs_free s V)] at h1
  rw [upoly_natDegree, upoly_natDegree, show U.degreeOf s - V.degreeOf s + 1 = U.degreeOf s + 1 - V.degreeOf s by omega, C_pow]
  exact h1

/-- The last round. -/
theorem Rnd.last {U V lp σ Q : MvPolynomial Sym ℚ} (h : Rnd s u0 v0 g d U V lp σ)
    (e : lcs s V ^ (U.degreeOf s + 1 - V.degreeOf s) * U = Q * V) :
    ∀ P : (MvPolynomial Sym ℚ)[X], P.IsPrimitive → ((P ∣ upoly s u0 ∧ P ∣ upoly s v0) ↔ P ∣ upoly s V) := by
  have h1 := prem_upoly (Q := Q) (H := 0) h.UV (by rw [e, add_zero])
  rw [map_zero, add_zero] at h1
  exact h.same.last (pow_ne_zero _ (leadingCoeff_ne_zero.2 h.inv.ne)) h1

/-- One round. -/
theorem Rnd.step (hs : Start s u0 v0 g d) {U V lp σ Q H b : MvPolynomial Sym ℚ} (h : Rnd s u0 v0 g d U V lp σ)
    (e : lcs s V ^ (U.degreeOf s + 1 - V.degreeOf s) * U = Q * V + H) (hH0 : H ≠ 0) (hH : H.degreeOf s < V.degreeOf s)
    (hb : Associated b (lp * σ ^ (U.degreeOf s - V.degreeOf s))) (hbs : b.degreeOf s = 0) :
    b ≠ 0 ∧ b ∣ H ∧ (∀ t, H.degreeOf t ≤ 2 * d * d * (d + 2)) ∧ ∀ V', H = V' * b → V' ≠ 0 ∧ V'.degreeOf s < V.degreeOf s ∧
      σ ^ (U.degreeOf s - V.degreeOf s - 1) ∣ lcs s V ^ (U.degreeOf s - V.degreeOf s) ∧
      (∀ t, V'.degreeOf t ≤ H.degreeOf t) ∧
      (∀ t, t ≠ s → V'.degreeOf t ≤ 2 * d * d) ∧
      (∀ t, t ≠ s → u0.degreeOf t = 0 → v0.degreeOf t = 0 → V'.degreeOf t = 0) ∧
      ∀ σ', Associated (σ' * σ ^ (U.degreeOf s - V.degreeOf s - 1)) (lcs s V ^ (U.degreeOf s - V.degreeOf s)) → Rnd s u0 v0 g d V V' (lcs s V) σ' := by
  have hd := hs.d1
  have hp := prem_upoly h.UV e
  have hHn : (upoly s H).natDegree < (upoly s V).natDegree := by rw [upoly_natDegree, upoly_natDegree]; exact hH
  have hb' : Associated b (lp * σ ^ ((upoly s U).natDegree - (upoly s V).natDegree)) := by rw [upoly_natDegree, upoly_natDegree]; exact hb
  obtain ⟨F', f1, f2⟩ := h.inv.beta hHn hp hb'
  have hb0 : b ≠ 0 := assoc_ne hb (mul_ne_zero h.inv.lp0 (pow_ne_zero _ h.inv.s0))
  have hCb : upoly s b = C b := upoly_free hbs
  have hbH : b ∣ H := by rw [← upoly_dvd (s := s), hCb]; exact ⟨F', f1⟩
  have hub := hs.ud s
  have hvb := hs.vd s
  have hVle := h.le
  have key : ∀ V', H = V' * b → upoly s V' = F' := by
    intro V' hV'
    rw [hV', map_mul, hCb, mul_comm] at f1
    exact mul_left_cancel₀ (by rw [Ne, C_eq_zero]; exact hb0) f1
  have hF' : ∀ t, YB t (2 * d * d) F' := by
    intro t
    refine (YB.subres (m := (upoly s u0).natDegree) (n := (upoly s v0).natDegree) (j := (upoly s V).natDegree - 1)
      (YB.upoly (s := s) (hs.ud t)) (YB.upoly (s := s) (hs.vd t))).assoc f2 |>.mono ?_
    simp only [upoly_natDegree]
    exact Nat.mul_le_mul (by omega) le_rfl
  have hV'b : ∀ V', H = V' * b → ∀ t, t ≠ s → V'.degreeOf t ≤ 2 * d * d := by
    intro V' hV' t ht
    refine degreeOf_of_coeffs ht ?_
    rw [key V' hV']; exact hF' t
  have hV'z : ∀ V', H = V' * b → ∀ t, t ≠ s → u0.degreeOf t = 0 → v0.degreeOf t = 0 → V'.degreeOf t = 0 := by
    intro V' hV' t ht h1 h2
    refine Nat.le_zero.1 (degreeOf_of_coeffs ht ?_)
    rw [key V' hV']
    exact (YB.subres (m := (upoly s u0).natDegree) (n := (upoly s v0).natDegree) (j := (upoly s V).natDegree - 1)
      (YB.upoly (s := s) h1.le) (YB.upoly (s := s) h2.le)).assoc f2 |>.mono (by rw [mul_zero])
  have hbb : ∀ t, b.degreeOf t ≤ 2 * d * d + d * (2 * d * d) := by
    intro t
    rw [degreeOf_assoc hb, degreeOf_mul_ne t h.inv.lp0 (pow_ne_zero _ h.inv.s0), degreeOf_pow_ne t h.inv.s0]
    refine Nat.add_le_add (h.blp t) (Nat.mul_le_mul ?_ (h.bσ t))
    have := h.Us; omega
  obtain ⟨V1, hV1⟩ := hbH
  have hV1' : H = V1 * b := by rw [hV1, mul_comm]
  have hV10 : V1 ≠ 0 := by rintro rfl; rw [zero_mul] at hV1'; exact hH0 hV1'
  refine ⟨hb0, ⟨V1, hV1⟩, fun t => ?_, fun V' hV' => ?_⟩
  · by_cases hts : t = s
    · subst hts
      have : d * 1 ≤ d * (2 * d * (d + 2)) := Nat.mul_le_mul le_rfl (by nlinarith)
      have h7 : 2 * d * d * (d + 2) = d * (2 * d * (d + 2)) := by ring
      rw [h7]
      omega
    · rw [hV1', degreeOf_mul_ne t hV10 hb0]
      have h1 := hV'b V1 hV1' t hts
      have h2 := hbb t
      calc _ ≤ 2 * d * d + (2 * d * d + d * (2 * d * d)) := Nat.add_le_add h1 h2
        _ = 2 * d * d * (d + 2) := by ring
  · have hV'0 : V' ≠ 0 := by rintro rfl; rw [zero_mul] at hV'; exact hH0 hV'
    have hkey := key V' hV'
    have hdeg : V'.degreeOf s = H.degreeOf s := by rw [hV', degreeOf_mul_ne s hV'0 hb0, hbs, add_zero]
    have hpsi := h.inv.psi
    rw [upoly_natDegree, upoly_natDegree] at hpsi
    refine ⟨hV'0, by omega, hpsi, fun t => by rw [hV', degreeOf_mul_ne t hV'0 hb0]; omega, hV'b V' hV', hV'z V' hV', fun σ' hσ' => ?_⟩
    have hσ'' : Associated (σ' * σ ^ ((upoly s U).natDegree - (upoly s V).natDegree - 1)) ((upoly s V).leadingCoeff ^ ((upoly s U).natDegree - (upoly s V).natDegree)) := by
      rw [upoly_natDegree, upoly_natDegree]; exact hσ'
    obtain ⟨n1, n2⟩ := h.inv.next hHn (upoly_ne hH0) hp hb' f1 hσ''
    rw [← hkey] at n1 n2
    refine ⟨n1, ?_, h.V0, ?_, by omega, by omega, h.bV, hV'b V' hV', fun t => ?_, h.psi σ' hσ', fun x hx t => ?_⟩
    · refine h.same.next (c := (upoly s V).leadingCoeff ^ ((upoly s U).natDegree - (upoly s V).natDegree + 1)) (b := b) (Q := upoly s Q)
        (pow_ne_zero _ (leadingCoeff_ne_zero.2 h.inv.ne)) hb0 ?_
      rw [hp, hkey, ← f1]
    · have h1 : C g ∣ upoly s V' := by
        rw [hkey]
        refine Dvd.dvd.trans ?_ f2.symm.dvd
        refine Subres.S_dvd _ _ _ _ _ ?_ ?_ le_rfl le_rfl _ hs.gu hs.gv
        · rw [upoly_natDegree, upoly_natDegree]; omega
        · rw [upoly_natDegree, upoly_natDegree]; have := hs.le; omega
      exact (C_dvd_iff_dvd_coeff _ _).1 h1 _
    · by_cases hts : t = s
      · subst hts; rw [lcs_free]; omega
      · exact le_trans (lcs_degreeOf s t V) (h.bV t hts)
    · have h1 := Subres.psi_coeff (F' := upoly s V') (n := (upoly s V).natDegree) (by rw [upoly_natDegree, upoly_natDegree]; omega) n1.s0 n2 (by
        rw [upoly_natDegree, upoly_natDegree]; exact hx)
      rw [degreeOf_assoc h1]
      refine ((YB.subres (m := (upoly s u0).natDegree) (n := (upoly s v0).natDegree) (j := (upoly s V').natDegree)
        (YB.upoly (s := s) (hs.ud t)) (YB.upoly (s := s) (hs.vd t))).mono ?_) _
      simp only [upoly_natDegree]
      exact Nat.mul_le_mul (by omega) le_rfl

/-- The division of the last polynomial by its leading coefficient divided by `g` is exact. -/
theorem last_dvd (hg : IsGcd g (lcs s u0) (lcs s v0)) {W : MvPolynomial Sym ℚ} (hW : W ≠ 0)
    (hG : ∀ P : (MvPolynomial Sym ℚ)[X], P.IsPrimitive → ((P ∣ upoly s u0 ∧ P ∣ upoly s v0) ↔ P ∣ upoly s W)) {t1 : MvPolynomial Sym ℚ}
    (ht1 : lcs s W = t1 * g) : t1 ∣ W ∧ ∀ T, W = T * t1 → T ∣ g * u0 := by
  classical
  let _ : NormalizationMonoid (MvPolynomial Sym ℚ) := UniqueFactorizationMonoid.strongNormalizationMonoid.toNormalizationMonoid
  let _ : NormalizedGCDMonoid (MvPolynomial Sym ℚ) := UniqueFactorizationMonoid.toNormalizedGCDMonoid _
  have hfree : t1.degreeOf s = 0 := by
    have h1 := degreeOf_dvd s (lcs_ne (s := s) hW) ⟨g, ht1⟩
    rw [lcs_free] at h1; omega
  have hgfree : g.degreeOf s = 0 := by
    have h1 := degreeOf_dvd s (lcs_ne (s := s) hW) ⟨t1, by rw [ht1, mul_comm]⟩
    rw [lcs_free] at h1; omega
  have ht10 : t1 ≠ 0 := by rintro rfl; rw [zero_mul] at ht1; exact lcs_ne hW ht1
  set P := (upoly s W).primPart with hPdef
  have hP := (upoly s W).isPrimitive_primPart
  have hc := (upoly s W).eq_C_content_mul_primPart
  obtain ⟨h1, h2⟩ := (hG P hP).2 (upoly s W).primPart_dvd
  have hl1 : P.leadingCoeff ∣ lcs s u0 := by
    obtain ⟨w, hw⟩ := h1
    exact ⟨w.leadingCoeff, by rw [lcs, hw, leadingCoeff_mul]⟩
  have hl2 : P.leadingCoeff ∣ lcs s v0 := by
    obtain ⟨w, hw⟩ := h2
    exact ⟨w.leadingCoeff, by rw [lcs, hw, leadingCoeff_mul]⟩
  obtain ⟨k, hk⟩ := hg.greatest _ hl1 hl2
  have hlP : P.leadingCoeff ≠ 0 := leadingCoeff_ne_zero.2 hP.ne_zero
  have hcont : (upoly s W).content = k * t1 := by
    have h3 : lcs s W = (upoly s W).content * P.leadingCoeff := by
      conv_lhs => rw [lcs, hc]
      rw [leadingCoeff_mul, leadingCoeff_C]
    rw [h3, hk] at ht1
    exact mul_right_cancel₀ hlP (by rw [ht1]; ring)
  have hWt : upoly s W = C t1 * (C k * P) := by
    rw [hc, hcont, C_mul]; ring
  have hdvd : t1 ∣ W := by
    rw [← upoly_dvd (s := s), upoly_free hfree]; exact ⟨_, hWt⟩
  refine ⟨hdvd, fun T hT => ?_⟩
  have hTk : upoly s T = C k * P := by
    have h4 := congrArg (upoly s) hT
    rw [map_mul, upoly_free hfree, mul_comm, hWt] at h4
    exact (mul_left_cancel₀ (by rw [Ne, C_eq_zero]; exact ht10) h4).symm
  rw [← upoly_dvd (s := s), hTk, map_mul, upoly_free hgfree]
  exact mul_dvd_mul (map_dvd C ⟨P.leadingCoeff, by rw [hk, mul_comm]⟩) h1

end

end Tsym
