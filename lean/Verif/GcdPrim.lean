import Verif.GcdAlgo
import Verif.PrimGcd

set_option autoImplicit false
set_option linter.unusedSectionVars false
set_option linter.unusedSimpArgs false
set_option linter.unusedVariables false

/-!
# Helper lemmas for the greatest common divisor: the algorithm with primitive remainders

The remainders divide those of the subresultant algorithm, up to factors without the main symbol. So the
bounds for the degrees hold here as well.
-/

namespace Tsym

open Polynomial in
/-- A factor of a multiple of a primitive polynomial. -/
theorem C_dvd_prim {β x : MvPolynomial Sym ℚ} {P : (MvPolynomial Sym ℚ)[X]} (hP : P.IsPrimitive) (h : C β ∣ C x * P) : β ∣ x := by
  classical
  let _ : NormalizationMonoid (MvPolynomial Sym ℚ) := UniqueFactorizationMonoid.strongNormalizationMonoid.toNormalizationMonoid
  let _ : NormalizedGCDMonoid (MvPolynomial Sym ℚ) := UniqueFactorizationMonoid.toNormalizedGCDMonoid _
  have h1 := dvd_content_iff_C_dvd.2 h
  have h2 := h1.trans (associated_content_C_mul x P).dvd
  rwa [hP.content_eq_one, mul_one] at h2

theorem lcs_mul_free {s : Sym} {b V : MvPolynomial Sym ℚ} (hb : b.degreeOf s = 0) : lcs s (b * V) = b * lcs s V := by
  rw [lcs, lcs, map_mul, upoly_free hb, Polynomial.leadingCoeff_mul, Polynomial.leadingCoeff_C]

/-- A state of the algorithm with primitive remainders, beside one of the subresultant algorithm. -/
structure PRnd (s : Sym) (u0 v0 : MvPolynomial Sym ℚ) (d : ℕ) (U' V' lp σ U V : MvPolynomial Sym ℚ) : Prop where
  rnd : Rnd s u0 v0 1 d U' V' lp σ
  U : ∃ a, U' = a * U ∧ a.degreeOf s = 0
  V : ∃ b, V' = b * V ∧ b.degreeOf s = 0
  lps : lp.degreeOf s = 0
  σs : σ.degreeOf s = 0
  free : ∀ t, t ≠ s → u0.degreeOf t = 0 → v0.degreeOf t = 0 → U'.degreeOf t = 0 ∧ V'.degreeOf t = 0 ∧ lp.degreeOf t = 0 ∧ σ.degreeOf t = 0

section

variable {s : Sym} {u0 v0 : MvPolynomial Sym ℚ} {d : ℕ} {U' V' lp σ U V : MvPolynomial Sym ℚ}

theorem PRnd.start (h : Start s u0 v0 1 d) : PRnd s u0 v0 d u0 v0 1 1 u0 v0 :=
  ⟨Rnd.start h isUnit_one, ⟨1, by rw [one_mul], by simp [MvPolynomial.degreeOf_one]⟩, ⟨1, by rw [one_mul], by simp [MvPolynomial.degreeOf_one]⟩, by simp [MvPolynomial.degreeOf_one],
    by simp [MvPolynomial.degreeOf_one], fun t _ h1 h2 => ⟨h1, h2, by simp [MvPolynomial.degreeOf_one], by simp [MvPolynomial.degreeOf_one]⟩⟩

/-- The degrees of a state. -/
theorem PRnd.le (hst : Start s u0 v0 1 d) (h : PRnd s u0 v0 d U' V' lp σ U V) :
    U ≠ 0 ∧ V ≠ 0 ∧ (∀ t, U.degreeOf t ≤ 2 * d * d) ∧ (∀ t, V.degreeOf t ≤ 2 * d * d) ∧ U.degreeOf s ≤ d ∧ V.degreeOf s ≤ U.degreeOf s ∧
      U'.degreeOf s = U.degreeOf s ∧ V'.degreeOf s = V.degreeOf s := by
  obtain ⟨a, ha, has⟩ := h.U
  obtain ⟨b, hb, hbs⟩ := h.V
  have hU0 : U ≠ 0 := by rintro rfl; exact h.rnd.U0 (by rw [ha, mul_zero])
  have hV0 : V ≠ 0 := by rintro rfl; exact h.rnd.V0 (by rw [hb, mul_zero])
  have ha0 : a ≠ 0 := by rintro rfl; exact h.rnd.U0 (by rw [ha, zero_mul])
  have hb0 : b ≠ 0 := by rintro rfl; exact h.rnd.V0 (by rw [hb, zero_mul])
  have e1 : U'.degreeOf s = U.degreeOf s := by rw [ha, degreeOf_mul_ne s ha0 hU0, has, zero_add]
  have e2 : V'.degreeOf s = V.degreeOf s := by rw [hb, degreeOf_mul_ne s hb0 hV0, hbs, zero_add]
  have hUb := deg_all hst.d1 h.rnd.Us h.rnd.bU
  have hVb := deg_all hst.d1 (le_trans h.rnd.UV h.rnd.Us) h.rnd.bV
  refine ⟨hU0, hV0, fun t => le_trans (degreeOf_dvd t h.rnd.U0 ⟨a, by rw [ha, mul_comm]⟩) (hUb t), fun t => le_trans (degreeOf_dvd t h.rnd.V0 ⟨b, by rw [hb, mul_comm]⟩) (hVb t),
    by rw [← e1]; exact h.rnd.Us, by rw [← e1, ← e2]; exact h.rnd.UV, e1, e2⟩

/-- The equation for the other algorithm. -/
theorem PRnd.eq (hst : Start s u0 v0 1 d) (h : PRnd s u0 v0 d U' V' lp σ U V) {Q r : MvPolynomial Sym ℚ}
    (e : lcs s V ^ (U.degreeOf s + 1 - V.degreeOf s) * U = Q * V + r) :
    ∃ x Q', x ≠ 0 ∧ x.degreeOf s = 0 ∧ lcs s V' ^ (U'.degreeOf s + 1 - V'.degreeOf s) * U' = Q' * V' + x * r := by
  obtain ⟨-, -, -, -, -, hle, e1, e2⟩ := h.le hst
  obtain ⟨a, ha, has⟩ := h.U
  obtain ⟨b, hb, hbs⟩ := h.V
  have ha0 : a ≠ 0 := by rintro rfl; exact h.rnd.U0 (by rw [ha, zero_mul])
  have hb0 : b ≠ 0 := by rintro rfl; exact h.rnd.V0 (by rw [hb, zero_mul])
  obtain ⟨j, hj⟩ : ∃ j, U.degreeOf s + 1 - V.degreeOf s = j + 1 := ⟨U.degreeOf s - V.degreeOf s, by omega⟩
  rw [hj] at e
  refine ⟨a * b ^ (j + 1), a * b ^ j * Q, mul_ne_zero ha0 (pow_ne_zero _ hb0), ?_, ?_⟩
  · rw [degreeOf_mul_ne s ha0 (pow_ne_zero _ hb0), degreeOf_pow_ne s hb0, has, hbs, mul_zero, add_zero]
  · rw [e1, e2, hj, ha, hb, lcs_mul_free hbs]
    linear_combination (a * b ^ (j + 1)) * e

/-- One round. -/
theorem PRnd.step (hst : Start s u0 v0 1 d) (h : PRnd s u0 v0 d U' V' lp σ U V) {Q r : MvPolynomial Sym ℚ}
    (e : lcs s V ^ (U.degreeOf s + 1 - V.degreeOf s) * U = Q * V + r) (hr0 : r ≠ 0) (hrs : r.degreeOf s < V.degreeOf s) :
    (∀ t, r.degreeOf t ≤ 2 * d * d * (d + 2)) ∧ (∀ t, t ≠ s → u0.degreeOf t = 0 → v0.degreeOf t = 0 → r.degreeOf t = 0) ∧
      ∀ c P, r = P * c → c.degreeOf s = 0 → (upoly s P).IsPrimitive → ∃ V'' lp'' σ'', PRnd s u0 v0 d V' V'' lp'' σ'' V P := by
  obtain ⟨x, Q', hx0, hxs, e'⟩ := h.eq hst e
  obtain ⟨-, -, -, -, -, -, e1, e2⟩ := h.le hst
  have hH0 : x * r ≠ 0 := mul_ne_zero hx0 hr0
  have hHs : (x * r).degreeOf s < V'.degreeOf s := by rw [degreeOf_mul_ne s hx0 hr0, hxs, zero_add, e2]; exact hrs
  have hlp0 := h.rnd.inv.lp0
  have hσ0 := h.rnd.inv.s0
  set β := lp * σ ^ (U'.degreeOf s - V'.degreeOf s) with hβ
  have hβd : ∀ t, lp.degreeOf t = 0 → σ.degreeOf t = 0 → β.degreeOf t = 0 := by
    intro t h1 h2
    rw [hβ, degreeOf_mul_ne t hlp0 (pow_ne_zero _ hσ0), degreeOf_pow_ne t hσ0, h1, h2, mul_zero, add_zero]
  have hβs := hβd s h.lps h.σs
  obtain ⟨b0, ⟨V'', hV''⟩, hb1, hnext⟩ := h.rnd.step hst e' hH0 hHs (Associated.refl β) hβs
  have hV''' : x * r = V'' * β := by rw [hV'', mul_comm]
  obtain ⟨n0, n1, n2, n3, n4, n5, n6⟩ := hnext V'' hV'''
  have hrH : ∀ t, r.degreeOf t ≤ (x * r).degreeOf t := fun t => degreeOf_dvd t hH0 (dvd_mul_left r x)
  have hfree : ∀ t, t ≠ s → u0.degreeOf t = 0 → v0.degreeOf t = 0 → r.degreeOf t = 0 := by
    intro t ht h1 h2
    obtain ⟨f1, f2, f3, f4⟩ := h.free t ht h1 h2
    have := hrH t
    rw [hV''', degreeOf_mul_ne t n0 b0, n5 t ht h1 h2, hβd t f3 f4] at this
    omega
  refine ⟨fun t => le_trans (hrH t) (hb1 t), hfree, fun c P hrP hcs hP => ?_⟩
  have hV'0 := h.rnd.V0
  have hl0 : lcs s V' ≠ 0 := lcs_ne hV'0
  obtain ⟨σ', hσ'⟩ := n2
  have hσ'0 : σ' ≠ 0 := by rintro rfl; rw [mul_zero] at hσ'; exact pow_ne_zero _ hl0 hσ'
  have hσ't : ∀ t, (lcs s V').degreeOf t = 0 → σ'.degreeOf t = 0 := by
    intro t ht
    have := degreeOf_dvd t (pow_ne_zero _ hl0) ⟨σ ^ (U'.degreeOf s - V'.degreeOf s - 1), by rw [hσ', mul_comm]⟩
    rw [degreeOf_pow_ne t hl0, ht, mul_zero] at this
    omega
  have hxc0 : x * c ≠ 0 := by
    refine mul_ne_zero hx0 ?_
    rintro rfl
    rw [mul_zero] at hrP; exact hr0 hrP
  have hxcs : (x * c).degreeOf s = 0 := by
    rw [degreeOf_mul_ne s hx0 (right_ne_zero_of_mul hxc0), hxs, hcs, add_zero]
  have hd1 : β ∣ x * c := by
    refine C_dvd_prim hP ?_
    have h1 : upoly s (x * r) = Polynomial.C β * upoly s V'' := by rw [hV''', map_mul, upoly_free hβs, mul_comm]
    have h2 : upoly s (x * r) = Polynomial.C (x * c) * upoly s P := by
      rw [hrP, show x * (P * c) = (x * c) * P by ring, map_mul, upoly_free hxcs]
    rw [← h2, h1]
    exact dvd_mul_right _ _
  obtain ⟨w, hw⟩ := hd1
  have hw0 : w ≠ 0 := by rintro rfl; rw [mul_zero] at hw; exact hxc0 hw
  refine ⟨V'', lcs s V', σ', ⟨n6 σ' (by rw [hσ', mul_comm]), h.V, ⟨w, ?_, ?_⟩, lcs_free _ _, hσ't s (lcs_free _ _), fun t ht h1 h2 => ?_⟩⟩
  · refine mul_left_cancel₀ b0 ?_
    rw [mul_comm, ← hV''', hrP]
    linear_combination P * hw
  · have := degreeOf_dvd s hxc0 ⟨β, by rw [hw, mul_comm]⟩
    rw [hxcs] at this; omega
  · obtain ⟨f1, f2, f3, f4⟩ := h.free t ht h1 h2
    have h3 : (lcs s V').degreeOf t = 0 := by have := lcs_degreeOf s t V'; omega
    exact ⟨f2, n5 t ht h1 h2, h3, hσ't t h3⟩

/-- The last round. -/
theorem PRnd.last (hst : Start s u0 v0 1 d) (h : PRnd s u0 v0 d U' V' lp σ U V) {Q : MvPolynomial Sym ℚ}
    (e : lcs s V ^ (U.degreeOf s + 1 - V.degreeOf s) * U = Q * V) :
    ∀ P : Polynomial (MvPolynomial Sym ℚ), P.IsPrimitive → ((P ∣ upoly s u0 ∧ P ∣ upoly s v0) ↔ P ∣ upoly s V) := by
  obtain ⟨x, Q', -, -, e'⟩ := h.eq hst (r := 0) (by rw [e, add_zero])
  rw [mul_zero, add_zero] at e'
  intro P hP
  rw [h.rnd.last e' P hP]
  obtain ⟨b, hb, hbs⟩ := h.V
  have hb0 : b ≠ 0 := by rintro rfl; exact h.rnd.V0 (by rw [hb, zero_mul])
  rw [hb, map_mul, upoly_free hbs]
  exact ⟨fun h => prim_dvd hP hb0 h, fun h => h.mul_left _⟩

end

open Expr

variable {D : Type} [Flt D] [ExactLt D] {cfg : Cfg D}

theorem primStep_stop {x : Expr D} {L : List (Expr D)} {u v : Expr D} (h : v.isZero = true) :
    Rts cfg (fun E => primStep E x L (u, v)) (.inr (some u)) := by
  unfold primStep
  simp only [h, if_true]
  exact (tot_pure _).rts

theorem primStep_zero {x : Expr D} {L : List (Expr D)} {u v r : Expr D} (h : v.isZero = false)
    (h1 : Rts cfg (fun E => pseudoRemainder E u v x) r) (h2 : r.isZero = true) :
    Rts cfg (fun E => primStep E x L (u, v)) (.inl (v, zero)) := by
  unfold primStep
  simp only [h, Bool.false_eq_true, if_false]
  refine rts_bind h1 ?_
  simp only [h2, if_true]
  exact (tot_pure _).rts

theorem primStep_next {x : Expr D} {L : List (Expr D)} {u v r c : Expr D} {q : Expr D × Expr D} (h : v.isZero = false)
    (h1 : Rts cfg (fun E => pseudoRemainder E u v x) r) (h2 : r.isZero = false) (h3 : r.isUndefined = false)
    (h4 : Rts cfg (fun E => polyContent E r x) c) (h5 : Rts cfg (fun E => E.divideL r c L) q) :
    Rts cfg (fun E => primStep E x L (u, v)) (.inl (v, q.1)) := by
  unfold primStep
  simp only [h, Bool.false_eq_true, if_false]
  refine rts_bind h1 ?_
  simp only [h2, h3, Bool.false_eq_true, if_false]
  exact rts_bind h4 (rts_bind h5 (tot_pure _).rts)

/-- What is known of the result of the loop. -/
structure PrimEnd (s : Sym) (u0 v0 : MvPolynomial Sym ℚ) (w : Expr D) : Prop where
  ep : EP w
  ne : poly w ≠ 0
  prim : (upoly s (poly w)).IsPrimitive
  gcd : ∀ P : Polynomial (MvPolynomial Sym ℚ), P.IsPrimitive → ((P ∣ upoly s u0 ∧ P ∣ upoly s v0) ↔ P ∣ upoly s (poly w))

theorem isZero_false {e : Expr D} (h : EP e) (h0 : poly e ≠ 0) : e.isZero = false := by
  rw [Bool.eq_false_iff]; exact fun h' => h0 (h.isZero.1 h')

/-- The pseudo-remainder. -/
theorem tot_prem (hc : cfg.Ok) (hp : cfg.maxPrime < 324) {s : Sym} (hs : s.id.Ok) {u v : Expr D} (hu : EP u) (hv : EP v) (hv0 : poly v ≠ 0)
    (hub : ∀ t, ((poly u).degreeOf t : ℤ) < intMax) (hvb : ∀ t, ((poly v).degreeOf t : ℤ) < intMax) (hm : 8 * (((poly u).degreeOf s : ℤ) + 1) < Number.unsignedMax) :
    ∃ r Q, Tot cfg (fun E => pseudoRemainder E u v (.sym s)) r ∧ EP r ∧
      lcs s (poly v) ^ ((poly u).degreeOf s + 1 - (poly v).degreeOf s) * poly u = Q * poly v + poly r ∧
      (poly r = 0 ∨ (poly r).degreeOf s < (poly v).degreeOf s) := by
  obtain ⟨lv, l1, l2, l3⟩ := tot_lead hc s hv (hvb s)
  obtain ⟨q, r, Q, h1, -, h2, h3, h4, -⟩ := tot_pseudoDivide hc hs hu hv hv0 hub hvb hm l1 l2 l3 (coefOk_small hp _) false
  refine ⟨r, Q, ?_, h2, by rw [lcs_eq, ← l3]; exact h3, h4⟩
  unfold pseudoRemainder
  exact tot_bind h1 (tot_pure _)

theorem prim_rounds (hc : cfg.Ok) (hp : cfg.maxPrime < 324) {s : Sym} {R : List Sym} (hs : ∀ x ∈ s :: R, x.id.Ok) {d : ℕ}
    (hn : GcdAt cfg R.length (2 * d * d * (d + 2))) {u0 v0 : MvPolynomial Sym ℚ} (hst : Start s u0 v0 1 d)
    (hu0 : ∀ t, t ∉ s :: R → u0.degreeOf t = 0) (hv0 : ∀ t, t ∉ s :: R → v0.degreeOf t = 0)
    (hd : ((2 * d * d * (d + 2) : ℕ) : ℤ) < intMax) (hm : 8 * ((d : ℤ) + 1) < Number.unsignedMax) (m : ℕ) :
    ∀ (u v : Expr D) (U' V' lp σ : MvPolynomial Sym ℚ), EP u → EP v → PRnd s u0 v0 d U' V' lp σ (poly u) (poly v) → (upoly s (poly v)).IsPrimitive →
    (poly v).degreeOf s = m →
    ∃ w, RoundsT cfg (fun E => primStep E (.sym s) ((s :: R).map .sym)) (some w) (u, v) ∧ PrimEnd s u0 v0 w := by
  induction m using Nat.strong_induction_on with
  | _ m ih =>
    intro u v U' V' lp σ hu hv h hprim hmv
    obtain ⟨hU0, hV0, hUb, hVb, hUd, hle, -, -⟩ := h.le hst
    have hbl := bound_le (d := d)
    obtain ⟨r, Q, r1, r2, r3, r4⟩ := tot_prem hc hp (hs s (by simp)) hu hv hV0 (fun t => by have := hUb t; omega) (fun t => by have := hVb t; omega) (by omega)
    have hvz := isZero_false hv hV0
    by_cases hr0 : poly r = 0
    · refine ⟨v, .next _ _ (primStep_zero hvz r1.rts (r2.isZero.2 hr0)) (.done _ (primStep_stop (EP.zero.isZero.2 poly_zero))), hv, hV0, hprim, h.last hst (by rw [r3, hr0, add_zero])⟩
    · obtain ⟨s1, s2, s3⟩ := h.step hst r3 hr0 (r4.resolve_left hr0)
      have hrL : ∀ t, t ∉ s :: R → (poly r).degreeOf t = 0 := fun t ht => s2 t (fun e => ht (by simp [e])) (hu0 t ht) (hv0 t ht)
      obtain ⟨c, c1, c2, c3⟩ := polyContent_ok hc hn hd le_rfl r2 hr0 s1 hrL
      obtain ⟨cn, cs, cd, ct⟩ := c3.degrees hr0
      obtain ⟨q, q1, q2, q3⟩ := divideL_exact hc (s :: R) r c hs r2 c2 hr0 cd (coeffsOk_small hp _) (fun t => by have := s1 t; omega) hrL
      have hqp : (upoly s (poly q)).IsPrimitive := c3.prim (upoly_ne hr0) (by rw [q3, map_mul, upoly_free cs, mul_comm])
      obtain ⟨V'', lp'', σ'', hnext⟩ := s3 _ _ q3 cs hqp
      have hq0 : poly q ≠ 0 := by intro h'; rw [h', zero_mul] at q3; exact hr0 q3
      have hdq : (poly q).degreeOf s = (poly r).degreeOf s := by rw [q3, degreeOf_mul_ne s hq0 cn, cs, add_zero]
      obtain ⟨w, w1, w2⟩ := ih _ (by rw [hdq, ← hmv]; exact r4.resolve_left hr0) v q _ _ _ _ hv q2 hnext hqp rfl
      exact ⟨w, .next _ _ (primStep_next hvz r1.rts (isZero_false r2 hr0) r2.isUndefined c1 q1) w1, w2⟩

/-- The loop. -/
theorem prim_loop (hc : cfg.Ok) (hp : cfg.maxPrime < 324) {s : Sym} {R : List Sym} (hs : ∀ x ∈ s :: R, x.id.Ok) {d : ℕ} (h1d : 1 ≤ d)
    (hn : GcdAt cfg R.length (2 * d * d * (d + 2))) {u v : Expr D} (hu : EP u) (hv : EP v) (hu0 : poly u ≠ 0) (hv0 : poly v ≠ 0)
    (hud : ∀ t, (poly u).degreeOf t ≤ d) (hvd : ∀ t, (poly v).degreeOf t ≤ d)
    (huL : ∀ t, t ∉ s :: R → (poly u).degreeOf t = 0) (hvL : ∀ t, t ∉ s :: R → (poly v).degreeOf t = 0)
    (hvp : (upoly s (poly v)).IsPrimitive)
    (hd : ((2 * d * d * (d + 2) : ℕ) : ℤ) < intMax) (hm : 8 * ((d : ℤ) + 1) < Number.unsignedMax) :
    ∃ w, Rts cfg (fun E => M.loop E.steps (primStep E (.sym s) ((s :: R).map .sym)) (u, v)) (some w) ∧ PrimEnd s (poly u) (poly v) w := by
  have hdl : d ≤ 2 * d * d * (d + 2) := by nlinarith [bound_le (d := d)]
  by_cases hle : (poly v).degreeOf s ≤ (poly u).degreeOf s
  · have hst : Start s (poly u) (poly v) 1 d := ⟨hu0, hv0, hle, hud, hvd, one_dvd _, one_dvd _, h1d⟩
    obtain ⟨w, w1, w2⟩ := prim_rounds hc hp hs hn hst huL hvL hd hm _ u v _ _ _ _ hu hv (PRnd.start hst) hvp rfl
    exact ⟨w, rts_loop w1, w2⟩
  · obtain ⟨r, Q, r1, r2, r3, r4⟩ := tot_prem hc hp (hs s (by simp)) hu hv hv0 (fun t => by have := hud t; omega) (fun t => by have := hvd t; omega) (by have := hud s; omega)
    have hru : poly r = poly u := by
      rw [show (poly u).degreeOf s + 1 - (poly v).degreeOf s = 0 by omega, pow_zero, one_mul] at r3
      by_cases hQ : Q = 0
      · rw [r3, hQ, zero_mul, zero_add]
      · exfalso
        have h1 : Q * poly v = poly u - poly r := by rw [r3]; ring
        have h2 : (poly u - poly r).degreeOf s < (poly v).degreeOf s := by
          refine lt_of_le_of_lt (MvPolynomial.degreeOf_sub_le _ _ _) (max_lt (by omega) ?_)
          rcases r4 with h | h
          · rw [h, MvPolynomial.degreeOf_zero]; omega
          · exact h
        rw [← h1, degreeOf_mul_ne s hQ hv0] at h2
        omega
    have hr0 : poly r ≠ 0 := by rw [hru]; exact hu0
    obtain ⟨c, c1, c2, c3⟩ := polyContent_ok hc hn hd le_rfl r2 hr0 (fun t => by rw [hru]; exact le_trans (hud t) hdl) (by rw [hru]; exact huL)
    obtain ⟨cn, cs, cd, ct⟩ := c3.degrees hr0
    obtain ⟨q, q1, q2, q3⟩ := divideL_exact hc (s :: R) r c hs r2 c2 hr0 cd (coeffsOk_small hp _) (fun t => by rw [hru]; have := hud t; omega) (by rw [hru]; exact huL)
    have eq : upoly s (poly u) = Polynomial.C (poly c) * upoly s (poly q) := by rw [← hru, q3, map_mul, upoly_free cs, mul_comm]
    have hqp : (upoly s (poly q)).IsPrimitive := c3.prim (upoly_ne hr0) (by rw [hru]; exact eq)
    have hq0 : poly q ≠ 0 := by intro h'; rw [h', zero_mul] at q3; exact hr0 q3
    have hqt : ∀ t, (poly q).degreeOf t ≤ (poly u).degreeOf t := fun t => by rw [← hru]; exact degreeOf_dvd t hr0 ⟨_, q3⟩
    have hst : Start s (poly v) (poly q) 1 d :=
      ⟨hv0, hq0, by have := hqt s; omega, hvd, fun t => le_trans (hqt t) (hud t), one_dvd _, one_dvd _, h1d⟩
    obtain ⟨w, w1, w2⟩ := prim_rounds hc hp hs hn hst hvL (fun t ht => by have := hqt t; rw [huL t ht] at this; omega) hd hm _ v q _ _ _ _ hv q2 (PRnd.start hst) hqp rfl
    refine ⟨w, rts_loop (.next _ _ (primStep_next (isZero_false hv hv0) r1.rts (isZero_false r2 hr0) r2.isUndefined c1 q1) w1), w2.ep, w2.ne, w2.prim, fun P hP => ?_⟩
    rw [← w2.gcd P hP, eq]
    exact ⟨fun h => ⟨h.2, prim_dvd hP cn h.1⟩, fun h => ⟨h.2.mul_left _, h.1⟩⟩

end Tsym
