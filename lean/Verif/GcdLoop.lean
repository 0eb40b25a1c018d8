import Verif.GcdContent
import Verif.GcdStep

set_option autoImplicit false
set_option linter.unusedSectionVars false
set_option linter.unusedSimpArgs false
set_option linter.unusedVariables false

/-!
# Helper lemmas for the greatest common divisor: the loop of the subresultant algorithm
-/

namespace Tsym

open Expr

variable {D : Type} [Flt D] [ExactLt D] {cfg : Cfg D}

theorem coeffsOk_small {max : ℤ} (h : max < 324) (p : MvPolynomial Sym ℚ) : CoeffsOk max p := fun _ _ => .inl h

/-- The second half of a round: the exponent, the divisor and the next value of psi. -/
def subresNew (E : Eng D) (x : Expr D) (R : List (Expr D)) (s : SubresState D) : M D (ℤ × Expr D × Expr D) :=
  if s.first then pure (s.delta, s.psi, s.beta) else do
    let du ← M.lift (degree x s.U)
    let dv ← M.lift (degree x s.V)
    let delta := du - dv + 1
    let lu ← leadingCoeff E x s.U
    let tmp ← E.minus lu
    let p1 ← E.powCreate tmp (.int (s.delta - 1))
    let p1 ← E.expand p1
    let p2 ← E.powCreate s.psi (.int (s.delta - 2))
    let p2 ← E.expand p2
    let q ← E.divideL p1 p2 R
    let pp ← E.powCreate q.1 (.int (delta - 1))
    let b ← E.prodCreate [tmp, pp]
    let beta ← E.expand b
    pure (delta, q.1, beta)

theorem subresStep_next {x : Expr D} {L R : List (Expr D)} {st : SubresState D} {r : Expr D} {t : ℤ × Expr D × Expr D} {q : Expr D × Expr D}
    (h1 : Rts cfg (fun E => pseudoRemainder E st.U st.V x) r) (h2 : r.isZero = false) (h3 : r.isUndefined = false)
    (h4 : Rts cfg (fun E => subresNew E x R st) t) (h5 : Rts cfg (fun E => E.divideL r t.2.2 L) q) :
    Rts cfg (fun E => subresStep E x L R st) (.inl ⟨st.V, q.1, t.1, t.2.2, t.2.1, false⟩) := by
  unfold subresStep
  refine rts_bind h1 ?_
  simp only [h2, h3, Bool.false_eq_true, if_false]
  exact rts_bind h4 (rts_bind h5 (tot_pure _).rts)

theorem subresStep_done {x : Expr D} {L R : List (Expr D)} {st : SubresState D} {r : Expr D}
    (h1 : Rts cfg (fun E => pseudoRemainder E st.U st.V x) r) (h2 : r.isZero = true) :
    Rts cfg (fun E => subresStep E x L R st) (.inr (some st.V)) := by
  unfold subresStep
  refine rts_bind h1 ?_
  simp only [h2, if_true]
  exact (tot_pure _).rts

/-- A state of the loop after the first round. -/
structure LoopSt (s : Sym) (R : List Sym) (u0 v0 g : MvPolynomial Sym ℚ) (d : ℕ) (st : SubresState D) (k : ℕ) : Prop where
  first : st.first = false
  delta : st.delta = k + 1
  U : EP st.U
  V : EP st.V
  psi : EP st.psi
  lt : (poly st.V).degreeOf s < (poly st.U).degreeOf s
  one : k = 0 → st.psi = mOne
  kd : k ≤ d
  psi0 : poly st.psi ≠ 0
  psib : ∀ t, (poly st.psi).degreeOf t ≤ 2 * d * d
  dvd : poly st.psi ^ (k - 1) ∣ lcs s (poly st.U) ^ k
  rnd : ∀ σ, Associated (σ * poly st.psi ^ (k - 1)) (lcs s (poly st.U) ^ k) → Rnd s u0 v0 g d (poly st.U) (poly st.V) (lcs s (poly st.U)) σ
  UL : ∀ t, t ∉ s :: R → (poly st.U).degreeOf t = 0
  VL : ∀ t, t ∉ s :: R → (poly st.V).degreeOf t = 0

theorem deg_all {s : Sym} {d : ℕ} {p : MvPolynomial Sym ℚ} (h1 : 1 ≤ d) (hs : p.degreeOf s ≤ d) (h : ∀ t, t ≠ s → p.degreeOf t ≤ 2 * d * d) (t : Sym) :
    p.degreeOf t ≤ 2 * d * d := by
  by_cases hts : t = s
  · subst hts; have : d ≤ 2 * d * d := by nlinarith
    omega
  · exact h t hts

theorem bound_le {d : ℕ} : 2 * d * d ≤ 2 * d * d * (d + 2) := by nlinarith [Nat.zero_le (2 * d * d), Nat.zero_le (2 * d * d * d)]

/-- The pseudo-remainder of a round. -/
theorem rnd_prem (hc : cfg.Ok) (hp : cfg.maxPrime < 324) {s : Sym} (hs : s.id.Ok) {u0 v0 g lp σ : MvPolynomial Sym ℚ} {d : ℕ} (hst : Start s u0 v0 g d)
    (hd : ((2 * d * d * (d + 2) : ℕ) : ℤ) < intMax) (hm : 8 * ((d : ℤ) + 1) < Number.unsignedMax) {u v : Expr D} (hu : EP u) (hv : EP v)
    (h : Rnd s u0 v0 g d (poly u) (poly v) lp σ) :
    ∃ r Q, Tot cfg (fun E => pseudoRemainder E u v (.sym s)) r ∧ EP r ∧
      lcs s (poly v) ^ ((poly u).degreeOf s + 1 - (poly v).degreeOf s) * poly u = Q * poly v + poly r ∧
      (poly r = 0 ∨ (poly r).degreeOf s < (poly v).degreeOf s) := by
  have hub := deg_all hst.d1 h.Us h.bU
  have hvb := deg_all hst.d1 (le_trans h.UV h.Us) h.bV
  have hle := bound_le (d := d)
  obtain ⟨lv, l1, l2, l3⟩ := tot_lead hc s hv (by have := hvb s; omega)
  obtain ⟨q, r, Q, h1, -, h2, h3, h4, -⟩ := tot_pseudoDivide hc hs hu hv h.V0 (fun t => by have := hub t; omega) (fun t => by have := hvb t; omega)
    (by have := h.Us; omega) l1 l2 l3 (coefOk_small hp _) false
  refine ⟨r, Q, ?_, h2, by rw [lcs_eq, ← l3]; exact h3, h4⟩
  unfold pseudoRemainder
  exact tot_bind h1 (tot_pure _)

/-- The end of a round. -/
theorem rnd_tail (hc : cfg.Ok) (hp : cfg.maxPrime < 324) {s : Sym} {R : List Sym} (hs : ∀ x ∈ s :: R, x.id.Ok) (hnd : s ∉ R)
    {u0 v0 g lp : MvPolynomial Sym ℚ} {d : ℕ} (hst : Start s u0 v0 g d)
    (hu0 : ∀ t, t ∉ s :: R → u0.degreeOf t = 0) (hv0 : ∀ t, t ∉ s :: R → v0.degreeOf t = 0)
    (hd : ((2 * d * d * (d + 2) : ℕ) : ℤ) < intMax) {u v psi beta r : Expr D} {Q : MvPolynomial Sym ℚ} (hu : EP u) (hv : EP v) (hpsi : EP psi) (hbeta : EP beta) (hr : EP r)
    (h : Rnd s u0 v0 g d (poly u) (poly v) lp (poly psi))
    (hVL : ∀ t, t ∉ s :: R → (poly v).degreeOf t = 0)
    (e : lcs s (poly v) ^ ((poly u).degreeOf s + 1 - (poly v).degreeOf s) * poly u = Q * poly v + poly r)
    (hr0 : poly r ≠ 0) (hrs : (poly r).degreeOf s < (poly v).degreeOf s)
    (hb : Associated (poly beta) (lp * poly psi ^ ((poly u).degreeOf s - (poly v).degreeOf s)))
    (hbR : ∀ t, t ∉ R → (poly beta).degreeOf t = 0) (hone : (poly u).degreeOf s - (poly v).degreeOf s = 0 → psi = mOne) :
    ∃ (v' : Expr D) (k : ℕ), Rts cfg (fun E => E.divideL r beta ((s :: R).map .sym)) (v', zero) ∧ (poly v').degreeOf s < (poly v).degreeOf s ∧
      (k : ℤ) = (poly u).degreeOf s - (poly v).degreeOf s ∧
      LoopSt s R u0 v0 g d ⟨v, v', k + 1, beta, psi, false⟩ k := by
  obtain ⟨b0, bd, hb1, hnext⟩ := h.step hst e hr0 hrs hb (hbR s hnd)
  have hrL : ∀ t, t ∉ s :: R → (poly r).degreeOf t = 0 := by
    intro t ht
    obtain ⟨w, hw⟩ := bd
    have hw' : poly r = w * poly beta := by rw [hw, mul_comm]
    obtain ⟨w0, -, -, -, -, hz, -⟩ := hnext w hw'
    simp only [List.mem_cons, not_or] at ht
    rw [hw', degreeOf_mul_ne t w0 b0, hbR t ht.2, hz t ht.1 (hu0 t (by simp [ht])) (hv0 t (by simp [ht]))]
  obtain ⟨v', d1, d2, d3⟩ := divideL_exact hc (s :: R) r beta hs hr hbeta hr0 bd (coeffsOk_small hp _) (fun t => by have := hb1 t; omega) hrL
  obtain ⟨n0, n1, n2, n3, n4, n5, n6⟩ := hnext (poly v') d3
  refine ⟨v', (poly u).degreeOf s - (poly v).degreeOf s, d1, n1, ?_, ⟨rfl, rfl, hv, d2, hpsi, n1, hone, ?_, h.inv.s0, h.bσ, n2, n6, hVL, ?_⟩⟩
  · have := h.UV; omega
  · have := h.Us; omega
  · intro t ht
    have := n3 t
    rw [hrL t ht] at this
    exact Nat.le_zero.1 this

/-- The next values of psi and beta. -/
theorem subresNew_ok (hc : cfg.Ok) (hp : cfg.maxPrime < 324) {s : Sym} {R : List Sym} (hs : ∀ x ∈ s :: R, x.id.Ok) (hnd : s ∉ R)
    {u0 v0 g : MvPolynomial Sym ℚ} {d : ℕ} (hst : Start s u0 v0 g d)
    (hd : ((2 * d * d * (d + 2) : ℕ) : ℤ) < intMax) (hm : 8 * ((d : ℤ) + 1) < Number.unsignedMax) {st : SubresState D} {k : ℕ}
    (h : LoopSt s R u0 v0 g d st k) :
    ∃ psi beta, Rts cfg (fun E => subresNew E (.sym s) (R.map .sym) st) (((poly st.U).degreeOf s : ℤ) - (poly st.V).degreeOf s + 1, psi, beta) ∧ EP psi ∧ EP beta ∧
      Rnd s u0 v0 g d (poly st.U) (poly st.V) (lcs s (poly st.U)) (poly psi) ∧
      Associated (poly beta) (lcs s (poly st.U) * poly psi ^ ((poly st.U).degreeOf s - (poly st.V).degreeOf s)) ∧
      ∀ t, t ∉ R → (poly beta).degreeOf t = 0 := by
  obtain ⟨σ0, hσ0⟩ := h.dvd
  have hR0 := h.rnd σ0 (by rw [hσ0, mul_comm])
  have hub := deg_all hst.d1 hR0.Us hR0.bU
  have hvb := deg_all hst.d1 (le_trans hR0.UV hR0.Us) hR0.bV
  have hle := bound_le (d := d)
  have hU0 := hR0.U0
  have hlc0 : lcs s (poly st.U) ≠ 0 := lcs_ne hU0
  have hlcR : ∀ t, t ∉ R → (lcs s (poly st.U)).degreeOf t = 0 := by
    intro t ht
    by_cases hts : t = s
    · subst hts; exact lcs_free _ _
    · have h1 := lcs_degreeOf s t (poly st.U)
      rw [h.UL t (by simp [hts, ht])] at h1; omega
  obtain ⟨lu, l1, l2, l3⟩ := tot_lead hc s h.U (by have := hub s; omega)
  rw [← lcs_eq] at l3
  obtain ⟨tmp, t1, t2, t3⟩ := tot_prod2 hc (cfg := cfg) (Pol.mOne (D := D)) l2.pol
  rw [poly_mOne, l3] at t3
  have hkd := h.kd
  obtain ⟨p1, p1a, p1b, p1c⟩ := tot_pow_pol hc t2 (k := k) (by omega) (coefOk_small hp _)
  obtain ⟨p1', e1, e2, e3⟩ := tot_expand' hc p1b
  -- the power of psi
  obtain ⟨p2, p2a, p2b, p2c⟩ : ∃ p2, Tot cfg (fun E => powCreate E st.psi (int ((k : ℤ) - 1))) p2 ∧ Pol cfg p2 ∧ Associated (poly p2) (poly st.psi ^ (k - 1)) := by
    rcases Nat.eq_zero_or_pos k with rfl | hk
    · have h1 := h.one rfl
      rw [h1, mOne_rat]
      refine ⟨_, tot_powNum hc (q := -1) (n := ((0 : ℕ) : ℤ) - 1) (.inl (by norm_num)) (by norm_num [Number.unsignedMax]) (fun _ => .inl hp), Pol.rat _, ?_⟩
      rw [poly_ratE]
      norm_num
    · obtain ⟨p2, a, b, c⟩ := tot_pow_pol hc h.psi.pol (k := k - 1) (by omega) (coefOk_small hp _)
      refine ⟨p2, ?_, b, by rw [c]⟩
      rwa [show (k : ℤ) - 1 = ((k - 1 : ℕ) : ℤ) by omega]
  obtain ⟨p2', f1, f2, f3⟩ := tot_expand' hc p2b
  have hp1 : poly p1' = (-lcs s (poly st.U)) ^ k := by rw [e3, p1c, t3, neg_one_mul]
  have hp1a : Associated (poly p1') (lcs s (poly st.U) ^ k) := by
    rw [hp1]
    exact (Associated.refl _).neg_left.pow_pow
  have hp10 : poly p1' ≠ 0 := by rw [hp1]; exact pow_ne_zero _ (neg_ne_zero.2 hlc0)
  have hdvd : poly p2' ∣ poly p1' := by
    rw [f3]
    exact (p2c.dvd.trans h.dvd).trans hp1a.symm.dvd
  have hp1d : ∀ t, (poly p1').degreeOf t ≤ d * (2 * d * d) := by
    intro t
    rw [degreeOf_assoc hp1a, degreeOf_pow_ne t hlc0]
    exact Nat.mul_le_mul h.kd (le_trans (lcs_degreeOf _ _ _) (hub t))
  have hp1R : ∀ t, t ∉ R → (poly p1').degreeOf t = 0 := by
    intro t ht
    rw [degreeOf_assoc hp1a, degreeOf_pow_ne t hlc0, hlcR t ht, mul_zero]
  have hd3 : d * (2 * d * d) ≤ 2 * d * d * (d + 2) := by nlinarith [Nat.zero_le (2 * d * d)]
  obtain ⟨psi, q1, q2, q3⟩ := divideL_exact hc R p1' p2' (fun x hx => hs x (List.mem_cons_of_mem _ hx)) e2 f2 hp10 hdvd (coeffsOk_small hp _)
    (fun t => by have := hp1d t; omega) hp1R
  have hpsi0 : poly psi ≠ 0 := by intro h0; rw [h0, zero_mul] at q3; exact hp10 q3
  have hrnd := h.rnd (poly psi) (by
    refine Associated.trans ?_ hp1a
    rw [q3, f3]
    exact (Associated.refl _).mul_mul p2c.symm)
  have hpsiR : ∀ t, t ∉ R → (poly psi).degreeOf t = 0 := by
    intro t ht
    have h1 := degreeOf_dvd t hp10 ⟨poly p2', q3⟩
    rw [hp1R t ht] at h1; omega
  have hUs := hrnd.Us
  have hlt := h.lt
  obtain ⟨pp, g1, g2, g3⟩ := tot_pow_pol hc q2.pol (k := (poly st.U).degreeOf s - (poly st.V).degreeOf s) (by omega) (coefOk_small hp _)
  obtain ⟨b, b1, b2, b3⟩ := tot_prod2 hc t2 g2
  obtain ⟨beta, c1, c2, c3⟩ := tot_expand' hc b2
  have hbeta : Associated (poly beta) (lcs s (poly st.U) * poly psi ^ ((poly st.U).degreeOf s - (poly st.V).degreeOf s)) := by
    rw [c3, b3, g3, t3, neg_one_mul]
    exact (Associated.refl _).neg_left.mul_right _
  refine ⟨psi, beta, ?_, q2, c2, hrnd, hbeta, ?_⟩
  · unfold subresNew
    simp only [h.first, Bool.false_eq_true, if_false, h.delta]
    refine rts_bind (tot_lift (degree_ep s h.U (by have := hub s; omega))).rts (rts_bind (tot_lift (degree_ep s h.V (by have := hvb s; omega))).rts ?_)
    have x1 : (k : ℤ) + 1 - 1 = k := by ring
    have x2 : (k : ℤ) + 1 - 2 = (k : ℤ) - 1 := by ring
    have x3 : ((poly st.U).degreeOf s : ℤ) - (poly st.V).degreeOf s + 1 - 1 = (((poly st.U).degreeOf s - (poly st.V).degreeOf s : ℕ) : ℤ) := by omega
    simp only [x1, x2, x3]
    exact rts_bind l1.rts (rts_bind t1.rts (rts_bind (tot_pow p1a).rts (rts_bind e1.rts (rts_bind (tot_pow p2a).rts (rts_bind f1.rts
      (rts_bind q1 (rts_bind (tot_pow g1).rts (rts_bind b1.rts (rts_bind c1.rts (tot_pure _).rts)))))))))
  · intro t ht
    rw [degreeOf_assoc hbeta, degreeOf_mul_ne t hlc0 (pow_ne_zero _ hpsi0), degreeOf_pow_ne t hpsi0, hpsiR t ht, hlcR t ht, mul_zero, add_zero]

/-- What is known of the result of the loop. -/
structure LoopEnd (s : Sym) (R : List Sym) (u0 v0 g : MvPolynomial Sym ℚ) (d : ℕ) (w : Expr D) : Prop where
  ep : EP w
  ne : poly w ≠ 0
  gcd : ∀ P : Polynomial (MvPolynomial Sym ℚ), P.IsPrimitive → ((P ∣ upoly s u0 ∧ P ∣ upoly s v0) ↔ P ∣ upoly s (poly w))
  dvd : g ∣ lcs s (poly w)
  le : ∀ t, (poly w).degreeOf t ≤ 2 * d * d
  L : ∀ t, t ∉ s :: R → (poly w).degreeOf t = 0

theorem Rnd.loopEnd {s : Sym} {R : List Sym} {u0 v0 g lp σ Q : MvPolynomial Sym ℚ} {d : ℕ} (hst : Start s u0 v0 g d) {u v : Expr D} (hv : EP v)
    (h : Rnd s u0 v0 g d (poly u) (poly v) lp σ) (hVL : ∀ t, t ∉ s :: R → (poly v).degreeOf t = 0)
    (e : lcs s (poly v) ^ ((poly u).degreeOf s + 1 - (poly v).degreeOf s) * poly u = Q * poly v) : LoopEnd s R u0 v0 g d v :=
  ⟨hv, h.V0, h.last e, h.dvd, deg_all hst.d1 (le_trans h.UV h.Us) h.bV, hVL⟩

theorem loop_rounds (hc : cfg.Ok) (hp : cfg.maxPrime < 324) {s : Sym} {R : List Sym} (hs : ∀ x ∈ s :: R, x.id.Ok) (hnd : s ∉ R)
    {u0 v0 g : MvPolynomial Sym ℚ} {d : ℕ} (hst : Start s u0 v0 g d)
    (hu0 : ∀ t, t ∉ s :: R → u0.degreeOf t = 0) (hv0 : ∀ t, t ∉ s :: R → v0.degreeOf t = 0)
    (hd : ((2 * d * d * (d + 2) : ℕ) : ℤ) < intMax) (hm : 8 * ((d : ℤ) + 1) < Number.unsignedMax) (m : ℕ) :
    ∀ (st : SubresState D) (k : ℕ), LoopSt s R u0 v0 g d st k → (poly st.V).degreeOf s = m →
    ∃ w, RoundsT cfg (fun E => subresStep E (.sym s) ((s :: R).map .sym) (R.map .sym)) (some w) st ∧ LoopEnd s R u0 v0 g d w := by
  induction m using Nat.strong_induction_on with
  | _ m ih =>
    intro st k h hmv
    obtain ⟨psi, beta, n1, n2, n3, n4, n5, n6⟩ := subresNew_ok hc hp hs hnd hst hd hm h
    obtain ⟨r, Q, r1, r2, r3, r4⟩ := rnd_prem hc hp (hs s (by simp)) hst hd hm h.U h.V n4
    by_cases hr0 : poly r = 0
    · exact ⟨st.V, .done _ (subresStep_done r1.rts (r2.isZero.2 hr0)), n4.loopEnd hst h.V h.VL (by rw [r3, hr0, add_zero])⟩
    · have hz : r.isZero = false := by rw [Bool.eq_false_iff]; exact fun h => hr0 (r2.isZero.1 h)
      obtain ⟨v', k', d1, d2, d3, d4⟩ := rnd_tail hc hp hs hnd hst hu0 hv0 hd h.U h.V n2 n3 r2 n4 h.VL r3 hr0 (r4.resolve_left hr0) n5 n6 (by have := h.lt; omega)
      obtain ⟨w, w1, w2⟩ := ih _ (by rw [← hmv]; exact d2) _ _ d4 rfl
      refine ⟨w, .next _ _ ?_ w1, w2⟩
      have h1 := subresStep_next r1.rts hz r2.isUndefined n1 d1
      rw [d3]
      exact h1

/-- The loop from the start. -/
theorem loop_ok (hc : cfg.Ok) (hp : cfg.maxPrime < 324) {s : Sym} {R : List Sym} (hs : ∀ x ∈ s :: R, x.id.Ok) (hnd : s ∉ R)
    {g : MvPolynomial Sym ℚ} {d : ℕ} {u v beta : Expr D} (hu : EP u) (hv : EP v) (hst : Start s (poly u) (poly v) g d)
    (hu0 : ∀ t, t ∉ s :: R → (poly u).degreeOf t = 0) (hv0 : ∀ t, t ∉ s :: R → (poly v).degreeOf t = 0)
    (hd : ((2 * d * d * (d + 2) : ℕ) : ℤ) < intMax) (hm : 8 * ((d : ℤ) + 1) < Number.unsignedMax)
    (hbe : EP beta) (hb : IsUnit (poly beta)) :
    ∃ w, Rts cfg (fun E => M.loop E.steps (subresStep E (.sym s) ((s :: R).map .sym) (R.map .sym))
      ⟨u, v, ((poly u).degreeOf s : ℤ) - (poly v).degreeOf s + 1, beta, mOne, true⟩) (some w) ∧ LoopEnd s R (poly u) (poly v) g d w := by
  have hu1 : IsUnit (poly (mOne : Expr D)) := by rw [poly_mOne]; exact isUnit_one.neg
  have n4 := Rnd.start hst hu1
  obtain ⟨r, Q, r1, r2, r3, r4⟩ := rnd_prem hc hp (hs s (by simp)) hst hd hm hu hv n4
  by_cases hr0 : poly r = 0
  · exact ⟨v, rts_loop (.done _ (subresStep_done r1.rts (r2.isZero.2 hr0))), n4.loopEnd hst hv hv0 (by rw [r3, hr0, add_zero])⟩
  · have hz : r.isZero = false := by rw [Bool.eq_false_iff]; exact fun h => hr0 (r2.isZero.1 h)
    obtain ⟨v', k', d1, d2, d3, d4⟩ := rnd_tail hc hp hs hnd hst hu0 hv0 hd hu hv (psi := mOne) (by rw [mOne_rat]; exact EP.num _) hbe r2 n4 hv0 r3 hr0 (r4.resolve_left hr0)
      (by rw [one_mul]; exact (associated_one_iff_isUnit.2 hb).trans (associated_one_iff_isUnit.2 (hu1.pow _)).symm) (fun t _ => degreeOf_unit hb) (fun _ => rfl)
    obtain ⟨w, w1, w2⟩ := loop_rounds hc hp hs hnd hst hu0 hv0 hd hm _ _ _ d4 rfl
    refine ⟨w, rts_loop (.next _ _ ?_ w1), w2⟩
    have h1 := subresStep_next (cfg := cfg) (R := R.map .sym) (st := ⟨u, v, ((poly u).degreeOf s : ℤ) - (poly v).degreeOf s + 1, beta, mOne, true⟩) r1.rts hz r2.isUndefined
      (t := (((poly u).degreeOf s : ℤ) - (poly v).degreeOf s + 1, mOne, beta)) (tot_pure _).rts d1
    rw [d3]
    exact h1

end Tsym
