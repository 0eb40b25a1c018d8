import Verif.PolyPseudo

set_option autoImplicit false
set_option linter.unusedSectionVars false
set_option linter.unusedSimpArgs false
set_option linter.unusedVariables false

/-!
# Helper lemmas: division of expanded polynomials
-/

namespace Tsym

open Expr

section

variable {D : Type} [Flt D] {cfg : Cfg D}

/-- Conditions that always hold: a number is not zero. -/
def Triv (cs : List (Cond D)) : Prop := ∀ c ∈ cs, ∃ q : ℚ, q ≠ 0 ∧ c = Cond.nz (.num (.rat q))

/-- From some depth on the call returns `a`, with conditions that always hold. -/
def Rts {α : Type} (cfg : Cfg D) (f : Eng D → M D α) (a : α) : Prop :=
  ∃ N cs, Triv cs ∧ ∀ n, N ≤ n → f (eng cfg n) = .ok (a, cs)

theorem Tot.rts {α : Type} {f : Eng D → M D α} {a : α} (h : Tot cfg f a) : Rts cfg f a := by
  obtain ⟨N, h⟩ := h; exact ⟨N, [], by simp [Triv], h⟩

theorem Triv.append {cs ds : List (Cond D)} (h : Triv cs) (h' : Triv ds) : Triv (cs ++ ds) := by
  intro c hc
  rcases List.mem_append.1 hc with hc | hc
  · exact h c hc
  · exact h' c hc

theorem rts_bind {α β : Type} {f : Eng D → M D α} {g : Eng D → α → M D β} {a : α} {b : β}
    (hf : Rts cfg f a) (hg : Rts cfg (fun E => g E a) b) : Rts cfg (fun E => f E >>= g E) b := by
  obtain ⟨N, cs, h1, hN⟩ := hf
  obtain ⟨K, ds, h2, hK⟩ := hg
  refine ⟨max N K, cs ++ ds, h1.append h2, fun n hn => ?_⟩
  exact M.bind_ok.2 ⟨a, cs, ds, hN n (le_trans (le_max_left _ _) hn), hK n (le_trans (le_max_right _ _) hn), rfl⟩

theorem rts_succ {α : Type} {f g : Eng D → M D α} {a : α} (h : ∀ n, g (eng cfg (n + 1)) = f (eng cfg n)) (hf : Rts cfg f a) :
    Rts cfg g a := by
  obtain ⟨N, cs, h1, hN⟩ := hf
  refine ⟨N + 1, cs, h1, fun n hn => ?_⟩
  obtain ⟨m, rfl⟩ : ∃ m, n = m + 1 := ⟨n - 1, by omega⟩
  rw [h]; exact hN m (by omega)

theorem rts_silent {α : Type} {f : Eng D → M D α} {a : α} (h : Rts cfg f a) : Tot cfg (fun E => M.silent (f E)) a := by
  obtain ⟨N, cs, -, hN⟩ := h
  have : Tot cfg (fun E => M.capture (f E)) (a, cs) := ⟨N, fun n hn => capture_ok (hN n hn)⟩
  exact tot_bind this (tot_pure _)

theorem rts_log {q : ℚ} (hq : q ≠ 0) : Rts cfg (fun _ => M.log (.nz (.num (.rat q)))) () :=
  ⟨0, [.nz (.num (.rat q))], fun c hc => ⟨q, hq, List.mem_singleton.1 hc⟩, fun _ _ => rfl⟩

/-- The rounds of a loop. -/
inductive RoundsT (cfg : Cfg D) {S R : Type} (f : Eng D → S → M D (S ⊕ R)) (r : R) : S → Prop
  | done (s : S) : Rts cfg (fun E => f E s) (.inr r) → RoundsT cfg f r s
  | next (s s' : S) : Rts cfg (fun E => f E s) (.inl s') → RoundsT cfg f r s' → RoundsT cfg f r s

theorem rts_loop {S R : Type} {f : Eng D → S → M D (S ⊕ R)} {r : R} {s : S} (h : RoundsT cfg f r s) :
    Rts cfg (fun E => M.loop E.steps (f E) s) r := by
  suffices ∃ N K cs, Triv cs ∧ ∀ n, N ≤ n → ∀ m, K ≤ m → M.loop m (f (eng cfg n)) s = Except.ok (r, cs) by
    obtain ⟨N, K, cs, hcs, h⟩ := this
    refine ⟨max N K, cs, hcs, fun n hn => ?_⟩
    dsimp only
    rw [eng_steps]
    exact h n (by omega) n (by omega)
  induction h with
  | done s h =>
    obtain ⟨N, cs, hcs, hN⟩ := h
    refine ⟨N, 1, cs ++ [], hcs.append (by simp [Triv]), fun n hn m hm => ?_⟩
    obtain ⟨k, rfl⟩ : ∃ k, m = k + 1 := ⟨m - 1, by omega⟩
    exact M.bind_ok.2 ⟨.inr r, cs, [], hN n hn, rfl, rfl⟩
  | next s s' h _ ih =>
    obtain ⟨N, cs, hcs, hN⟩ := h
    obtain ⟨N', K, ds, hds, ih⟩ := ih
    refine ⟨max N N', K + 1, cs ++ ds, hcs.append hds, fun n hn m hm => ?_⟩
    obtain ⟨k, rfl⟩ : ∃ k, m = k + 1 := ⟨m - 1, by omega⟩
    exact M.bind_ok.2 ⟨.inl s', cs, ds, hN n (by omega), ih n (by omega) k (by omega), rfl⟩

end

/-! ## Facts about polynomials -/

/-- All coefficients have exact powers. -/
def CoeffsOk (max : ℤ) (p : MvPolynomial Sym ℚ) : Prop := ∀ f, p.coeff f ≠ 0 → NumOk max (p.coeff f)

theorem CoeffsOk.lead {max : ℤ} {p : MvPolynomial Sym ℚ} (h : CoeffsOk max p) (s : Sym) (n : ℕ) : CoeffsOk max ((upoly s p).coeff n) := by
  intro f hf
  have := upoly_cf s n p f
  rw [this] at hf ⊢
  split
  · rename_i h0; rw [if_pos h0] at hf; exact h _ hf
  · rename_i h0; rw [if_neg h0] at hf; exact absurd rfl hf

theorem const_of_degree {p : MvPolynomial Sym ℚ} (h : ∀ t, p.degreeOf t = 0) : p = MvPolynomial.C (p.coeff 0) := by
  ext f
  rw [MvPolynomial.coeff_C]
  split
  · rename_i h0; rw [← h0]
  · rename_i h0
    by_contra hf
    apply h0
    ext t
    have := MvPolynomial.le_degreeOf_of_mem_support t (MvPolynomial.mem_support_iff.2 hf)
    rw [h t] at this
    simp; omega

theorem degreeOf_dvd {p q : MvPolynomial Sym ℚ} (s : Sym) (hq : q ≠ 0) (h : p ∣ q) : p.degreeOf s ≤ q.degreeOf s := by
  obtain ⟨c, rfl⟩ := h
  rw [degreeOf_mul_ne s (left_ne_zero_of_mul hq) (right_ne_zero_of_mul hq)]; omega

theorem lead_dvd {p q : MvPolynomial Sym ℚ} (s : Sym) (hq : q ≠ 0) (h : p ∣ q) :
    (upoly s p).coeff (p.degreeOf s) ∣ (upoly s q).coeff (q.degreeOf s) := by
  obtain ⟨c, rfl⟩ := h
  refine ⟨(upoly s c).coeff (c.degreeOf s), ?_⟩
  have := Polynomial.leadingCoeff_mul (upoly s p) (upoly s c)
  rw [← map_mul] at this
  rw [Polynomial.leadingCoeff, Polynomial.leadingCoeff, Polynomial.leadingCoeff, upoly_natDegree, upoly_natDegree, upoly_natDegree] at this
  exact this

theorem degreeOf_X_pow_le (s t : Sym) (n : ℕ) (h : t ≠ s) : (MvPolynomial.X (R := ℚ) s ^ n).degreeOf t = 0 := by
  rw [degreeOf_pow_ne t (MvPolynomial.X_ne_zero s), MvPolynomial.degreeOf_X_of_ne h, mul_zero]

/-- One step of the division in the other symbols. -/
theorem step_other {r v d a : MvPolynomial Sym ℚ} {s t : Sym} {n : ℕ} (ht : t ≠ s) (ha : a ≠ 0) (hd : d ∣ a) (hat : a.degreeOf t ≤ r.degreeOf t) :
    (r - d * v * MvPolynomial.X s ^ n).degreeOf t ≤ r.degreeOf t + v.degreeOf t := by
  refine le_trans (MvPolynomial.degreeOf_sub_le _ _ _) (max_le (by omega) ?_)
  refine le_trans (MvPolynomial.degreeOf_mul_le _ _ _) ?_
  have h1 := MvPolynomial.degreeOf_mul_le t d v
  have h2 := degreeOf_X_pow_le s t n ht
  have h3 := degreeOf_dvd t ha hd
  omega

section

variable {D : Type} [Flt D] [ExactLt D] {cfg : Cfg D}

/-- The division of two numbers. -/
theorem rts_divide_num (hc : cfg.Ok) {a b : ℚ} (hb : b ≠ 0) (hok : NumOk cfg.maxPrime b) :
    Rts cfg (fun E => divideEmptyList E (.num (.rat a)) (.num (.rat b))) (.num (.rat (a * b⁻¹)), zero) := by
  have h1 : Tot cfg (fun E => E.oneOver (.num (.rat b))) (.num (.rat b⁻¹) : Expr D) := by
    have h := tot_powNum hc (q := b) (n := -1) (.inl hb) (by simp; decide) (fun _ => hok)
    rw [zpow_neg_one] at h
    exact tot_pow h
  obtain ⟨p, p1, p2, p3⟩ := tot_prod2 hc (cfg := cfg) (Pol.rat (D := D) a) (Pol.rat b⁻¹)
  have hp : p = .num (.rat (a * b⁻¹)) := by
    obtain ⟨x, x1, x2, x3⟩ := tot_prod_em hc (cfg := cfg) (A := [.num (.rat a), .num (.rat b⁻¹)]) (by simp) (by
      intro e he
      rcases List.mem_cons.1 he with rfl | he
      · exact EM.num (D := D) a
      · rw [List.mem_singleton.1 he]; exact EM.num _)
    have : p = x := p1.unique (tot_prod x1)
    subst this
    exact x2.1.eq_num (by rw [x3]; simp [poly_ratE])
  subst hp
  unfold divideEmptyList
  refine rts_bind (tot_capture (tot_bind h1 p1)).rts (rts_bind (a := some (.rat (a * b⁻¹))) (tot_lift (numEval_rat _)).rts ?_)
  simp only [Number.isRational, if_true]
  exact rts_bind tot_emit.rts (rts_bind (rts_log hb) (tot_pure _).rts)

/-- What the division of `u` by `v` gives. -/
def DivOk (cfg : Cfg D) (u v : Expr D) (L : List Sym) : Prop :=
  ∃ q r, Rts cfg (fun E => E.divideL u v (L.map .sym)) (q, r) ∧ EP q ∧ EP r ∧ poly u = poly q * poly v + poly r ∧ (poly v ∣ poly u → poly r = 0)

/-- One round of the division in the symbol `s`. -/
theorem divide_rounds (hc : cfg.Ok) {s : Sym} (hs : s.id.Ok) {R : List Sym} {v : Expr D} (hv : EP v) (h0 : poly v ≠ 0)
    (hbv : ((poly v).degreeOf s : ℤ) < intMax) {U d : ℕ} (hU : (U : ℤ) < intMax)
    (hvb : ∀ t, (poly v).degreeOf t ≤ d) (hvL : ∀ t, t ∉ s :: R → (poly v).degreeOf t = 0)
    (ih : ∀ a b : Expr D, EP a → EP b → poly b = (upoly s (poly v)).coeff ((poly v).degreeOf s) →
      (∀ t, (poly a).degreeOf t ≤ U + U * d) → (∀ t, t ∉ R → (poly a).degreeOf t = 0) → DivOk cfg a b R) (m : ℕ) :
    ∀ {q r : Expr D}, Pol cfg q → EP r → poly r ≠ 0 → (poly r).degreeOf s = m → m ≤ U → (∀ t, (poly r).degreeOf t ≤ U + (U - m) * d) →
      (∀ t, t ∉ s :: R → (poly r).degreeOf t = 0) →
    ∃ q' r', RoundsT cfg (fun E => divideStep E v (.sym s) ((poly v).degreeOf s) (R.map .sym)) (q', r') (q, r, (m : ℤ)) ∧
      EP q' ∧ EP r' ∧ poly q * poly v + poly r = poly q' * poly v + poly r' ∧ (poly v ∣ poly r → poly r' = 0) := by
  induction m using Nat.strong_induction_on with
  | _ m ihm =>
    intro q r hq hr hr0 hm hmU hrb hrL
    obtain ⟨qe, qe1, qe2, qe3⟩ := tot_expand' hc hq
    by_cases hmn : m < (poly v).degreeOf s
    · refine ⟨qe, r, .done _ ?_, qe2, hr, by rw [qe3], fun hdvd => ?_⟩
      · unfold divideStep
        have : ((m : ℤ) < ((poly v).degreeOf s : ℤ)) := by omega
        simp only [this, if_true]
        exact rts_bind qe1.rts (tot_pure _).rts
      · have := degreeOf_dvd s hr0 hdvd; omega
    have hmn' : (poly v).degreeOf s ≤ m := by omega
    have hUm : (m : ℤ) < intMax := by omega
    obtain ⟨lr, l1, l2, l3⟩ := tot_lead hc s hr (by rw [hm]; exact hUm)
    obtain ⟨lv, k1, k2, k3⟩ := tot_lead hc s hv hbv
    have hlr0 : poly lr ≠ 0 := by rw [l3]; exact lead_ne_zero hr0
    have hlrt : ∀ t, (poly lr).degreeOf t ≤ (poly r).degreeOf t := fun t => by rw [l3]; exact upoly_coeff_degreeOf s t _ _
    obtain ⟨dq, dr, e1, e2, e3, e4, e5⟩ := ih lr lv l2 k2 k3 (by
      intro t
      refine le_trans (hlrt t) (le_trans (hrb t) ?_)
      have : (U - m) * d ≤ U * d := Nat.mul_le_mul_right _ (by omega)
      omega) (by
      intro t ht
      by_cases hts : t = s
      · subst hts; rw [l3]; exact upoly_coeff_free _ _ _
      · have := hlrt t
        rw [hrL t (by simp [hts, ht])] at this; omega)
    have hfirst : ∀ {w : (Expr D × Expr D × ℤ) ⊕ (Expr D × Expr D)}, Rts cfg (fun E =>
        (if !dr.isZero then do
          let q ← E.expand q
          pure (.inr (q, r))
        else do
          let tmp ← E.powCreate (.sym s) (.int (m - (poly v).degreeOf s))
          let ct ← E.prodCreate [dq, tmp]
          let quotient ← E.sumCreate [q, ct]
          let m ← E.prodCreate [mOne, dq, v, tmp]
          let r ← E.sumCreate [r, m]
          let remainder ← E.expand r
          if remainder.isZero then do
            let q ← E.expand quotient
            pure (.inr (q, remainder))
          else do
            let k ← M.lift (degree (.sym s) remainder)
            pure (.inl (quotient, remainder, k)) : M D ((Expr D × Expr D × ℤ) ⊕ (Expr D × Expr D)))) w →
        Rts cfg (fun E => divideStep E v (.sym s) ((poly v).degreeOf s) (R.map .sym) (q, r, (m : ℤ))) w := by
      intro w hw
      unfold divideStep
      have h1 : ¬ ((m : ℤ) < ((poly v).degreeOf s : ℤ)) := by omega
      have h2 : ¬ ((m : ℤ) < 0 ∨ ((poly v).degreeOf s : ℤ) < 0) := by omega
      simp only [h1, h2, if_false]
      exact rts_bind l1.rts (rts_bind k1.rts (rts_bind e1 hw))
    by_cases hdr : poly dr = 0
    · -- a term of the quotient
      rw [hdr, add_zero] at e4
      have hz : dr.isZero = true := e3.isZero.2 hdr
      obtain ⟨x1, x2⟩ := EP.symPow (D := D) hs (m - (poly v).degreeOf s)
      have hp := tot_symPow (D := D) (cfg := cfg) s hmn'
      obtain ⟨ct, c1, c2, c3⟩ := tot_prod2 hc (cfg := cfg) e2.pol x1.pol
      obtain ⟨q', q1, q2, q3⟩ := tot_sum2 hc (cfg := cfg) hq c2
      obtain ⟨b, b1, b2, b3⟩ := tot_prod_pol hc (cfg := cfg) (es := [mOne, dq, v, symPow s (m - (poly v).degreeOf s)]) (by simp) (by
        simpa using ⟨Pol.mOne, e2.pol, hv.pol, x1.pol⟩)
      obtain ⟨c, y1, y2, y3⟩ := tot_sum2 hc (cfg := cfg) hr.pol b2
      obtain ⟨r', r1, r2, r3⟩ := tot_expand' hc y2
      have hrp : poly r' = poly r - poly dq * poly v * MvPolynomial.X s ^ (m - (poly v).degreeOf s) := by
        rw [r3, y3, b3]
        simp only [List.map_cons, List.map_nil, List.prod_cons, List.prod_nil, mul_one, poly_mOne, x2]
        ring
      have hqp : poly q' = poly q + poly dq * MvPolynomial.X s ^ (m - (poly v).degreeOf s) := by rw [q3, c3, x2]
      have hdvd : poly v ∣ poly r → poly v ∣ poly r' := fun h => by
        rw [hrp]; exact dvd_sub h ⟨poly dq * MvPolynomial.X s ^ (m - (poly v).degreeOf s), by ring⟩
      by_cases hr'0 : poly r' = 0
      · obtain ⟨qe', z1, z2, z3⟩ := tot_expand' hc q2
        refine ⟨qe', r', .done _ (hfirst ?_), z2, r2, ?_, fun _ => hr'0⟩
        · simp only [hz, Bool.not_true, Bool.false_eq_true, if_false]
          refine rts_bind hp.rts (rts_bind c1.rts (rts_bind q1.rts (rts_bind (tot_prod b1).rts (rts_bind y1.rts (rts_bind r1.rts ?_)))))
          simp only [r2.isZero.2 hr'0, if_true]
          exact rts_bind z1.rts (tot_pure _).rts
        · rw [z3, hqp, hrp]; ring
      · have hz' : r'.isZero = false := by rw [Bool.eq_false_iff]; exact fun h => hr'0 (r2.isZero.1 h)
        have hddvd : poly dq ∣ poly lr := ⟨poly lv, e4⟩
        have hd : (poly r').degreeOf s < m := by
          refine (step_degree s (b := 1) hm rfl hmn' ?_ (by simp) ?_ (by rw [hrp, one_mul])).resolve_left hr'0
          · have h1 := degreeOf_dvd s hlr0 hddvd
            have h2 : (poly lr).degreeOf s = 0 := by rw [l3]; exact upoly_coeff_free s _ _
            omega
          · rw [one_mul, ← k3, ← e4, l3, hm]
        obtain ⟨q'', r'', i1, i2, i3, i4, i5⟩ := ihm _ hd (q := q') (r := r') q2 r2 hr'0 rfl (by omega) (by
            intro t
            by_cases hts : t = s
            · subst hts; omega
            · have h1 := step_other (v := poly v) (n := m - (poly v).degreeOf s) hts hlr0 hddvd (hlrt t)
              rw [← hrp] at h1
              have h2 := hrb t
              have h3 := hvb t
              have h4 : (U - m) * d + d ≤ (U - (poly r').degreeOf s) * d := by
                have : (U - m + 1) * d ≤ (U - (poly r').degreeOf s) * d := Nat.mul_le_mul_right _ (by omega)
                rwa [add_mul, one_mul] at this
              omega) (by
            intro t ht
            have hts : t ≠ s := by rintro rfl; simp at ht
            have h1 := step_other (v := poly v) (n := m - (poly v).degreeOf s) hts hlr0 hddvd (hlrt t)
            rw [← hrp, hrL t ht, hvL t ht] at h1
            omega)
        refine ⟨q'', r'', .next _ _ (hfirst ?_) i1, i2, i3, ?_, fun h => i5 (hdvd h)⟩
        · simp only [hz, Bool.not_true, Bool.false_eq_true, if_false]
          refine rts_bind hp.rts (rts_bind c1.rts (rts_bind q1.rts (rts_bind (tot_prod b1).rts (rts_bind y1.rts (rts_bind r1.rts ?_)))))
          simp only [hz', Bool.false_eq_true, if_false]
          exact rts_bind (tot_lift (degree_ep s r2 (by omega))).rts (tot_pure _).rts
        · rw [← i4, hqp, hrp]; ring
    · have hz : dr.isZero = false := by rw [Bool.eq_false_iff]; exact fun h => hdr (e3.isZero.1 h)
      refine ⟨qe, r, .done _ (hfirst ?_), qe2, hr, by rw [qe3], fun hdvd => ?_⟩
      · simp only [hz, Bool.not_false, if_true]
        exact rts_bind qe1.rts (tot_pure _).rts
      · exfalso
        apply hdr
        apply e5
        rw [k3, l3]
        exact lead_dvd s hr0 hdvd

/-- Division of expanded polynomials. -/
theorem divideL_ok (hc : cfg.Ok) {d : ℕ} (L : List Sym) : ∀ (u v : Expr D) (U : ℕ), (∀ s ∈ L, s.id.Ok) → EP u → EP v → poly v ≠ 0 →
    CoeffsOk cfg.maxPrime (poly v) →
    (∀ t, (poly u).degreeOf t ≤ U) → (∀ t, (poly v).degreeOf t ≤ d) → (((U + 1) * (d + 2) ^ L.length : ℕ) : ℤ) ≤ intMax → (d : ℤ) < intMax →
    (∀ t, t ∉ L → (poly u).degreeOf t = 0) → (∀ t, t ∉ L → (poly v).degreeOf t = 0) → DivOk cfg u v L := by
  induction L with
  | nil =>
    intro u v U _ hu hv h0 hco hub hvb hU hd huL hvL
    have hu' := const_of_degree fun t => huL t (by simp)
    have hv' := const_of_degree fun t => hvL t (by simp)
    have eu := hu.eq_num hu'
    have ev := hv.eq_num hv'
    have hb : (poly v).coeff 0 ≠ 0 := by
      intro h
      rw [h, map_zero] at hv'
      exact h0 hv'
    refine ⟨.num (.rat ((poly u).coeff 0 * ((poly v).coeff 0)⁻¹)), zero, ?_, EP.num _, EP.zero, ?_, fun _ => poly_zero⟩
    · refine rts_succ (f := fun E => divideL E u v []) (fun _ => rfl) ?_
      unfold divideL
      refine rts_bind (tot_lift (isPolyInputValid_ep hu hv h0 (fun t => by rw [huL t (by simp)]; decide) fun t => by rw [hvL t (by simp)]; decide)).rts ?_
      simp only [Bool.not_true, Bool.false_eq_true, if_false]
      have := rts_divide_num (D := D) hc (a := (poly u).coeff 0) hb (hco _ hb)
      rwa [← eu, ← ev] at this
    · rw [poly_zero, add_zero, poly_ratE]
      have h1 : MvPolynomial.C ((poly u).coeff 0 * ((poly v).coeff 0)⁻¹) * MvPolynomial.C ((poly v).coeff 0) = MvPolynomial.C (σ := Sym) ((poly u).coeff 0) := by
        rw [← map_mul, mul_assoc, inv_mul_cancel₀ hb, mul_one]
      rw [← hv', ← hu'] at h1
      exact h1.symm
  | cons s R ihL =>
    intro u v U hL hu hv h0 hco hub hvb hU hd huL hvL
    have hUi : (U : ℤ) < intMax := by
      have h1 : 1 ≤ (d + 2) ^ R.length := Nat.one_le_pow _ _ (by omega)
      have h2 : U + 1 ≤ (U + 1) * (d + 2) ^ (s :: R).length := Nat.le_mul_of_pos_right _ (Nat.pow_pos (by omega))
      omega
    have hok := isPolyInputValid_ep hu hv h0 (fun t => by have := hub t; omega) fun t => by have := hvb t; omega
    have hdeg : ∀ t, ((poly v).degreeOf t : ℤ) < intMax := fun t => by have := hvb t; omega
    have hpre : ∀ {w : Expr D × Expr D}, Rts cfg (fun E => (if isEqual v u then pure (one, zero)
      else if u.isZero then pure (zero, zero)
      else divideNonEmpty E u v (.sym s) (R.map .sym) : M D (Expr D × Expr D))) w → Rts cfg (fun E => E.divideL u v ((s :: R).map .sym)) w := by
      intro w hw
      refine rts_succ (f := fun E => divideL E u v ((s :: R).map .sym)) (fun _ => rfl) ?_
      unfold divideL
      refine rts_bind (tot_lift hok).rts ?_
      simp only [Bool.not_true, Bool.false_eq_true, if_false, List.map_cons]
      exact hw
    by_cases he : isEqual v u = true
    · have : v = u := (isEqual_eq _ (isPolyE_exact _ hv.polyE) _ (isPolyE_exact _ hu.polyE)).1 he
      refine ⟨one, zero, hpre ?_, by rw [one_eq]; exact EP.num 1, EP.zero, by rw [poly_one, poly_zero, this]; ring, fun _ => poly_zero⟩
      simp only [he, if_true]; exact (tot_pure _).rts
    have he' : isEqual v u = false := by simpa using he
    by_cases hu0 : poly u = 0
    · refine ⟨zero, zero, hpre ?_, EP.zero, EP.zero, by rw [poly_zero, hu0]; ring, fun _ => poly_zero⟩
      simp only [he', Bool.false_eq_true, if_false, hu.isZero.2 hu0, if_true]; exact (tot_pure _).rts
    have huz : u.isZero = false := by rw [Bool.eq_false_iff]; exact fun h => hu0 (hu.isZero.1 h)
    have ih : ∀ a b : Expr D, EP a → EP b → poly b = (upoly s (poly v)).coeff ((poly v).degreeOf s) →
      (∀ t, (poly a).degreeOf t ≤ U + U * d) → (∀ t, t ∉ R → (poly a).degreeOf t = 0) → DivOk cfg a b R := by
      intro a b ha hb hbp hab haR
      refine ihL a b (U + U * d) (fun t ht => hL t (by simp [ht])) ha hb (by rw [hbp]; exact lead_ne_zero h0)
        (by rw [hbp]; exact hco.lead s _) hab (fun t => ?_) ?_ hd haR fun t ht => ?_
      · rw [hbp]; exact le_trans (upoly_coeff_degreeOf s t _ _) (hvb t)
      · refine le_trans ?_ hU
        rw [List.length_cons, pow_succ, ← mul_assoc, mul_right_comm]
        have : U + U * d + 1 ≤ (U + 1) * (d + 2) := by ring_nf; omega
        exact_mod_cast Nat.mul_le_mul_right _ this
      · rw [hbp]
        by_cases hts : t = s
        · subst hts; exact upoly_coeff_free _ _ _
        · have := upoly_coeff_degreeOf s t ((poly v).degreeOf s) (poly v)
          rw [hvL t (by simp [hts, ht])] at this
          omega
    obtain ⟨q', r', g1, g2, g3, g4, g5⟩ := divide_rounds hc (hL s (by simp)) hv h0 (hdeg s) hUi hvb hvL ih _ (q := zero) (r := u)
      EP.zero.pol hu hu0 rfl (hub s) (fun t => le_trans (hub t) (by omega)) huL
    refine ⟨q', r', hpre ?_, g2, g3, by rw [← g4, poly_zero]; ring, g5⟩
    simp only [he', huz, Bool.false_eq_true, if_false]
    unfold divideNonEmpty
    refine rts_bind (tot_lift (degree_ep s hu (by have := hub s; omega))).rts (rts_bind (tot_lift (degree_ep s hv (hdeg s))).rts ?_)
    simp only [isSymbol, Bool.not_true, Bool.false_eq_true, if_false]
    exact rts_loop g1

/-! ## The list of symbols -/

theorem mem_addIf {l : List (Expr D)} {s : Sym} (x : Expr D) (hl : ∀ y ∈ l, ∃ t, y = .sym t) :
    x ∈ addIfNotAlreadyStored l (.sym s) ↔ x ∈ l ∨ x = .sym s := by
  unfold addIfNotAlreadyStored
  split
  · rename_i h
    obtain ⟨o, ho, he⟩ := List.any_eq_true.1 h
    obtain ⟨t, rfl⟩ := hl o ho
    rw [isEqual_sym, decide_eq_true_eq] at he
    subst he
    constructor
    · exact .inl
    · rintro (h | rfl)
      · exact h
      · exact ho
  · simp

mutual
theorem addSymbols_spec (acc : List (Expr D)) (hacc : ∀ y ∈ acc, ∃ t, y = .sym t) : ∀ e : Expr D,
    (∀ y ∈ addSymbols acc e, ∃ t, y = .sym t) ∧ (∀ y ∈ acc, y ∈ addSymbols acc e) ∧
      ∀ s, .sym s ∉ addSymbols acc e → (poly e).degreeOf s = 0
  | .sym t => by
    simp only [addSymbols]
    refine ⟨fun y hy => ?_, fun y hy => (mem_addIf y hacc).2 (.inl hy), fun s hs => ?_⟩
    · rcases (mem_addIf y hacc).1 hy with h | h
      · exact hacc y h
      · exact ⟨t, h⟩
    · rw [mem_addIf _ hacc] at hs
      rw [poly]
      refine MvPolynomial.degreeOf_X_of_ne fun e => hs (.inr (by rw [e]))
  | .sum l => by
    simp only [addSymbols]
    obtain ⟨h1, h2, h3⟩ := addSymbolsList_spec acc hacc l
    refine ⟨h1, h2, fun s hs => ?_⟩
    rw [poly, polySum_eq, ← Nat.le_zero]
    have := h3 s hs
    clear h1 h2 h3 hs
    induction l with
    | nil => simp
    | cons a l ih =>
      rw [List.map_cons, List.sum_cons]
      refine le_trans (MvPolynomial.degreeOf_add_le _ _ _) (max_le (this a (by simp)).le (ih fun b hb => this b (by simp [hb])))
  | .prod l => by
    simp only [addSymbols]
    obtain ⟨h1, h2, h3⟩ := addSymbolsList_spec acc hacc l
    refine ⟨h1, h2, fun s hs => ?_⟩
    rw [poly, polyProd_eq, ← Nat.le_zero]
    have := h3 s hs
    clear h1 h2 h3 hs
    induction l with
    | nil => simp
    | cons a l ih =>
      rw [List.map_cons, List.prod_cons]
      refine le_trans (MvPolynomial.degreeOf_mul_le _ _ _) ?_
      rw [this a (by simp), zero_add]
      exact ih fun b hb => this b (by simp [hb])
  | .pow b e => by
    simp only [addSymbols]
    obtain ⟨h1, h2, h3⟩ := addSymbols_spec acc hacc b
    refine ⟨h1, h2, fun s hs => ?_⟩
    have h4 := h3 s hs
    cases e with
    | num n =>
      cases n with
      | rat q =>
        rw [poly, ← Nat.le_zero]
        refine le_trans (MvPolynomial.degreeOf_pow_le _ _ _) ?_
        rw [h4, mul_zero]
      | dbl d => simp [poly]
    | _ => simp [poly]
  | .num n => by
    simp only [addSymbols]
    refine ⟨hacc, fun _ h => h, fun s _ => ?_⟩
    cases n <;> simp [poly]
  | .cst c => by
    simp only [addSymbols]
    exact ⟨hacc, fun _ h => h, fun s _ => by simp [poly]⟩
  | .undef => by
    simp only [addSymbols]
    exact ⟨hacc, fun _ h => h, fun s _ => by simp [poly]⟩
  | .fn f a => by
    simp only [addSymbols]
    exact ⟨hacc, fun _ h => h, fun s _ => by simp [poly]⟩
  | .atan2 a b => by
    simp only [addSymbols]
    exact ⟨hacc, fun _ h => h, fun s _ => by simp [poly]⟩
theorem addSymbolsList_spec (acc : List (Expr D)) (hacc : ∀ y ∈ acc, ∃ t, y = .sym t) : ∀ l : List (Expr D),
    (∀ y ∈ addSymbolsList acc l, ∃ t, y = .sym t) ∧ (∀ y ∈ acc, y ∈ addSymbolsList acc l) ∧
      ∀ s, .sym s ∉ addSymbolsList acc l → ∀ a ∈ l, (poly a).degreeOf s = 0
  | [] => by
    simp only [addSymbolsList]
    exact ⟨hacc, fun _ h => h, fun s _ => by simp⟩
  | a :: l => by
    simp only [addSymbolsList]
    obtain ⟨h1, h2, h3⟩ := addSymbols_spec acc hacc a
    obtain ⟨g1, g2, g3⟩ := addSymbolsList_spec (addSymbols acc a) h1 l
    refine ⟨g1, fun y hy => g2 y (h2 y hy), fun s hs b hb => ?_⟩
    rcases List.mem_cons.1 hb with rfl | hb
    · exact h3 s fun h => hs (g2 _ h)
    · exact g3 s hs b hb
end

theorem addIf_nodup {l : List (Expr D)} {s : Sym} (hl : ∀ y ∈ l, ∃ t, y = .sym t) (h : l.Nodup) : (addIfNotAlreadyStored l (.sym s)).Nodup := by
  unfold addIfNotAlreadyStored
  split
  · exact h
  · rename_i hn
    refine List.nodup_append.2 ⟨h, by simp, ?_⟩
    intro a ha b hb e
    rw [List.mem_singleton.1 hb] at e
    subst e
    exact hn (List.any_eq_true.2 ⟨_, ha, by rw [isEqual_sym]; simp⟩)

mutual
theorem addSymbols_nodup (acc : List (Expr D)) (hacc : ∀ y ∈ acc, ∃ t, y = .sym t) (h : acc.Nodup) : ∀ e : Expr D, (addSymbols acc e).Nodup ∧
    ∀ s, .sym s ∈ addSymbols acc e → .sym s ∈ acc ∨ has (.sym s) e = true
  | .sym t => by
    simp only [addSymbols]
    refine ⟨addIf_nodup hacc h, fun s hs => ?_⟩
    rcases (mem_addIf _ hacc).1 hs with h | h
    · exact .inl h
    · right; cases h; simp [has, isEqual_sym]
  | .sum l => by
    simp only [addSymbols]
    obtain ⟨h1, h2⟩ := addSymbolsList_nodup acc hacc h l
    exact ⟨h1, fun s hs => (h2 s hs).imp_right fun h => by simp [has, h]⟩
  | .prod l => by
    simp only [addSymbols]
    obtain ⟨h1, h2⟩ := addSymbolsList_nodup acc hacc h l
    exact ⟨h1, fun s hs => (h2 s hs).imp_right fun h => by simp [has, h]⟩
  | .pow b e => by
    simp only [addSymbols]
    obtain ⟨h1, h2⟩ := addSymbols_nodup acc hacc h b
    exact ⟨h1, fun s hs => (h2 s hs).imp_right fun h => by simp [has, h]⟩
  | .num n => by simp only [addSymbols]; exact ⟨h, fun s hs => .inl hs⟩
  | .cst c => by simp only [addSymbols]; exact ⟨h, fun s hs => .inl hs⟩
  | .undef => by simp only [addSymbols]; exact ⟨h, fun s hs => .inl hs⟩
  | .fn f a => by simp only [addSymbols]; exact ⟨h, fun s hs => .inl hs⟩
  | .atan2 a b => by simp only [addSymbols]; exact ⟨h, fun s hs => .inl hs⟩
theorem addSymbolsList_nodup (acc : List (Expr D)) (hacc : ∀ y ∈ acc, ∃ t, y = .sym t) (h : acc.Nodup) : ∀ l : List (Expr D),
    (addSymbolsList acc l).Nodup ∧ ∀ s, .sym s ∈ addSymbolsList acc l → .sym s ∈ acc ∨ hasAny (.sym s) l = true
  | [] => by simp only [addSymbolsList]; exact ⟨h, fun s hs => .inl hs⟩
  | a :: l => by
    simp only [addSymbolsList]
    obtain ⟨h1, h2⟩ := addSymbols_nodup acc hacc h a
    obtain ⟨g1, g2⟩ := addSymbolsList_nodup (addSymbols acc a) (addSymbols_spec acc hacc a).1 h1 l
    refine ⟨g1, fun s hs => ?_⟩
    rcases g2 s hs with hs | hs
    · exact (h2 s hs).imp_right fun h => by simp [hasAny, h]
    · right; simp [hasAny, hs]
end

/-- The number of symbols. -/
theorem addSymbols_length {u v : Expr D} (hu : EP u) (hv : EP v) :
    (addSymbols (addSymbols [] u) v).length ≤ ((poly u).vars ∪ (poly v).vars).card := by
  obtain ⟨a1, a2, a3⟩ := addSymbols_spec ([] : List (Expr D)) (by simp) u
  obtain ⟨b1, b2, b3⟩ := addSymbols_spec (addSymbols [] u) a1 v
  obtain ⟨c1, c2⟩ := addSymbols_nodup ([] : List (Expr D)) (by simp) (by simp) u
  obtain ⟨d1, d2⟩ := addSymbols_nodup (addSymbols [] u) a1 c1 v
  have hvars : ∀ {e : Expr D}, EP e → ∀ s, has (.sym s) e = true → s ∈ (poly e).vars := by
    intro e he s hs
    by_contra hn
    rw [he.not_has (by rwa [MvPolynomial.mem_vars_iff_degreeOf_ne_zero, not_not] at hn)] at hs
    cases hs
  have hsub : ∀ s, .sym s ∈ addSymbols (addSymbols [] u) v → s ∈ (poly u).vars ∪ (poly v).vars := by
    intro s hs
    rw [Finset.mem_union]
    rcases d2 s hs with h | h
    · rcases c2 s h with h | h
      · simp at h
      · exact .inl (hvars hu s h)
    · exact .inr (hvars hv s h)
  have hmap : ∀ l : List (Expr D), (∀ y ∈ l, ∃ t, y = .sym t) → l.Nodup → ∃ L : List Sym, l = L.map .sym ∧ L.Nodup := by
    intro l
    induction l with
    | nil => exact fun _ _ => ⟨[], rfl, by simp⟩
    | cons y l ih =>
      intro h hn
      obtain ⟨t, rfl⟩ := h y (by simp)
      obtain ⟨L, rfl, hL⟩ := ih (fun y hy => h y (by simp [hy])) hn.of_cons
      refine ⟨t :: L, rfl, List.nodup_cons.2 ⟨fun ht => ?_, hL⟩⟩
      exact (List.nodup_cons.1 hn).1 (List.mem_map.2 ⟨t, ht, rfl⟩)
  obtain ⟨L, hL, hn⟩ := hmap _ b1 d1
  rw [hL, List.length_map, ← List.toFinset_card_of_nodup hn]
  refine Finset.card_le_card fun s hs => hsub s ?_
  rw [hL]
  exact List.mem_map.2 ⟨s, List.mem_toFinset.1 hs, rfl⟩

/-- All symbols are allowed. -/
def GoodAcc (l : List (Expr D)) : Prop := ∀ y ∈ l, ∃ t : Sym, y = .sym t ∧ t.id.Ok

theorem GoodAcc.list {l : List (Expr D)} (h : ∀ a ∈ l, ∀ acc, GoodAcc acc → GoodAcc (addSymbols acc a)) :
    ∀ acc : List (Expr D), GoodAcc acc → GoodAcc (addSymbolsList acc l) := by
  induction l with
  | nil => intro acc hacc; simpa [addSymbolsList] using hacc
  | cons a l ih =>
    intro acc hacc
    rw [addSymbolsList]
    exact ih (fun b hb => h b (by simp [hb])) _ (h a (by simp) acc hacc)

theorem GoodAcc.sym {s : Sym} (hs : s.id.Ok) {acc : List (Expr D)} (h : GoodAcc acc) : GoodAcc (addSymbols acc (.sym s)) := by
  intro y hy
  simp only [addSymbols] at hy
  rcases (mem_addIf y fun y hy => (h y hy).imp fun _ h => h.1).1 hy with hy | hy
  · exact h y hy
  · exact ⟨s, hy, hs⟩

theorem GoodAcc.em {m : Mono D} {K : Key} (hK : IsKey m.2 K) {acc : List (Expr D)} (h : GoodAcc acc) : GoodAcc (addSymbols acc (em m)) := by
  have hf : ∀ x ∈ K, ∀ acc : List (Expr D), GoodAcc acc → GoodAcc (addSymbols acc (symFac x)) := by
    intro x hx acc h
    unfold symFac fac
    split
    · exact h.sym (hK.1 x hx).1
    · simp only [addSymbols]
      exact h.sym (hK.1 x hx).1
  have hl : ∀ a ∈ rl m.1 m.2, ∀ acc : List (Expr D), GoodAcc acc → GoodAcc (addSymbols acc a) := by
    intro a ha acc h
    rw [hK.2.2] at ha
    unfold rl at ha
    rw [Key.facs_map] at ha
    rcases List.mem_append.1 ha with ha | ha
    · split at ha
      · simp at ha
      · rw [List.mem_singleton.1 ha]; simpa [addSymbols] using h
    · obtain ⟨x, hx, rfl⟩ := List.mem_map.1 ha
      exact hf x hx acc h
  unfold Tsym.em
  rcases mexpr_cases m.1 m.2 with ⟨h0, e⟩ | ⟨f, h1, h2, e⟩ | ⟨_, _, e⟩
  · rw [e]; simpa [addSymbols] using h
  · rw [e]
    refine hl _ ?_ _ h
    rw [h1, h2, rl_one]; simp
  · rw [e, addSymbols]; exact GoodAcc.list hl _ h

theorem GoodAcc.ep {r : Expr D} (hr : EP r) {acc : List (Expr D)} (h : GoodAcc acc) : GoodAcc (addSymbols acc r) := by
  rcases hr.cases with rfl | ⟨m, K, hm, hK, rfl⟩ | ⟨L, hL, h2, rfl⟩
  · rw [zero_eq]; simpa [addSymbols] using h
  · exact h.em hK
  · rw [addSymbols]
    refine GoodAcc.list (fun a ha acc h => ?_) _ h
    obtain ⟨m, hm, rfl⟩ := List.mem_map.1 ha
    obtain ⟨K, hK⟩ := hL.ks.key m hm
    exact h.em hK

/-- The list of the symbols of two expanded polynomials. -/
theorem tot_listOfSymbols (hc : cfg.Ok) {u v : Expr D} (hu : EP u) (hv : EP v)
    (hbu : ∀ t, ((poly u).degreeOf t : ℤ) < intMax) (hbv : ∀ t, ((poly v).degreeOf t : ℤ) < intMax) :
    ∃ L : List Sym, Tot cfg (fun E => listOfSymbols E u v) (L.map .sym) ∧ (∀ s ∈ L, s.id.Ok) ∧
      (∀ t, t ∉ L → (poly u).degreeOf t = 0 ∧ (poly v).degreeOf t = 0) ∧
      (L.map .sym : List (Expr D)).Perm (addSymbols (addSymbols [] u) v) := by
  have hg : GoodAcc (addSymbols (addSymbols [] u) v) := GoodAcc.ep hv (GoodAcc.ep hu (by simp [GoodAcc]))
  obtain ⟨a1, a2, a3⟩ := addSymbols_spec ([] : List (Expr D)) (by simp) u
  obtain ⟨b1, b2, b3⟩ := addSymbols_spec (addSymbols [] u) a1 v
  have hperm := hc.sort (comparePolyVariables (degreeOr u v)) (addSymbols (addSymbols [] u) v)
  have hg' : GoodAcc (cfg.sort (comparePolyVariables (degreeOr u v)) (addSymbols (addSymbols [] u) v)) := fun y hy => hg y (hperm.mem_iff.1 hy)
  have hmap : ∀ l : List (Expr D), GoodAcc l → ∃ L : List Sym, l = L.map .sym ∧ ∀ s ∈ L, s.id.Ok := by
    intro l
    induction l with
    | nil => exact fun _ => ⟨[], rfl, by simp⟩
    | cons y l ih =>
      intro h
      obtain ⟨t, rfl, ht⟩ := h y (by simp)
      obtain ⟨L, rfl, hL⟩ := ih fun y hy => h y (by simp [hy])
      exact ⟨t :: L, rfl, by simpa using ⟨ht, hL⟩⟩
  obtain ⟨L, hL, hLok⟩ := hmap _ hg'
  refine ⟨L, ?_, hLok, fun t ht => ?_, by rw [← hL]; exact hperm⟩
  · have hcheck : ∀ l : List (Expr D), GoodAcc l → checkDegrees u v l = .ok () := by
      intro l
      induction l with
      | nil => intro _; rfl
      | cons y l ih =>
        intro h
        obtain ⟨t, rfl, ht⟩ := h y (by simp)
        rw [checkDegrees, minDegreeOf, degree_ep t hu (hbu t), degree_ep t hv (hbv t)]
        exact ih fun y hy => h y (by simp [hy])
    refine ⟨0, fun n _ => ?_⟩
    have e : (eng cfg n).cfg = cfg := eng_cfg cfg n
    simp only [listOfSymbols, e, hL, hcheck _ hg]
    split <;> rfl
  · have h1 : (.sym t : Expr D) ∉ addSymbols (addSymbols [] u) v := by
      intro h
      rw [← hperm.mem_iff, hL] at h
      obtain ⟨t', ht', e⟩ := List.mem_map.1 h
      cases e
      exact ht ht'
    exact ⟨a3 t fun h => h1 (b2 _ h), b3 t h1⟩

/-- Division of expanded polynomials. -/
theorem polyDivide_ok (hc : cfg.Ok) {u v : Expr D} (hu : EP u) (hv : EP v) (h0 : poly v ≠ 0) (hco : CoeffsOk cfg.maxPrime (poly v))
    {U d k : ℕ} (hub : ∀ t, (poly u).degreeOf t ≤ U) (hvb : ∀ t, (poly v).degreeOf t ≤ d)
    (hk : (addSymbols (addSymbols [] u) v).length ≤ k) (hU : (((U + 1) * (d + 2) ^ k : ℕ) : ℤ) ≤ intMax) (hd : (d : ℤ) < intMax) :
    ∃ q r, Rts cfg (fun E => polyDivide E u v) (q, r) ∧ EP q ∧ EP r ∧ poly u = poly q * poly v + poly r ∧ (poly v ∣ poly u → poly r = 0) := by
  have hUi : (U : ℤ) < intMax := by
    have h2 : U + 1 ≤ (U + 1) * (d + 2) ^ k := Nat.le_mul_of_pos_right _ (Nat.pow_pos (by omega))
    omega
  obtain ⟨L, l1, l2, l3, l4⟩ := tot_listOfSymbols hc hu hv (fun t => by have := hub t; omega) fun t => by have := hvb t; omega
  have hlen : L.length ≤ k := by rw [← l4.length_eq, List.length_map] at hk; exact hk
  obtain ⟨q, r, g1, g2⟩ := divideL_ok hc L u v U l2 hu hv h0 hco hub hvb (by
    refine le_trans ?_ hU
    exact_mod_cast Nat.mul_le_mul_left _ (Nat.pow_le_pow_right (by omega) hlen)) hd (fun t ht => (l3 t ht).1) fun t ht => (l3 t ht).2
  refine ⟨q, r, ?_, g2⟩
  unfold polyDivide
  exact rts_bind l1.rts g1

end

end Tsym
