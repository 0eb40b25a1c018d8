import Verif.GcdLoop

set_option autoImplicit false
set_option linter.unusedSectionVars false
set_option linter.unusedSimpArgs false
set_option linter.unusedVariables false

/-!
# Helper lemmas for the greatest common divisor: the whole algorithm
-/

namespace Tsym

open Expr

/-! ## Greatest common divisors up to units -/

theorem IsGcd.unit {A : Type*} [CommRing A] {g a b x y z : A} (h : IsGcd g a b) (hx : IsUnit x) (hy : IsUnit y) (hz : IsUnit z) :
    IsGcd (x * g) (y * a) (z * b) := by
  have h1 : ∀ {w p : A}, IsUnit w → ∀ d, (d ∣ w * p ↔ d ∣ p) := fun hw d => hw.dvd_mul_left
  refine ⟨?_, ?_, fun d hd1 hd2 => (h1 hx d).2 (h.greatest d ((h1 hy d).1 hd1) ((h1 hz d).1 hd2))⟩
  · rw [h1 hy, hx.mul_left_dvd]; exact h.left
  · rw [h1 hz, hx.mul_left_dvd]; exact h.right

/-- Polynomials of which no symbol is in both have no common divisors but constants. -/
theorem unit_of_common {d u v : MvPolynomial Sym ℚ} (hu : u ≠ 0) (hv : v ≠ 0) (h : ∀ t, u.degreeOf t = 0 ∨ v.degreeOf t = 0) (hd1 : d ∣ u) (hd2 : d ∣ v) : IsUnit d := by
  have h1 : ∀ t, d.degreeOf t = 0 := by
    intro t
    have a := degreeOf_dvd t hu hd1
    have b := degreeOf_dvd t hv hd2
    rcases h t with h | h <;> omega
  have h2 := const_of_degree h1
  have h3 : d.coeff 0 ≠ 0 := by
    intro h3
    rw [h3, map_zero] at h2
    rw [h2, zero_dvd_iff] at hd1
    exact hu hd1
  rw [h2]
  exact isUnit_C h3

theorem isGcd_unit {g u v : MvPolynomial Sym ℚ} (hu : u ≠ 0) (hv : v ≠ 0) (h : ∀ t, u.degreeOf t = 0 ∨ v.degreeOf t = 0) (hg : IsUnit g) : IsGcd g u v :=
  ⟨hg.dvd, hg.dvd, fun d h1 h2 => (unit_of_common hu hv h h1 h2).dvd⟩

variable {D : Type} [Flt D] [ExactLt D] {cfg : Cfg D}

/-- The content is free of the symbol, and of small degree. -/
theorem CoeffGcd.degrees {s : Sym} {c p : MvPolynomial Sym ℚ} (h : CoeffGcd c (upoly s p)) (hp : p ≠ 0) : c ≠ 0 ∧ c.degreeOf s = 0 ∧ c ∣ p ∧ ∀ t, c.degreeOf t ≤ p.degreeOf t := by
  have h1 : c ∣ lcs s p := h.dvd _
  have h2 : lcs s p ≠ 0 := lcs_ne hp
  have h3 : c.degreeOf s = 0 := by have := degreeOf_dvd s h2 h1; rw [lcs_free] at this; omega
  refine ⟨fun h0 => h2 (by rw [h0, zero_dvd_iff] at h1; exact h1), h3, ?_, fun t => le_trans (degreeOf_dvd t h2 h1) (lcs_degreeOf s t p)⟩
  rw [← upoly_dvd (s := s), upoly_free h3]; exact h.C_dvd

/-- The algorithm. -/
theorem subresGcd_ok (hc : cfg.Ok) (hp : cfg.maxPrime < 324) {s : Sym} {R : List Sym} {d : ℕ} (hn : GcdAt cfg R.length (2 * d)) (h1d : 1 ≤ d)
    (hd : ((2 * d * d * (d + 2) : ℕ) : ℤ) < intMax) (hm : 8 * ((d : ℤ) + 1) < Number.unsignedMax)
    (hs : ∀ x ∈ s :: R, x.id.Ok) (hnd : (s :: R).Nodup) {u v : Expr D} (hu : EP u) (hv : EP v) (hu0 : poly u ≠ 0) (hv0 : poly v ≠ 0)
    (hud : ∀ t, (poly u).degreeOf t ≤ d) (hvd : ∀ t, (poly v).degreeOf t ≤ d)
    (huL : ∀ t, t ∉ s :: R → (poly u).degreeOf t = 0) (hvL : ∀ t, t ∉ s :: R → (poly v).degreeOf t = 0)
    (hle : (poly v).degreeOf s ≤ (poly u).degreeOf s) :
    ∃ g, Rts cfg (fun E => subresGcd E u v (.sym s) (R.map .sym)) g ∧ EP g ∧ IsGcd (poly g) (poly u) (poly v) := by
  have hsR : s ∉ R := (List.nodup_cons.1 hnd).1
  have hRnd : R.Nodup := (List.nodup_cons.1 hnd).2
  have hRid : ∀ x ∈ R, x.id.Ok := fun x hx => hs x (List.mem_cons_of_mem _ hx)
  have hb2 : 2 * d * d ≤ 2 * d * d * (d + 2) := bound_le
  have h2d : 2 * d ≤ 2 * d * d := by nlinarith
  have hint : ∀ {p : MvPolynomial Sym ℚ}, (∀ t, p.degreeOf t ≤ 2 * d * d) → ∀ t, (p.degreeOf t : ℤ) < intMax := fun h t => by have := h t; omega
  have hd2 : ((2 * d : ℕ) : ℤ) < intMax := by omega
  have hdd : ∀ {p : MvPolynomial Sym ℚ}, (∀ t, p.degreeOf t ≤ d) → ∀ t, p.degreeOf t ≤ 2 * d := fun h t => by have := h t; omega
  -- the contents
  obtain ⟨uc, uc1, uc2, uc3⟩ := polyContent_ok hc hn hd2 le_rfl hu hu0 (hdd hud) huL
  obtain ⟨vc, vc1, vc2, vc3⟩ := polyContent_ok hc hn hd2 le_rfl hv hv0 (hdd hvd) hvL
  obtain ⟨ucn, ucs, ucd, uct⟩ := uc3.degrees hu0
  obtain ⟨vcn, vcs, vcd, vct⟩ := vc3.degrees hv0
  have hR : ∀ {p q : MvPolynomial Sym ℚ}, p.degreeOf s = 0 → (∀ t, p.degreeOf t ≤ q.degreeOf t) → (∀ t, t ∉ s :: R → q.degreeOf t = 0) → ∀ t, t ∉ R → p.degreeOf t = 0 := by
    intro p q h1 h2 h3 t ht
    by_cases hts : t = s
    · rw [hts]; exact h1
    · have h4 := h2 t
      rw [h3 t (by simp [hts, ht])] at h4; omega
  obtain ⟨d0, d1, d2, d3⟩ := hn R le_rfl hRnd hRid uc vc uc2 vc2 (.inl ucn) (fun t => le_trans (uct t) (hdd hud t)) (fun t => le_trans (vct t) (hdd hvd t)) (hR ucs uct huL) (hR vcs vct hvL)
  -- the primitive parts
  have hbu : ∀ t, ((poly u).degreeOf t : ℤ) < intMax := hint fun t => by have := hud t; omega
  have hbv : ∀ t, ((poly v).degreeOf t : ℤ) < intMax := hint fun t => by have := hvd t; omega
  obtain ⟨U, U1, U2, U3⟩ := divideL_exact hc (s :: R) u uc hs hu uc2 hu0 ucd (coeffsOk_small hp _) hbu huL
  obtain ⟨V, V1, V2, V3⟩ := divideL_exact hc (s :: R) v vc hs hv vc2 hv0 vcd (coeffsOk_small hp _) hbv hvL
  have hU0 : poly U ≠ 0 := by intro h; rw [h, zero_mul] at U3; exact hu0 U3
  have hV0 : poly V ≠ 0 := by intro h; rw [h, zero_mul] at V3; exact hv0 V3
  have hUt : ∀ t, (poly U).degreeOf t ≤ (poly u).degreeOf t := fun t => degreeOf_dvd t hu0 ⟨_, U3⟩
  have hVt : ∀ t, (poly V).degreeOf t ≤ (poly v).degreeOf t := fun t => degreeOf_dvd t hv0 ⟨_, V3⟩
  have hUs : (poly U).degreeOf s = (poly u).degreeOf s := by rw [U3, degreeOf_mul_ne s hU0 ucn, ucs, add_zero]
  have hVs : (poly V).degreeOf s = (poly v).degreeOf s := by rw [V3, degreeOf_mul_ne s hV0 vcn, vcs, add_zero]
  have hUd : ∀ t, (poly U).degreeOf t ≤ d := fun t => le_trans (hUt t) (hud t)
  have hVd : ∀ t, (poly V).degreeOf t ≤ d := fun t => le_trans (hVt t) (hvd t)
  have hUL : ∀ t, t ∉ s :: R → (poly U).degreeOf t = 0 := fun t ht => by have := hUt t; rw [huL t ht] at this; omega
  have hVL : ∀ t, t ∉ s :: R → (poly V).degreeOf t = 0 := fun t ht => by have := hVt t; rw [hvL t ht] at this; omega
  have hbU : ∀ t, ((poly U).degreeOf t : ℤ) < intMax := hint fun t => by have := hUd t; omega
  have hbV : ∀ t, ((poly V).degreeOf t : ℤ) < intMax := hint fun t => by have := hVd t; omega
  -- the leading coefficients
  obtain ⟨lu, lu1, lu2, lu3⟩ := tot_lead hc s U2 (hbU s)
  obtain ⟨lv, lv1, lv2, lv3⟩ := tot_lead hc s V2 (hbV s)
  rw [← lcs_eq] at lu3 lv3
  have hlu0 : poly lu ≠ 0 := by rw [lu3]; exact lcs_ne hU0
  have hlut : ∀ t, (poly lu).degreeOf t ≤ (poly U).degreeOf t := fun t => by rw [lu3]; exact lcs_degreeOf s t _
  have hlvt : ∀ t, (poly lv).degreeOf t ≤ (poly V).degreeOf t := fun t => by rw [lv3]; exact lcs_degreeOf s t _
  obtain ⟨g, g1, g2, g3⟩ := hn R le_rfl hRnd hRid lu lv lu2 lv2 (.inl hlu0) (fun t => le_trans (hlut t) (hdd hUd t)) (fun t => le_trans (hlvt t) (hdd hVd t))
    (hR (by rw [lu3]; exact lcs_free _ _) hlut hUL) (hR (by rw [lv3]; exact lcs_free _ _) hlvt hVL)
  have hg0 : poly g ≠ 0 := g3.ne_zero (.inl hlu0)
  rw [lu3, lv3] at g3
  -- the loop
  have hbeta : Tot cfg (fun E => E.powCreate mOne (.int (((poly U).degreeOf s : ℤ) - (poly V).degreeOf s + 1))) (.num (.rat ((-1) ^ (((poly U).degreeOf s : ℤ) - (poly V).degreeOf s + 1)))) := by
    refine tot_pow (tot_powNum hc (q := -1) (.inl (by norm_num)) ?_ (fun _ => .inl hp))
    have := hUd s
    omega
  obtain ⟨W, W1, W2⟩ := loop_ok hc hp hs hsR (g := poly g) (d := d) U2 V2 (beta := .num (.rat ((-1) ^ (((poly U).degreeOf s : ℤ) - (poly V).degreeOf s + 1))))
    ⟨hU0, hV0, by omega, hUd, hVd, g3.left, g3.right, h1d⟩ hUL hVL hd hm (EP.num _) (by rw [poly_ratE]; exact isUnit_C (zpow_ne_zero _ (by norm_num)))
  -- the last polynomial divided by its leading coefficient over g
  obtain ⟨l, l1, l2, l3⟩ := tot_lead hc s W2.ep (hint W2.le s)
  rw [← lcs_eq] at l3
  have hl0 : poly l ≠ 0 := by rw [l3]; exact lcs_ne W2.ne
  have hlt : ∀ t, (poly l).degreeOf t ≤ (poly W).degreeOf t := fun t => by rw [l3]; exact lcs_degreeOf s t _
  obtain ⟨t1, t1a, t1b, t1c⟩ := divideL_exact hc R l g hRid l2 g2 hl0 (by rw [l3]; exact W2.dvd) (coeffsOk_small hp _)
    (hint fun t => le_trans (hlt t) (W2.le t)) (hR (by rw [l3]; exact lcs_free _ _) hlt W2.L)
  have ht10 : poly t1 ≠ 0 := by intro h; rw [h, zero_mul] at t1c; exact hl0 t1c
  have ht1s : (poly t1).degreeOf s = 0 := by
    have h1 := degreeOf_dvd s hl0 ⟨_, t1c⟩
    rw [l3, lcs_free] at h1; omega
  obtain ⟨k1, k2⟩ := last_dvd g3 W2.ne W2.gcd (by rw [← l3]; exact t1c)
  obtain ⟨T, T1, T2, T3⟩ := divideL_exact hc (s :: R) W t1 hs W2.ep t1b W2.ne k1 (coeffsOk_small hp _) (hint W2.le) W2.L
  have hT0 : poly T ≠ 0 := by intro h; rw [h, zero_mul] at T3; exact W2.ne T3
  have hTd : ∀ t, (poly T).degreeOf t ≤ 2 * d := by
    intro t
    have h1 := degreeOf_dvd t (mul_ne_zero hg0 hU0) (k2 _ T3)
    rw [degreeOf_mul_ne t hg0 hU0] at h1
    have h2 := degreeOf_dvd t (lcs_ne (s := s) hU0) g3.left
    have h3 := lcs_degreeOf s t (poly U)
    have h4 := hUd t
    omega
  have hTL : ∀ t, t ∉ s :: R → (poly T).degreeOf t = 0 := fun t ht => by
    have := degreeOf_dvd t W2.ne ⟨_, T3⟩
    rw [W2.L t ht] at this; omega
  obtain ⟨c, c1, c2, c3⟩ := polyContent_ok hc hn hd2 le_rfl T2 hT0 hTd hTL
  obtain ⟨cn, cs, cd, ct⟩ := c3.degrees hT0
  obtain ⟨P, P1, P2, P3⟩ := divideL_exact hc (s :: R) T c hs T2 c2 hT0 cd (coeffsOk_small hp _) (hint fun t => le_trans (hTd t) h2d) hTL
  obtain ⟨p, p1, p2, p3⟩ := tot_prod2 hc (cfg := cfg) d2.pol P2.pol
  obtain ⟨r, r1, r2, r3⟩ := tot_expand' hc p2
  have eT : upoly s (poly T) = Polynomial.C (poly c) * upoly s (poly P) := by
    rw [P3, map_mul, upoly_free cs, mul_comm]
  have eW : upoly s (poly W) = Polynomial.C (poly t1) * upoly s (poly T) := by
    rw [T3, map_mul, upoly_free ht1s, mul_comm]
  refine ⟨r, ?_, r2, ?_⟩
  · unfold subresGcd
    refine rts_bind uc1 (rts_bind vc1 (rts_bind d1 (rts_bind U1 (rts_bind V1 (rts_bind lu1.rts (rts_bind lv1.rts (rts_bind g1
      (rts_bind (tot_lift (degree_ep s U2 (hbU s))).rts (rts_bind (tot_lift (degree_ep s V2 (hbV s))).rts (rts_bind hbeta.rts (rts_bind W1 ?_)))))))))))
    exact rts_bind l1.rts (rts_bind t1a (rts_bind T1 (rts_bind c1 (rts_bind P1 (rts_bind p1.rts r1.rts)))))
  · refine IsGcd.of_upoly (s := s) ?_
    have hd0s : (poly d0).degreeOf s = 0 := by
      have h1 := degreeOf_dvd s ucn d3.left
      rw [ucs] at h1; omega
    rw [r3, p3, map_mul, upoly_free hd0s]
    refine gcd_of_parts (U := upoly s (poly U)) (V := upoly s (poly V)) (G := upoly s (poly W)) (upoly_ne hu0) (upoly_ne hv0) uc3 vc3 ?_ ?_ d3 W2.gcd
      (c3.prim (upoly_ne hT0) eT) fun Q hQ => ?_
    · conv_lhs => rw [U3]
      rw [map_mul, upoly_free ucs, mul_comm]
    · conv_lhs => rw [V3]
      rw [map_mul, upoly_free vcs, mul_comm]
    · rw [eW, eT]
      exact ⟨fun h => prim_dvd hQ cn (prim_dvd hQ ht10 h), fun h => (h.mul_left _).mul_left _⟩

theorem gcdAlgo_ok (hc : cfg.Ok) (hp : cfg.maxPrime < 324) {s : Sym} {R : List Sym} {d : ℕ} (hn : GcdAt cfg R.length (2 * d)) (h1d : 1 ≤ d)
    (hd : ((2 * d * d * (d + 2) : ℕ) : ℤ) < intMax) (hm : 8 * ((d : ℤ) + 1) < Number.unsignedMax)
    (hs : ∀ x ∈ s :: R, x.id.Ok) (hnd : (s :: R).Nodup) {u v : Expr D} (hu : EP u) (hv : EP v) (hu0 : poly u ≠ 0) (hv0 : poly v ≠ 0)
    (hud : ∀ t, (poly u).degreeOf t ≤ d) (hvd : ∀ t, (poly v).degreeOf t ≤ d)
    (huL : ∀ t, t ∉ s :: R → (poly u).degreeOf t = 0) (hvL : ∀ t, t ∉ s :: R → (poly v).degreeOf t = 0) :
    ∃ g, Rts cfg (fun E => gcdAlgo E u v ((s :: R).map .sym)) g ∧ EP g ∧ IsGcd (poly g) (poly u) (poly v) := by
  have hb2 : 2 * d * d ≤ 2 * d * d * (d + 2) := bound_le
  have h2d : 2 * d ≤ 2 * d * d := by nlinarith
  have e1 := degree_ep s hu (by have := hud s; omega)
  have e2 := degree_ep s hv (by have := hvd s; omega)
  simp only [List.map_cons, gcdAlgo]
  by_cases hlt : (poly u).degreeOf s < (poly v).degreeOf s
  · obtain ⟨g, g1, g2, g3⟩ := subresGcd_ok hc hp hn h1d hd hm hs hnd hv hu hv0 hu0 hvd hud hvL huL hlt.le
    refine ⟨g, rts_bind (tot_lift e1).rts (rts_bind (tot_lift e2).rts ?_), g2, g3.symm⟩
    have : ((poly u).degreeOf s : ℤ) < (poly v).degreeOf s := by exact_mod_cast hlt
    simp only [this, if_true]
    exact g1
  · obtain ⟨g, g1, g2, g3⟩ := subresGcd_ok hc hp hn h1d hd hm hs hnd hu hv hu0 hv0 hud hvd huL hvL (not_lt.1 hlt)
    refine ⟨g, rts_bind (tot_lift e1).rts (rts_bind (tot_lift e2).rts ?_), g2, g3⟩
    have : ¬ ((poly u).degreeOf s : ℤ) < (poly v).degreeOf s := by exact_mod_cast hlt
    simp only [this, if_false]
    exact g1

theorem tot_oneOver_int (hc : cfg.Ok) (hp : cfg.maxPrime < 324) {c : ℤ} (h : c ≠ 0) : Tot cfg (fun E => E.oneOver (.int c)) (.num (.rat ((c : ℚ)⁻¹))) := by
  have h1 := tot_pow (tot_powNum (cfg := cfg) hc (q := (c : ℚ)) (n := -1) (.inl (by exact_mod_cast h)) (by norm_num [Number.unsignedMax]) (fun _ => .inl hp))
  rw [zpow_neg_one] at h1
  have h2 : (int (-1) : Expr D) = mOne := by rw [mOne_rat]; simp [int]
  rw [h2] at h1
  exact h1

theorem gcdViaAlgo_ok (hc : cfg.Ok) (hp : cfg.maxPrime < 324) {s : Sym} {R : List Sym} {d : ℕ} (hn : GcdAt cfg R.length (2 * d)) (h1d : 1 ≤ d)
    (hd : ((2 * d * d * (d + 2) : ℕ) : ℤ) < intMax) (hm : 8 * ((d : ℤ) + 1) < Number.unsignedMax)
    (hs : ∀ x ∈ s :: R, x.id.Ok) (hnd : (s :: R).Nodup) {u v : Expr D} (hu : EP u) (hv : EP v) (hu0 : poly u ≠ 0) (hv0 : poly v ≠ 0)
    (hud : ∀ t, (poly u).degreeOf t ≤ d) (hvd : ∀ t, (poly v).degreeOf t ≤ d)
    (huL : ∀ t, t ∉ s :: R → (poly u).degreeOf t = 0) (hvL : ∀ t, t ∉ s :: R → (poly v).degreeOf t = 0) :
    ∃ g, Rts cfg (fun E => gcdViaAlgo E u v ((s :: R).map .sym)) g ∧ EP g ∧ IsGcd (poly g) (poly u) (poly v) := by
  obtain ⟨c, c0, c1⟩ := tot_integerContent2 (cfg := cfg) hu hv (.inl hu0)
  have hcq : (c : ℚ) ≠ 0 := by exact_mod_cast c0
  have hci : ((c : ℚ)⁻¹) ≠ 0 := inv_ne_zero hcq
  obtain ⟨ur, u1, u2, u3⟩ := tot_num_ep hc (cfg := cfg) ((c : ℚ)⁻¹) hu
  obtain ⟨vr, v1, v2, v3⟩ := tot_num_ep hc (cfg := cfg) ((c : ℚ)⁻¹) hv
  have hC : ∀ t, (MvPolynomial.C (σ := Sym) ((c : ℚ)⁻¹)).degreeOf t = 0 := fun t => MvPolynomial.degreeOf_C _ _
  have hC0 : (MvPolynomial.C (σ := Sym) ((c : ℚ)⁻¹)) ≠ 0 := (isUnit_C hci).ne_zero
  have hur : ∀ t, (poly ur).degreeOf t = (poly u).degreeOf t := fun t => by rw [u3, degreeOf_mul_ne t hC0 hu0, hC, zero_add]
  have hvr : ∀ t, (poly vr).degreeOf t = (poly v).degreeOf t := fun t => by rw [v3, degreeOf_mul_ne t hC0 hv0, hC, zero_add]
  obtain ⟨g, g1, g2, g3⟩ := gcdAlgo_ok hc hp hn h1d hd hm hs hnd u2 v2 (by rw [u3]; exact mul_ne_zero hC0 hu0) (by rw [v3]; exact mul_ne_zero hC0 hv0)
    (fun t => by rw [hur]; exact hud t) (fun t => by rw [hvr]; exact hvd t) (fun t ht => by rw [hur]; exact huL t ht) (fun t ht => by rw [hvr]; exact hvL t ht)
  obtain ⟨r, r1, r2, r3⟩ := tot_num_ep hc (cfg := cfg) (c : ℚ) g2
  refine ⟨r, ?_, r2, ?_⟩
  · unfold gcdViaAlgo
    exact rts_bind c1.rts (rts_bind (tot_oneOver_int hc hp c0).rts (rts_bind u1.rts (rts_bind v1.rts (rts_bind g1 r1.rts))))
  · have h1 := g3.unit (isUnit_C hcq) (isUnit_C hcq) (isUnit_C hcq)
    rw [u3, v3, ← mul_assoc, ← mul_assoc, ← map_mul, mul_inv_cancel₀ hcq, map_one, one_mul, one_mul] at h1
    rw [r3]; exact h1

theorem EP.num_iff {e : Expr D} (h : EP e) {n : Number D} (hn : e = .num n) : ∃ q : ℚ, n = .rat q := by
  match n, hn with
  | .rat q, _ => exact ⟨q, rfl⟩
  | .dbl x, hn => have := h.polyE; rw [hn] at this; simp [isPolyE] at this

theorem EP.isOne_poly {e : Expr D} (h : EP e) (h1 : e.isOne = true) : poly e = 1 := by
  match e, h, h1 with
  | .num n, h, h1 =>
    obtain ⟨q, rfl⟩ := h.num_iff rfl
    rw [isOne_ratE, decide_eq_true_eq] at h1
    rw [poly_ratE, h1, map_one]

/-- The middle part. -/
theorem gcdRaw_ok (hc : cfg.Ok) (hp : cfg.maxPrime < 324) {L : List Sym} {d : ℕ} (hn : ∀ s R, L = s :: R → GcdAt cfg R.length (2 * d)) (h1d : 1 ≤ d)
    (hd : ((2 * d * d * (d + 2) : ℕ) : ℤ) < intMax) (hm : 8 * ((d : ℤ) + 1) < Number.unsignedMax)
    (hs : ∀ x ∈ L, x.id.Ok) (hnd : L.Nodup) {u v : Expr D} (hu : EP u) (hv : EP v) (h0 : poly u ≠ 0 ∨ poly v ≠ 0)
    (hud : ∀ t, (poly u).degreeOf t ≤ d) (hvd : ∀ t, (poly v).degreeOf t ≤ d)
    (huL : ∀ t, t ∉ L → (poly u).degreeOf t = 0) (hvL : ∀ t, t ∉ L → (poly v).degreeOf t = 0) :
    ∃ g, Rts cfg (fun E => gcdRaw E u v u v (L.map .sym)) (some g) ∧ EP g ∧ IsGcd (poly g) (poly u) (poly v) := by
  unfold gcdRaw
  by_cases h1 : (u.isOne || v.isOne) = true
  · simp only [h1, if_true]
    refine ⟨one, (tot_pure _).rts, by rw [one_eq]; exact EP.num 1, ?_⟩
    rw [poly_one]
    refine ⟨one_dvd _, one_dvd _, fun x hx hy => ?_⟩
    rw [Bool.or_eq_true] at h1
    rcases h1 with h1 | h1
    · rwa [hu.isOne_poly h1] at hx
    · rwa [hv.isOne_poly h1] at hy
  simp only [h1, Bool.false_eq_true, if_false]
  have h2 : (u.isZero && v.isZero) = false := by
    rw [Bool.and_eq_false_iff, Bool.eq_false_iff, Bool.eq_false_iff]
    exact h0.imp (fun h h' => h (hu.isZero.1 h')) fun h h' => h (hv.isZero.1 h')
  simp only [h2, Bool.false_eq_true, if_false]
  by_cases hu0 : poly u = 0
  · simp only [hu.isZero.2 hu0, if_true]
    refine ⟨v, (tot_pure _).rts, hv, ?_⟩
    rw [hu0]; exact ⟨dvd_zero _, dvd_rfl, fun _ _ h => h⟩
  have hzu : u.isZero = false := by rw [Bool.eq_false_iff]; exact fun h => hu0 (hu.isZero.1 h)
  simp only [hzu, Bool.false_eq_true, if_false]
  by_cases hv0 : poly v = 0
  · simp only [hv.isZero.2 hv0, if_true]
    refine ⟨u, (tot_pure _).rts, hu, ?_⟩
    rw [hv0]; exact ⟨dvd_rfl, dvd_zero _, fun _ h _ => h⟩
  have hzv : v.isZero = false := by rw [Bool.eq_false_iff]; exact fun h => hv0 (hv.isZero.1 h)
  simp only [hzv, Bool.false_eq_true, if_false]
  by_cases he : isEqual u v = true
  · simp only [he, if_true]
    refine ⟨u, (tot_pure _).rts, hu, ?_⟩
    have := (isEqual_eq u (isPolyE_exact u hu.polyE) v (isPolyE_exact v hv.polyE)).1 he
    rw [← this]
    exact ⟨dvd_rfl, dvd_rfl, fun _ h _ => h⟩
  simp only [he, if_false]
  by_cases hnum : (∃ a, u = .num a) ∧ ∃ b, v = .num b
  · obtain ⟨⟨a, rfl⟩, b, rfl⟩ := hnum
    obtain ⟨p, rfl⟩ := hu.num_iff rfl
    obtain ⟨q, rfl⟩ := hv.num_iff rfl
    have hp0 : p ≠ 0 := by rintro rfl; rw [poly_ratE, map_zero] at hu0; exact hu0 rfl
    obtain ⟨x, x0, x1⟩ := tot_computeNumerics (cfg := cfg) (a := p) (b := q) (.inl hp0)
    refine ⟨_, rts_bind x1.rts (tot_pure _).rts, EP.num x, isGcd_unit hu0 hv0 (fun t => .inl ?_) (by rw [poly_ratE]; exact isUnit_C x0)⟩
    rw [poly_ratE]; exact MvPolynomial.degreeOf_C _ _
  · by_cases hcs : haveCommonSymbol u v (L.map .sym) = true
    · match L, hn, hs, hnd, huL, hvL, hcs with
      | [], _, _, _, _, _, hcs => simp [haveCommonSymbol] at hcs
      | s :: R, hn, hs, hnd, huL, hvL, hcs =>
        obtain ⟨g, g1, g2, g3⟩ := gcdViaAlgo_ok hc hp (hn s R rfl) h1d hd hm hs hnd hu hv hu0 hv0 hud hvd huL hvL
        refine ⟨g, ?_, g2, g3⟩
        simp only [hcs, Bool.not_true, Bool.false_eq_true, if_false]
        split
        · exact absurd ⟨⟨_, rfl⟩, _, rfl⟩ hnum
        · exact rts_bind g1 (tot_pure _).rts
    · obtain ⟨c, c0, c1⟩ := tot_integerContent2 (cfg := cfg) hu hv (.inl hu0)
      have hcq : (c : ℚ) ≠ 0 := by exact_mod_cast c0
      refine ⟨.int c, ?_, EP.num (c : ℚ), isGcd_unit hu0 hv0 (fun t => ?_) (by rw [show poly (int c : Expr D) = MvPolynomial.C (c : ℚ) from poly_ratE _]; exact isUnit_C hcq)⟩
      · simp only [Bool.not_eq_true _ |>.mp hcs, Bool.not_false, Bool.false_eq_true, if_false, if_true]
        split
        · exact absurd ⟨⟨_, rfl⟩, _, rfl⟩ hnum
        · exact rts_bind c1.rts (tot_pure _).rts
      by_cases ht : t ∈ L
      · simp only [haveCommonSymbol, List.any_map, List.any_eq_true, not_exists, not_and, Function.comp] at hcs
        have h3 := hcs t ht
        rw [Bool.and_eq_true, not_and_or, Bool.not_eq_true, Bool.not_eq_true] at h3
        exact h3.imp hu.of_not_has hv.of_not_has
      · exact .inl (huL t ht)

theorem gcdL_ok (hc : cfg.Ok) (hp : cfg.maxPrime < 324) {L : List Sym} {d : ℕ} (hn : ∀ s R, L = s :: R → GcdAt cfg R.length (2 * d)) (h1d : 1 ≤ d)
    (hd : ((2 * d * d * (d + 2) : ℕ) : ℤ) < intMax) (hm : 8 * ((d : ℤ) + 1) < Number.unsignedMax)
    (hs : ∀ x ∈ L, x.id.Ok) (hnd : L.Nodup) {u v : Expr D} (hu : EP u) (hv : EP v) (h0 : poly u ≠ 0 ∨ poly v ≠ 0)
    (hud : ∀ t, (poly u).degreeOf t ≤ d) (hvd : ∀ t, (poly v).degreeOf t ≤ d)
    (huL : ∀ t, t ∉ L → (poly u).degreeOf t = 0) (hvL : ∀ t, t ∉ L → (poly v).degreeOf t = 0) : GcdEx cfg u v L := by
  obtain ⟨g, g1, g2, g3⟩ := gcdRaw_ok hc hp hn h1d hd hm hs hnd hu hv h0 hud hvd huL hvL
  have hb2 : 2 * d * d ≤ 2 * d * d * (d + 2) := bound_le
  have h2d : 2 * d ≤ 2 * d * d := by nlinarith
  have hg0 := g3.ne_zero h0
  have hgt : ∀ t, (poly g).degreeOf t ≤ d ∧ (t ∉ L → (poly g).degreeOf t = 0) := by
    intro t
    rcases h0 with h0 | h0
    · have := degreeOf_dvd t h0 g3.left
      exact ⟨le_trans this (hud t), fun ht => by rw [huL t ht] at this; omega⟩
    · have := degreeOf_dvd t h0 g3.right
      exact ⟨le_trans this (hvd t), fun ht => by rw [hvL t ht] at this; omega⟩
  obtain ⟨c, r, c0, r1, r2, r3⟩ := tot_normalizeGcd hc L g2 hg0 (fun t => by have := (hgt t).1; omega) fun t ht => (hgt t).2 ht
  refine ⟨r, ?_, r2, ?_⟩
  · refine rts_succ (f := fun E => gcdL E u v (L.map .sym)) (fun _ => rfl) ?_
    unfold gcdL
    refine rts_bind (tot_expand (tot_expand_ep hc hu)).rts (rts_bind (tot_expand (tot_expand_ep hc hv)).rts ?_)
    have hne : ((L.map .sym : List (Expr D)).isEmpty && !(u.isNumeric && v.isNumeric)) = false := by
      match L, huL, hvL with
      | [], huL, hvL =>
        rw [hu.eq_num (const_of_degree fun t => huL t (by simp)), hv.eq_num (const_of_degree fun t => hvL t (by simp))]
        rfl
      | s :: R, _, _ => rfl
    simp only [hne, Bool.false_eq_true, if_false]
    exact rts_bind g1 r1.rts
  · rw [r3]
    have h1 := g3.unit (isUnit_C c0) (isUnit_one (M := MvPolynomial Sym ℚ)) isUnit_one
    rwa [one_mul, one_mul] at h1

/-- Greatest common divisors in any number of symbols. -/
theorem gcdAt (hc : cfg.Ok) (hp : cfg.maxPrime < 324) (n : ℕ) : ∀ d : ℕ, 1 ≤ d → ((2 * (2 ^ n * d) * (2 ^ n * d) * (2 ^ n * d + 2) : ℕ) : ℤ) < intMax → GcdAt cfg n d := by
  induction n with
  | zero =>
    intro d h1 hd L hL hnd hs u v hu hv h0 hud hvd huL hvL
    have hL0 : L = [] := List.length_eq_zero_iff.1 (Nat.le_zero.1 hL)
    rw [pow_zero, one_mul] at hd
    refine gcdL_ok hc hp (fun s R e => by rw [hL0] at e; cases e) h1 hd ?_ hs hnd hu hv h0 hud hvd huL hvL
    have h2 : 2 * d ≤ 2 * d * d * (d + 2) := by nlinarith [bound_le (d := d)]
    clear huL hvL hud hvd
    unfold intMax at hd; unfold Number.unsignedMax
    have h3 : 2 * d * d * d ≤ 2 * d * d * (d + 2) := Nat.mul_le_mul le_rfl (by omega)
    by_contra h4
    have h5 : 100000 ≤ d := by omega
    have h6 : 100000 * 100000 ≤ d * d := Nat.mul_le_mul h5 h5
    have h7 : 2 * d * d = 2 * (d * d) := by ring
    have h8 : 2 * d * d ≤ 2 * d * d * (d + 2) := bound_le
    omega
  | succ n ih =>
    intro d h1 hd L hL hnd hs u v hu hv h0 hud hvd huL hvL
    have e : 2 ^ (n + 1) * d = 2 ^ n * (2 * d) := by rw [pow_succ]; ring
    have h2 : GcdAt cfg n (2 * d) := ih (2 * d) (by omega) (by rw [← e]; exact hd)
    have hle : d ≤ 2 ^ (n + 1) * d := Nat.le_mul_of_pos_left _ (by positivity)
    have hd' : ((2 * d * d * (d + 2) : ℕ) : ℤ) < intMax := by
      refine lt_of_le_of_lt ?_ hd
      have : 2 * d * d * (d + 2) ≤ 2 * (2 ^ (n + 1) * d) * (2 ^ (n + 1) * d) * (2 ^ (n + 1) * d + 2) := by gcongr
      exact_mod_cast this
    refine gcdL_ok hc hp (fun s R e => ?_) h1 hd' ?_ hs hnd hu hv h0 hud hvd huL hvL
    · subst e
      have hR : R.length ≤ n := by simpa using hL
      exact fun L' hL' => h2 L' (le_trans hL' hR)
    · clear huL hvL hud hvd hd
      unfold intMax at hd'; unfold Number.unsignedMax
      by_contra h4
      have h5 : 100000 ≤ d := by omega
      have h6 : 100000 * 100000 ≤ d * d := Nat.mul_le_mul h5 h5
      have h7 : 2 * d * d = 2 * (d * d) := by ring
      have h8 : 2 * d * d ≤ 2 * d * d * (d + 2) := bound_le
      omega

end Tsym
