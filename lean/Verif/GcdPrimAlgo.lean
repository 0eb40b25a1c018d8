import Verif.GcdPrim

set_option autoImplicit false
set_option linter.unusedSectionVars false
set_option linter.unusedSimpArgs false
set_option linter.unusedVariables false

/-!
# Helper lemmas for the greatest common divisor: contents and the whole of the primitive algorithm
-/

namespace Tsym

open Expr

variable {D : Type} [Flt D] [ExactLt D] {cfg : Cfg D}

/-- The given function returns greatest common divisors for polynomials in at most `n` symbols with degrees up
to `d`. -/
def GcdBy (cfg : Cfg D) (G : Eng D → Expr D → Expr D → List (Expr D) → M D (Expr D)) (n d : ℕ) : Prop :=
  ∀ L : List Sym, L.length ≤ n → L.Nodup → (∀ s ∈ L, s.id.Ok) → ∀ u v : Expr D, EP u → EP v → (poly u ≠ 0 ∨ poly v ≠ 0) →
    (∀ t, (poly u).degreeOf t ≤ d) → (∀ t, (poly v).degreeOf t ≤ d) → (∀ t, t ∉ L → (poly u).degreeOf t = 0) →
    (∀ t, t ∉ L → (poly v).degreeOf t = 0) → ∃ g, Rts cfg (fun E => G E u v (L.map .sym)) g ∧ EP g ∧ IsGcd (poly g) (poly u) (poly v)

variable {G : Eng D → Expr D → Expr D → List (Expr D) → M D (Expr D)}

theorem polyGcdBy_ok (hc : cfg.Ok) {n d : ℕ} (hn : GcdBy cfg G n d) (hd : (d : ℤ) < intMax) {R : List Sym} (hR : R.length ≤ n) {u v : Expr D} (hu : EP u) (hv : EP v)
    (h0 : poly u ≠ 0 ∨ poly v ≠ 0) (hud : ∀ t, (poly u).degreeOf t ≤ d) (hvd : ∀ t, (poly v).degreeOf t ≤ d)
    (huR : ∀ t, t ∉ R → (poly u).degreeOf t = 0) (hvR : ∀ t, t ∉ R → (poly v).degreeOf t = 0) :
    ∃ g, Rts cfg (fun E => polyGcd (E.withGcd (G E)) u v) g ∧ EP g ∧ IsGcd (poly g) (poly u) (poly v) := by
  have hub : ∀ t, ((poly u).degreeOf t : ℤ) < intMax := fun t => by have := hud t; omega
  have hvb : ∀ t, ((poly v).degreeOf t : ℤ) < intMax := fun t => by have := hvd t; omega
  obtain ⟨L, l1, l2, l3, l4⟩ := tot_listOfSymbols hc hu hv hub hvb
  obtain ⟨a1, a2, a3⟩ := addSymbols_spec ([] : List (Expr D)) (by simp) u
  obtain ⟨c1, c2⟩ := addSymbols_nodup ([] : List (Expr D)) (by simp) (by simp) u
  obtain ⟨d1, d2⟩ := addSymbols_nodup (addSymbols [] u) a1 c1 v
  have hnd : L.Nodup := List.Nodup.of_map _ (l4.nodup_iff.2 d1)
  have hsub : L ⊆ R := by
    intro s hs
    by_contra hsR
    have h1 : (.sym s : Expr D) ∈ addSymbols (addSymbols [] u) v := l4.mem_iff.1 (List.mem_map.2 ⟨s, hs, rfl⟩)
    rcases d2 s h1 with h | h
    · rcases c2 s h with h | h
      · simp at h
      · rw [hu.not_has (huR s hsR)] at h; cases h
    · rw [hv.not_has (hvR s hsR)] at h; cases h
  have hlen : L.length ≤ n := le_trans (List.subperm_of_subset hnd hsub).length_le hR
  obtain ⟨g, g1, g2, g3⟩ := hn L hlen hnd l2 u v hu hv h0 hud hvd (fun t ht => (l3 t ht).1) fun t ht => (l3 t ht).2
  refine ⟨g, ?_, g2, g3⟩
  have hok : isPolyInputValid u v = .ok true := by
    by_cases hv0 : poly v = 0
    · have hu0 : poly u ≠ 0 := h0.resolve_right fun h => h hv0
      have := isPolyInputValid_ep hv hu hu0 (fun t => by have := hvb t; omega) fun t => by have := hub t; omega
      have hz : u.isZero = false := by rw [Bool.eq_false_iff]; exact fun h => hu0 (hu.isZero.1 h)
      unfold isPolyInputValid at this ⊢
      rw [hz, Bool.and_false] at this
      rw [hz, Bool.false_and]
      simp only [Bool.false_eq_true, if_false] at this ⊢
      obtain ⟨a, h1, h2⟩ := Except.bind_ok.1 this
      cases a with
      | false => simp only [Bool.false_eq_true, if_false] at h2; cases h2
      | true =>
        simp only [if_true] at h2
        rw [h2]
        exact h1
    · exact isPolyInputValid_ep hu hv hv0 (fun t => by have := hub t; omega) fun t => by have := hvb t; omega
  unfold polyGcd
  refine rts_bind (tot_lift hok).rts ?_
  simp only [if_true]
  exact rts_bind l1.rts g1


theorem contentLoopBy_ok (hc : cfg.Ok) {n d : ℕ} (hn : GcdBy cfg G n d) (hd : (d : ℤ) < intMax) {s : Sym} {R : List Sym} (hR : R.length ≤ n) {e : Expr D} (he : EP e)
    (hed : ∀ t, (poly e).degreeOf t ≤ d) (heR : ∀ t, t ∉ s :: R → (poly e).degreeOf t = 0) (k : ℕ) :
    ∀ (i : ℕ) {acc : Expr D}, EP acc → (∀ x, x ∣ poly acc ↔ ∀ j < i, x ∣ (upoly s (poly e)).coeff j) →
      (poly acc ≠ 0 ∨ (upoly s (poly e)).coeff i ≠ 0) →
      ∃ c, Rts cfg (fun E => contentLoop (E.withGcd (G E)) e (.sym s) k i acc) c ∧ EP c ∧ ∀ x, x ∣ poly c ↔ ∀ j < i + k, x ∣ (upoly s (poly e)).coeff j := by
  induction k with
  | zero =>
    intro i acc ha hx h0
    exact ⟨acc, (tot_pure _).rts, ha, hx⟩
  | succ k ih =>
    intro i acc ha hx h0
    obtain ⟨c, c1, c2, c3⟩ := tot_coeff_ep' hc (cfg := cfg) s i he
    have hcoR : ∀ j t, t ∉ R → ((upoly s (poly e)).coeff j).degreeOf t = 0 := by
      intro j t ht
      by_cases hts : t = s
      · subst hts; exact upoly_coeff_free _ _ _
      · have := upoly_coeff_degreeOf s t j (poly e)
        rw [heR t (by simp [hts, ht])] at this; omega
    have hacc : poly acc = 0 ∨ ∃ j, (upoly s (poly e)).coeff j ≠ 0 ∧ poly acc ∣ (upoly s (poly e)).coeff j := by
      by_cases h : ∃ j < i, (upoly s (poly e)).coeff j ≠ 0
      · obtain ⟨j, hj, hj0⟩ := h
        exact .inr ⟨j, hj0, (hx _).1 dvd_rfl j hj⟩
      · left
        rw [← zero_dvd_iff, hx]
        intro j hj
        rw [zero_dvd_iff]
        by_contra hj0
        exact h ⟨j, hj, hj0⟩
    have had : ∀ t, (poly acc).degreeOf t ≤ d := by
      intro t
      rcases hacc with h | ⟨j, h1, h2⟩
      · rw [h, MvPolynomial.degreeOf_zero]; omega
      · exact le_trans (degreeOf_dvd t h1 h2) (le_trans (upoly_coeff_degreeOf s t j _) (hed t))
    have haR : ∀ t, t ∉ R → (poly acc).degreeOf t = 0 := by
      intro t ht
      rcases hacc with h | ⟨j, h1, h2⟩
      · rw [h, MvPolynomial.degreeOf_zero]
      · have := degreeOf_dvd t h1 h2
        rw [hcoR j t ht] at this; omega
    obtain ⟨g, g1, g2, g3⟩ := polyGcdBy_ok hc hn hd hR c2 ha (by rw [c3]; exact h0.symm)
      (fun t => by rw [c3]; exact le_trans (upoly_coeff_degreeOf s t i _) (hed t)) had (fun t ht => by rw [c3]; exact hcoR i t ht) haR
    have hg0 : poly g ≠ 0 := g3.ne_zero (by rw [c3]; exact h0.symm)
    obtain ⟨c', x1, x2, x3⟩ := ih (i + 1) g2 (by
      intro x
      constructor
      · intro hxg j hj
        rcases Nat.lt_succ_iff_lt_or_eq.1 hj with h | rfl
        · exact (hx x).1 (hxg.trans g3.right) j h
        · rw [← c3]; exact hxg.trans g3.left
      · intro h
        refine g3.greatest x (by rw [c3]; exact h i (by omega)) ((hx x).2 fun j hj => h j (by omega))) (.inl hg0)
    refine ⟨c', ?_, x2, fun x => by rw [x3 x, show i + 1 + k = i + (k + 1) by ring]⟩
    simp only [contentLoop]
    refine rts_bind c1.rts (rts_bind g1 ?_)
    push_cast at x1
    exact x1


theorem polyContentBy_ok (hc : cfg.Ok) {n d : ℕ} (hn : GcdBy cfg G n d) (hd : (d : ℤ) < intMax) {s : Sym} {R : List Sym} (hR : R.length ≤ n) {e : Expr D} (he : EP e)
    (h0 : poly e ≠ 0) (hed : ∀ t, (poly e).degreeOf t ≤ d) (heR : ∀ t, t ∉ s :: R → (poly e).degreeOf t = 0) :
    ∃ c, Rts cfg (fun E => polyContent (E.withGcd (G E)) e (.sym s)) c ∧ EP c ∧ CoeffGcd (poly c) (upoly s (poly e)) := by
  have hex : Tot cfg (fun E => E.expand e) e := tot_expand (tot_expand_ep hc he)
  unfold polyContent
  by_cases hnum : ∃ q : ℚ, e = .num (.rat q)
  · obtain ⟨q, rfl⟩ := hnum
    have hq : q ≠ 0 := by rintro rfl; rw [poly_ratE, map_zero] at h0; exact h0 rfl
    obtain ⟨p, hp, hpq⟩ := abs_rat (D := D) q
    have hp0 : p ≠ 0 := by rcases hpq with rfl | rfl; exacts [hq, neg_ne_zero.2 hq]
    refine ⟨.num (.rat p), rts_bind hex.rts ?_, EP.num p, ?_⟩
    · simp only [hp]; exact (tot_pure _).rts
    · rw [poly_ratE, poly_ratE, upoly_C]
      refine ⟨fun k => (isUnit_C hp0).dvd, fun x hx => ?_⟩
      have := hx 0
      rw [Polynomial.coeff_C_zero] at this
      exact this.trans ((isUnit_C hq).dvd)
  · obtain ⟨k, k1, k2, k3⟩ := minDegree_ep s he h0 (by have := hed s; omega)
    have hke : k ≤ (poly e).degreeOf s := by
      rw [← upoly_natDegree]; exact Polynomial.le_natDegree_of_ne_zero k2
    obtain ⟨c, c1, c2, c3⟩ := contentLoopBy_ok hc hn hd hR he hed heR ((poly e).degreeOf s - k + 1) k (acc := zero) EP.zero (by
      intro x
      rw [poly_zero]
      exact ⟨fun _ j hj => by rw [k3 j hj]; exact dvd_zero _, fun _ => dvd_zero _⟩) (.inr k2)
    refine ⟨c, rts_bind hex.rts ?_, c2, ?_⟩
    · have hnn : ∀ n : Number D, e ≠ .num n := by
        intro n hne
        match n with
        | .rat q => exact hnum ⟨q, hne⟩
        | .dbl x => have := he.polyE; rw [hne] at this; simp [isPolyE] at this
      split
      · rename_i n; exact absurd rfl (hnn n)
      · refine rts_bind (tot_lift k1).rts (rts_bind (tot_lift (degree_ep s he (by have := hed s; omega))).rts ?_)
        have : (((poly e).degreeOf s : ℤ) - (k : ℤ) + 1).toNat = (poly e).degreeOf s - k + 1 := by omega
        rw [this]
        exact c1
    · refine ⟨fun j => ?_, fun x hx => (c3 x).2 fun j _ => hx j⟩
      by_cases hj : j < k + ((poly e).degreeOf s - k + 1)
      · exact (c3 _).1 dvd_rfl j hj
      · rw [Polynomial.coeff_eq_zero_of_natDegree_lt (by rw [upoly_natDegree]; omega)]
        exact dvd_zero _



/-- The algorithm. -/
theorem primAlgo_ok (hc : cfg.Ok) (hp : cfg.maxPrime < 324) {s : Sym} {R : List Sym} {d : ℕ} (hG : GcdBy cfg G R.length d)
    (hn : GcdAt cfg R.length (2 * d * d * (d + 2))) (h1d : 1 ≤ d)
    (hd : ((2 * d * d * (d + 2) : ℕ) : ℤ) < intMax) (hm : 8 * ((d : ℤ) + 1) < Number.unsignedMax)
    (hs : ∀ x ∈ s :: R, x.id.Ok) (hnd : (s :: R).Nodup) {u v : Expr D} (hu : EP u) (hv : EP v) (hu0 : poly u ≠ 0) (hv0 : poly v ≠ 0)
    (hud : ∀ t, (poly u).degreeOf t ≤ d) (hvd : ∀ t, (poly v).degreeOf t ≤ d)
    (huL : ∀ t, t ∉ s :: R → (poly u).degreeOf t = 0) (hvL : ∀ t, t ∉ s :: R → (poly v).degreeOf t = 0) :
    ∃ g, Rts cfg (fun E => primAlgo E (G E) u v ((s :: R).map .sym)) g ∧ EP g ∧ IsGcd (poly g) (poly u) (poly v) := by
  have hRnd : R.Nodup := (List.nodup_cons.1 hnd).2
  have hRid : ∀ x ∈ R, x.id.Ok := fun x hx => hs x (List.mem_cons_of_mem _ hx)
  have hdl : d ≤ 2 * d * d * (d + 2) := by nlinarith [bound_le (d := d)]
  have hdi : (d : ℤ) < intMax := by omega
  -- the contents
  obtain ⟨uc, uc1, uc2, uc3⟩ := polyContentBy_ok hc hG hdi le_rfl hu hu0 hud huL
  obtain ⟨vc, vc1, vc2, vc3⟩ := polyContentBy_ok hc hG hdi le_rfl hv hv0 hvd hvL
  obtain ⟨ucn, ucs, ucd, uct⟩ := uc3.degrees hu0
  obtain ⟨vcn, vcs, vcd, vct⟩ := vc3.degrees hv0
  have hR : ∀ {p q : MvPolynomial Sym ℚ}, p.degreeOf s = 0 → (∀ t, p.degreeOf t ≤ q.degreeOf t) → (∀ t, t ∉ s :: R → q.degreeOf t = 0) → ∀ t, t ∉ R → p.degreeOf t = 0 := by
    intro p q h1 h2 h3 t ht
    by_cases hts : t = s
    · rw [hts]; exact h1
    · have h4 := h2 t
      rw [h3 t (by simp [hts, ht])] at h4; omega
  obtain ⟨d0, d1, d2, d3⟩ := hG R le_rfl hRnd hRid uc vc uc2 vc2 (.inl ucn) (fun t => le_trans (uct t) (hud t)) (fun t => le_trans (vct t) (hvd t)) (hR ucs uct huL) (hR vcs vct hvL)
  -- the primitive parts
  have hbu : ∀ t, ((poly u).degreeOf t : ℤ) < intMax := fun t => by have := hud t; omega
  have hbv : ∀ t, ((poly v).degreeOf t : ℤ) < intMax := fun t => by have := hvd t; omega
  obtain ⟨U, U1, U2, U3⟩ := divideL_exact hc (s :: R) u uc hs hu uc2 hu0 ucd (coeffsOk_small hp _) hbu huL
  obtain ⟨V, V1, V2, V3⟩ := divideL_exact hc (s :: R) v vc hs hv vc2 hv0 vcd (coeffsOk_small hp _) hbv hvL
  have hU0 : poly U ≠ 0 := by intro h; rw [h, zero_mul] at U3; exact hu0 U3
  have hV0 : poly V ≠ 0 := by intro h; rw [h, zero_mul] at V3; exact hv0 V3
  have hUt : ∀ t, (poly U).degreeOf t ≤ (poly u).degreeOf t := fun t => degreeOf_dvd t hu0 ⟨_, U3⟩
  have hVt : ∀ t, (poly V).degreeOf t ≤ (poly v).degreeOf t := fun t => degreeOf_dvd t hv0 ⟨_, V3⟩
  have eU : upoly s (poly u) = Polynomial.C (poly uc) * upoly s (poly U) := by
    conv_lhs => rw [U3]
    rw [map_mul, upoly_free ucs, mul_comm]
  have eV : upoly s (poly v) = Polynomial.C (poly vc) * upoly s (poly V) := by
    conv_lhs => rw [V3]
    rw [map_mul, upoly_free vcs, mul_comm]
  -- the loop
  obtain ⟨w, w1, w2⟩ := prim_loop hc hp hs h1d hn U2 V2 hU0 hV0 (fun t => le_trans (hUt t) (hud t)) (fun t => le_trans (hVt t) (hvd t))
    (fun t ht => by have := hUt t; rw [huL t ht] at this; omega) (fun t ht => by have := hVt t; rw [hvL t ht] at this; omega)
    (vc3.prim (upoly_ne hv0) eV) hd hm
  obtain ⟨p, p1, p2, p3⟩ := tot_prod2 hc (cfg := cfg) d2.pol w2.ep.pol
  obtain ⟨r, r1, r2, r3⟩ := tot_expand' hc p2
  refine ⟨r, ?_, r2, ?_⟩
  · simp only [List.map_cons, primAlgo]
    exact rts_bind uc1 (rts_bind vc1 (rts_bind d1 (rts_bind U1 (rts_bind V1 (rts_bind w1 (rts_bind p1.rts r1.rts))))))
  · refine IsGcd.of_upoly (s := s) ?_
    have hd0s : (poly d0).degreeOf s = 0 := by
      have h1 := degreeOf_dvd s ucn d3.left
      rw [ucs] at h1; omega
    rw [r3, p3, map_mul, upoly_free hd0s]
    exact gcd_of_parts (U := upoly s (poly U)) (V := upoly s (poly V)) (G := upoly s (poly w)) (upoly_ne hu0) (upoly_ne hv0) uc3 vc3 eU eV d3 w2.gcd
      w2.prim fun Q hQ => Iff.rfl

theorem primViaAlgo_ok (hc : cfg.Ok) (hp : cfg.maxPrime < 324) {s : Sym} {R : List Sym} {d : ℕ} (hG : GcdBy cfg G R.length d)
    (hn : GcdAt cfg R.length (2 * d * d * (d + 2))) (h1d : 1 ≤ d)
    (hd : ((2 * d * d * (d + 2) : ℕ) : ℤ) < intMax) (hm : 8 * ((d : ℤ) + 1) < Number.unsignedMax)
    (hs : ∀ x ∈ s :: R, x.id.Ok) (hnd : (s :: R).Nodup) {u v : Expr D} (hu : EP u) (hv : EP v) (hu0 : poly u ≠ 0) (hv0 : poly v ≠ 0)
    (hud : ∀ t, (poly u).degreeOf t ≤ d) (hvd : ∀ t, (poly v).degreeOf t ≤ d)
    (huL : ∀ t, t ∉ s :: R → (poly u).degreeOf t = 0) (hvL : ∀ t, t ∉ s :: R → (poly v).degreeOf t = 0) :
    ∃ g, Rts cfg (fun E => primViaAlgo E (G E) u v ((s :: R).map .sym)) g ∧ EP g ∧ IsGcd (poly g) (poly u) (poly v) := by
  obtain ⟨c, c0, c1⟩ := tot_integerContent2 (cfg := cfg) hu hv (.inl hu0)
  have hcq : (c : ℚ) ≠ 0 := by exact_mod_cast c0
  have hci : ((c : ℚ)⁻¹) ≠ 0 := inv_ne_zero hcq
  obtain ⟨ur, u1, u2, u3⟩ := tot_num_ep hc (cfg := cfg) ((c : ℚ)⁻¹) hu
  obtain ⟨vr, v1, v2, v3⟩ := tot_num_ep hc (cfg := cfg) ((c : ℚ)⁻¹) hv
  have hC : ∀ t, (MvPolynomial.C (σ := Sym) ((c : ℚ)⁻¹)).degreeOf t = 0 := fun t => MvPolynomial.degreeOf_C _ _
  have hC0 : (MvPolynomial.C (σ := Sym) ((c : ℚ)⁻¹)) ≠ 0 := (isUnit_C hci).ne_zero
  have hur : ∀ t, (poly ur).degreeOf t = (poly u).degreeOf t := fun t => by rw [u3, degreeOf_mul_ne t hC0 hu0, hC, zero_add]
  have hvr : ∀ t, (poly vr).degreeOf t = (poly v).degreeOf t := fun t => by rw [v3, degreeOf_mul_ne t hC0 hv0, hC, zero_add]
  obtain ⟨g, g1, g2, g3⟩ := primAlgo_ok hc hp hG hn h1d hd hm hs hnd u2 v2 (by rw [u3]; exact mul_ne_zero hC0 hu0) (by rw [v3]; exact mul_ne_zero hC0 hv0)
    (fun t => by rw [hur]; exact hud t) (fun t => by rw [hvr]; exact hvd t) (fun t ht => by rw [hur]; exact huL t ht) (fun t ht => by rw [hvr]; exact hvL t ht)
  obtain ⟨r, r1, r2, r3⟩ := tot_num_ep hc (cfg := cfg) (c : ℚ) g2
  refine ⟨r, ?_, r2, ?_⟩
  · unfold primViaAlgo
    exact rts_bind c1.rts (rts_bind (tot_oneOver_int hc hp c0).rts (rts_bind u1.rts (rts_bind v1.rts (rts_bind g1 r1.rts))))
  · have h1 := g3.unit (isUnit_C hcq) (isUnit_C hcq) (isUnit_C hcq)
    rw [u3, v3, ← mul_assoc, ← mul_assoc, ← map_mul, mul_inv_cancel₀ hcq, map_one, one_mul, one_mul] at h1
    rw [r3]; exact h1


theorem primRaw_ok (hc : cfg.Ok) (hp : cfg.maxPrime < 324) {L : List Sym} {d : ℕ} (hG : ∀ s R, L = s :: R → GcdBy cfg G R.length d) (hn : ∀ s R, L = s :: R → GcdAt cfg R.length (2 * d * d * (d + 2))) (h1d : 1 ≤ d)
    (hd : ((2 * d * d * (d + 2) : ℕ) : ℤ) < intMax) (hm : 8 * ((d : ℤ) + 1) < Number.unsignedMax)
    (hs : ∀ x ∈ L, x.id.Ok) (hnd : L.Nodup) {u v : Expr D} (hu : EP u) (hv : EP v) (h0 : poly u ≠ 0 ∨ poly v ≠ 0)
    (hud : ∀ t, (poly u).degreeOf t ≤ d) (hvd : ∀ t, (poly v).degreeOf t ≤ d)
    (huL : ∀ t, t ∉ L → (poly u).degreeOf t = 0) (hvL : ∀ t, t ∉ L → (poly v).degreeOf t = 0) :
    ∃ g, Rts cfg (fun E => primRaw E (G E) u v u v (L.map .sym)) (some g) ∧ EP g ∧ IsGcd (poly g) (poly u) (poly v) := by
  unfold primRaw
  by_cases h1 : (u.isOne || v.isOne) = true
  · simp only [h1, if_true]
    refine ⟨one, (tot_pure _).rts, by rw [one_eq]; exact EP.num 1, ?_⟩
    rw [poly_one]
    refine ⟨one_dvd _, one_dvd _, fun x hx hy => ?_⟩
    rw [Bool.or_eq_true] at h1
    rcases h1 with h1 | h1
    · rwa [hu.isOne_poly h1] at hx
    · rwa [hv.isOne_poly h1] at hy
  simp only [h1, Bool.false_eq_true, if_false]
  have h2 : (u.isZero && v.isZero) = false := by
    rw [Bool.and_eq_false_iff, Bool.eq_false_iff, Bool.eq_false_iff]
    exact h0.imp (fun h h' => h (hu.isZero.1 h')) fun h h' => h (hv.isZero.1 h')
  simp only [h2, Bool.false_eq_true, if_false]
  by_cases hu0 : poly u = 0
  · simp only [hu.isZero.2 hu0, if_true]
    refine ⟨v, (tot_pure _).rts, hv, ?_⟩
    rw [hu0]; exact ⟨dvd_zero _, dvd_rfl, fun _ _ h => h⟩
  have hzu : u.isZero = false := by rw [Bool.eq_false_iff]; exact fun h => hu0 (hu.isZero.1 h)
  simp only [hzu, Bool.false_eq_true, if_false]
  by_cases hv0 : poly v = 0
  · simp only [hv.isZero.2 hv0, if_true]
    refine ⟨u, (tot_pure _).rts, hu, ?_⟩
    rw [hv0]; exact ⟨dvd_rfl, dvd_zero _, fun _ h _ => h⟩
  have hzv : v.isZero = false := by rw [Bool.eq_false_iff]; exact fun h => hv0 (hv.isZero.1 h)
  simp only [hzv, Bool.false_eq_true, if_false]
  by_cases he : isEqual u v = true
  · simp only [he, if_true]
    refine ⟨u, (tot_pure _).rts, hu, ?_⟩
    have := (isEqual_eq u (isPolyE_exact u hu.polyE) v (isPolyE_exact v hv.polyE)).1 he
    rw [← this]
    exact ⟨dvd_rfl, dvd_rfl, fun _ h _ => h⟩
  simp only [he, if_false]
  by_cases hnum : (∃ a, u = .num a) ∧ ∃ b, v = .num b
  · obtain ⟨⟨a, rfl⟩, b, rfl⟩ := hnum
    obtain ⟨p, rfl⟩ := hu.num_iff rfl
    obtain ⟨q, rfl⟩ := hv.num_iff rfl
    have hp0 : p ≠ 0 := by rintro rfl; rw [poly_ratE, map_zero] at hu0; exact hu0 rfl
    obtain ⟨x, x0, x1⟩ := tot_computeNumerics (cfg := cfg) (a := p) (b := q) (.inl hp0)
    refine ⟨_, rts_bind x1.rts (tot_pure _).rts, EP.num x, isGcd_unit hu0 hv0 (fun t => .inl ?_) (by rw [poly_ratE]; exact isUnit_C x0)⟩
    rw [poly_ratE]; exact MvPolynomial.degreeOf_C _ _
  · by_cases hcs : haveCommonSymbol u v (L.map .sym) = true
    · match L, hG, hn, hs, hnd, huL, hvL, hcs with
      | [], _, _, _, _, _, _, hcs => simp [haveCommonSymbol] at hcs
      | s :: R, hG, hn, hs, hnd, huL, hvL, hcs =>
        obtain ⟨g, g1, g2, g3⟩ := primViaAlgo_ok hc hp (hG s R rfl) (hn s R rfl) h1d hd hm hs hnd hu hv hu0 hv0 hud hvd huL hvL
        refine ⟨g, ?_, g2, g3⟩
        simp only [hcs, Bool.not_true, Bool.false_eq_true, if_false]
        split
        · exact absurd ⟨⟨_, rfl⟩, _, rfl⟩ hnum
        · exact rts_bind g1 (tot_pure _).rts
    · obtain ⟨c, c0, c1⟩ := tot_integerContent2 (cfg := cfg) hu hv (.inl hu0)
      have hcq : (c : ℚ) ≠ 0 := by exact_mod_cast c0
      refine ⟨.int c, ?_, EP.num (c : ℚ), isGcd_unit hu0 hv0 (fun t => ?_) (by rw [show poly (int c : Expr D) = MvPolynomial.C (c : ℚ) from poly_ratE _]; exact isUnit_C hcq)⟩
      · simp only [Bool.not_eq_true _ |>.mp hcs, Bool.not_false, Bool.false_eq_true, if_false, if_true]
        split
        · exact absurd ⟨⟨_, rfl⟩, _, rfl⟩ hnum
        · exact rts_bind c1.rts (tot_pure _).rts
      by_cases ht : t ∈ L
      · simp only [haveCommonSymbol, List.any_map, List.any_eq_true, not_exists, not_and, Function.comp] at hcs
        have h3 := hcs t ht
        rw [Bool.and_eq_true, not_and_or, Bool.not_eq_true, Bool.not_eq_true] at h3
        exact h3.imp hu.of_not_has hv.of_not_has
      · exact .inl (huL t ht)


theorem primL_ok (hc : cfg.Ok) (hp : cfg.maxPrime < 324) {L : List Sym} {d k : ℕ} (hG : ∀ s R, L = s :: R → GcdBy cfg (fun E => primL E k) R.length d) (hn : ∀ s R, L = s :: R → GcdAt cfg R.length (2 * d * d * (d + 2))) (h1d : 1 ≤ d)
    (hd : ((2 * d * d * (d + 2) : ℕ) : ℤ) < intMax) (hm : 8 * ((d : ℤ) + 1) < Number.unsignedMax)
    (hs : ∀ x ∈ L, x.id.Ok) (hnd : L.Nodup) {u v : Expr D} (hu : EP u) (hv : EP v) (h0 : poly u ≠ 0 ∨ poly v ≠ 0)
    (hud : ∀ t, (poly u).degreeOf t ≤ d) (hvd : ∀ t, (poly v).degreeOf t ≤ d)
    (huL : ∀ t, t ∉ L → (poly u).degreeOf t = 0) (hvL : ∀ t, t ∉ L → (poly v).degreeOf t = 0) :
    ∃ g, Rts cfg (fun E => primL E (k + 1) u v (L.map .sym)) g ∧ EP g ∧ IsGcd (poly g) (poly u) (poly v) := by
  obtain ⟨g, g1, g2, g3⟩ := primRaw_ok (G := fun E => primL E k) hc hp hG hn h1d hd hm hs hnd hu hv h0 hud hvd huL hvL
  have hb2 : 2 * d * d ≤ 2 * d * d * (d + 2) := bound_le
  have h2d : 2 * d ≤ 2 * d * d := by nlinarith
  have hg0 := g3.ne_zero h0
  have hgt : ∀ t, (poly g).degreeOf t ≤ d ∧ (t ∉ L → (poly g).degreeOf t = 0) := by
    intro t
    rcases h0 with h0 | h0
    · have := degreeOf_dvd t h0 g3.left
      exact ⟨le_trans this (hud t), fun ht => by rw [huL t ht] at this; omega⟩
    · have := degreeOf_dvd t h0 g3.right
      exact ⟨le_trans this (hvd t), fun ht => by rw [hvL t ht] at this; omega⟩
  obtain ⟨c, r, c0, r1, r2, r3⟩ := tot_normalizeGcd hc L g2 hg0 (fun t => by have := (hgt t).1; omega) fun t ht => (hgt t).2 ht
  refine ⟨r, ?_, r2, ?_⟩
  · simp only [primL]
    refine rts_bind (tot_expand (tot_expand_ep hc hu)).rts (rts_bind (tot_expand (tot_expand_ep hc hv)).rts ?_)
    have hne : ((L.map .sym : List (Expr D)).isEmpty && !(u.isNumeric && v.isNumeric)) = false := by
      match L, huL, hvL with
      | [], huL, hvL =>
        rw [hu.eq_num (const_of_degree fun t => huL t (by simp)), hv.eq_num (const_of_degree fun t => hvL t (by simp))]
        rfl
      | s :: R, _, _ => rfl
    simp only [hne, Bool.false_eq_true, if_false]
    exact rts_bind g1 r1.rts
  · rw [r3]
    have h1 := g3.unit (isUnit_C c0) (isUnit_one (M := MvPolynomial Sym ℚ)) isUnit_one
    rwa [one_mul, one_mul] at h1


/-- Greatest common divisors in any number of symbols. -/
theorem primAt (hc : cfg.Ok) (hp : cfg.maxPrime < 324) {d e : ℕ} (h1 : 1 ≤ d) (he : e = 2 * d * d * (d + 2)) (n : ℕ)
    (hd : ((2 * (2 ^ n * e) * (2 ^ n * e) * (2 ^ n * e + 2) : ℕ) : ℤ) < intMax) : GcdBy cfg (fun E => primL E (n + 1)) n d := by
  have h1e : 1 ≤ e := by rw [he]; nlinarith [bound_le (d := d)]
  have hle : ∀ m, e ≤ 2 ^ m * e := fun m => Nat.le_mul_of_pos_left _ (by positivity)
  have hei : (e : ℤ) < intMax := by
    have h2 := hle n
    have h3 : 2 ^ n * e ≤ 2 * (2 ^ n * e) * (2 ^ n * e) * (2 ^ n * e + 2) := by nlinarith [bound_le (d := 2 ^ n * e)]
    omega
  have hm : 8 * ((d : ℤ) + 1) < Number.unsignedMax := by
    unfold Number.unsignedMax
    unfold intMax at hei
    by_contra h4
    have h5 : 100000 ≤ d := by omega
    have h6 : 100000 * 100000 ≤ d * d := Nat.mul_le_mul h5 h5
    have h7 : 2 * d * d = 2 * (d * d) := by ring
    have h8 : 2 * d * d ≤ 2 * d * d * (d + 2) := bound_le
    omega
  induction n with
  | zero =>
    intro L hL hnd hs u v hu hv h0 hud hvd huL hvL
    have hL0 : L = [] := List.length_eq_zero_iff.1 (Nat.le_zero.1 hL)
    exact primL_ok hc hp (fun s R e => by rw [hL0] at e; cases e) (fun s R e => by rw [hL0] at e; cases e) h1 (by rw [← he]; exact hei) hm hs hnd hu hv h0 hud hvd huL hvL
  | succ n ih =>
    have hd' : ((2 * (2 ^ n * e) * (2 ^ n * e) * (2 ^ n * e + 2) : ℕ) : ℤ) < intMax := by
      refine lt_of_le_of_lt ?_ hd
      have : 2 * (2 ^ n * e) * (2 ^ n * e) * (2 ^ n * e + 2) ≤ 2 * (2 ^ (n + 1) * e) * (2 ^ (n + 1) * e) * (2 ^ (n + 1) * e + 2) := by gcongr <;> omega
      exact_mod_cast this
    intro L hL hnd hs u v hu hv h0 hud hvd huL hvL
    refine primL_ok hc hp (fun s R e => ?_) (fun s R e' => ?_) h1 (by rw [← he]; exact hei) hm hs hnd hu hv h0 hud hvd huL hvL
    · subst e
      have hR : R.length ≤ n := by simpa using hL
      exact fun L' hL' => ih hd' L' (le_trans hL' hR)
    · subst e'
      have hR : R.length ≤ n := by simpa using hL
      rw [← he]
      exact fun L' hL' => gcdAt hc hp n e h1e hd' L' (le_trans hL' hR)

/-- The same with the bound for the depth that the functions of the library have. -/
theorem GcdBy.steps {n d k : ℕ} (h : GcdBy cfg (fun E => primL E k) n d) : GcdBy cfg (fun E => primL E E.steps) n d := by
  intro L h1 h2 h3 u v h4 h5 h6 h7 h8 h9 h10
  obtain ⟨g, ⟨N, cs, hcs, hN⟩, g2, g3⟩ := h L h1 h2 h3 u v h4 h5 h6 h7 h8 h9 h10
  refine ⟨g, ⟨max N k, cs, hcs, fun n hn => ?_⟩, g2, g3⟩
  rcases primL_le (E := eng cfg n) Lean.Order.PartialOrder.rel_refl (k := k) (m := (eng cfg n).steps) (by rw [eng_steps]; exact le_trans (le_max_right _ _) hn) u v (L.map .sym) with h | h
  · have := hN n (le_trans (le_max_left _ _) hn)
    dsimp only at this
    rw [h] at this; cases this
  · dsimp only
    rw [← h]; exact hN n (le_trans (le_max_left _ _) hn)

end Tsym
