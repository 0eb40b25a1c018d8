import Verif.GcdBase

set_option autoImplicit false
set_option linter.unusedSectionVars false
set_option linter.unusedSimpArgs false
set_option linter.unusedVariables false

/-!
# Helper lemmas for the greatest common divisor: contents
-/

namespace Tsym

open Expr

variable {D : Type} [Flt D] [ExactLt D] {cfg : Cfg D}

/-- The function returns a greatest common divisor. -/
def GcdEx (cfg : Cfg D) (u v : Expr D) (L : List Sym) : Prop :=
  ∃ g, Rts cfg (fun E => E.gcdL u v (L.map .sym)) g ∧ EP g ∧ IsGcd (poly g) (poly u) (poly v)

/-- The function returns greatest common divisors for polynomials in at most `n` symbols with degrees up
to `d`. -/
def GcdAt (cfg : Cfg D) (n d : ℕ) : Prop :=
  ∀ L : List Sym, L.length ≤ n → L.Nodup → (∀ s ∈ L, s.id.Ok) → ∀ u v : Expr D, EP u → EP v → (poly u ≠ 0 ∨ poly v ≠ 0) →
    (∀ t, (poly u).degreeOf t ≤ d) → (∀ t, (poly v).degreeOf t ≤ d) → (∀ t, t ∉ L → (poly u).degreeOf t = 0) →
    (∀ t, t ∉ L → (poly v).degreeOf t = 0) → GcdEx cfg u v L

theorem GcdAt.mono {n d d' : ℕ} (h : GcdAt cfg n d) (hd : d' ≤ d) : GcdAt cfg n d' :=
  fun L h1 h2 h3 u v h4 h5 h6 h7 h8 => h L h1 h2 h3 u v h4 h5 h6 (fun t => le_trans (h7 t) hd) fun t => le_trans (h8 t) hd

theorem IsGcd.ne_zero {A : Type*} [CommSemiring A] {g a b : A} (h : IsGcd g a b) (h0 : a ≠ 0 ∨ b ≠ 0) : g ≠ 0 := by
  rintro rfl
  rcases h0 with h0 | h0
  · exact h0 (zero_dvd_iff.1 h.left)
  · exact h0 (zero_dvd_iff.1 h.right)

theorem polyGcd_ok (hc : cfg.Ok) {n d : ℕ} (hn : GcdAt cfg n d) (hd : (d : ℤ) < intMax) {R : List Sym} (hR : R.length ≤ n) {u v : Expr D} (hu : EP u) (hv : EP v)
    (h0 : poly u ≠ 0 ∨ poly v ≠ 0) (hud : ∀ t, (poly u).degreeOf t ≤ d) (hvd : ∀ t, (poly v).degreeOf t ≤ d)
    (huR : ∀ t, t ∉ R → (poly u).degreeOf t = 0) (hvR : ∀ t, t ∉ R → (poly v).degreeOf t = 0) :
    ∃ g, Rts cfg (fun E => polyGcd E u v) g ∧ EP g ∧ IsGcd (poly g) (poly u) (poly v) := by
  have hub : ∀ t, ((poly u).degreeOf t : ℤ) < intMax := fun t => by have := hud t; omega
  have hvb : ∀ t, ((poly v).degreeOf t : ℤ) < intMax := fun t => by have := hvd t; omega
  obtain ⟨L, l1, l2, l3, l4⟩ := tot_listOfSymbols hc hu hv hub hvb
  obtain ⟨a1, a2, a3⟩ := addSymbols_spec ([] : List (Expr D)) (by simp) u
  obtain ⟨c1, c2⟩ := addSymbols_nodup ([] : List (Expr D)) (by simp) (by simp) u
  obtain ⟨d1, d2⟩ := addSymbols_nodup (addSymbols [] u) a1 c1 v
  have hnd : L.Nodup := List.Nodup.of_map _ (l4.nodup_iff.2 d1)
  have hsub : L ⊆ R := by
    intro s hs
    by_contra hsR
    have h1 : (.sym s : Expr D) ∈ addSymbols (addSymbols [] u) v := l4.mem_iff.1 (List.mem_map.2 ⟨s, hs, rfl⟩)
    rcases d2 s h1 with h | h
    · rcases c2 s h with h | h
      · simp at h
      · rw [hu.not_has (huR s hsR)] at h; cases h
    · rw [hv.not_has (hvR s hsR)] at h; cases h
  have hlen : L.length ≤ n := le_trans (List.subperm_of_subset hnd hsub).length_le hR
  obtain ⟨g, g1, g2, g3⟩ := hn L hlen hnd l2 u v hu hv h0 hud hvd (fun t ht => (l3 t ht).1) fun t ht => (l3 t ht).2
  refine ⟨g, ?_, g2, g3⟩
  have hok : isPolyInputValid u v = .ok true := by
    by_cases hv0 : poly v = 0
    · have hu0 : poly u ≠ 0 := h0.resolve_right fun h => h hv0
      have := isPolyInputValid_ep hv hu hu0 (fun t => by have := hvb t; omega) fun t => by have := hub t; omega
      have hz : u.isZero = false := by rw [Bool.eq_false_iff]; exact fun h => hu0 (hu.isZero.1 h)
      unfold isPolyInputValid at this ⊢
      rw [hz, Bool.and_false] at this
      rw [hz, Bool.false_and]
      simp only [Bool.false_eq_true, if_false] at this ⊢
      obtain ⟨a, h1, h2⟩ := Except.bind_ok.1 this
      cases a with
      | false => simp only [Bool.false_eq_true, if_false] at h2; cases h2
      | true =>
        simp only [if_true] at h2
        rw [h2]
        exact h1
    · exact isPolyInputValid_ep hu hv hv0 (fun t => by have := hub t; omega) fun t => by have := hvb t; omega
  unfold polyGcd
  refine rts_bind (tot_lift hok).rts ?_
  simp only [if_true]
  exact rts_bind l1.rts g1

/-- The loop over the coefficients. -/
theorem contentLoop_ok (hc : cfg.Ok) {n d : ℕ} (hn : GcdAt cfg n d) (hd : (d : ℤ) < intMax) {s : Sym} {R : List Sym} (hR : R.length ≤ n) {e : Expr D} (he : EP e)
    (hed : ∀ t, (poly e).degreeOf t ≤ d) (heR : ∀ t, t ∉ s :: R → (poly e).degreeOf t = 0) (k : ℕ) :
    ∀ (i : ℕ) {acc : Expr D}, EP acc → (∀ x, x ∣ poly acc ↔ ∀ j < i, x ∣ (upoly s (poly e)).coeff j) →
      (poly acc ≠ 0 ∨ (upoly s (poly e)).coeff i ≠ 0) →
      ∃ c, Rts cfg (fun E => contentLoop E e (.sym s) k i acc) c ∧ EP c ∧ ∀ x, x ∣ poly c ↔ ∀ j < i + k, x ∣ (upoly s (poly e)).coeff j := by
  induction k with
  | zero =>
    intro i acc ha hx h0
    exact ⟨acc, (tot_pure _).rts, ha, hx⟩
  | succ k ih =>
    intro i acc ha hx h0
    obtain ⟨c, c1, c2, c3⟩ := tot_coeff_ep' hc (cfg := cfg) s i he
    have hcoR : ∀ j t, t ∉ R → ((upoly s (poly e)).coeff j).degreeOf t = 0 := by
      intro j t ht
      by_cases hts : t = s
      · subst hts; exact upoly_coeff_free _ _ _
      · have := upoly_coeff_degreeOf s t j (poly e)
        rw [heR t (by simp [hts, ht])] at this; omega
    have hacc : poly acc = 0 ∨ ∃ j, (upoly s (poly e)).coeff j ≠ 0 ∧ poly acc ∣ (upoly s (poly e)).coeff j := by
      by_cases h : ∃ j < i, (upoly s (poly e)).coeff j ≠ 0
      · obtain ⟨j, hj, hj0⟩ := h
        exact .inr ⟨j, hj0, (hx _).1 dvd_rfl j hj⟩
      · left
        rw [← zero_dvd_iff, hx]
        intro j hj
        rw [zero_dvd_iff]
        by_contra hj0
        exact h ⟨j, hj, hj0⟩
    have had : ∀ t, (poly acc).degreeOf t ≤ d := by
      intro t
      rcases hacc with h | ⟨j, h1, h2⟩
      · rw [h, MvPolynomial.degreeOf_zero]; omega
      · exact le_trans (degreeOf_dvd t h1 h2) (le_trans (upoly_coeff_degreeOf s t j _) (hed t))
    have haR : ∀ t, t ∉ R → (poly acc).degreeOf t = 0 := by
      intro t ht
      rcases hacc with h | ⟨j, h1, h2⟩
      · rw [h, MvPolynomial.degreeOf_zero]
      · have := degreeOf_dvd t h1 h2
        rw [hcoR j t ht] at this; omega
    obtain ⟨g, g1, g2, g3⟩ := polyGcd_ok hc hn hd hR c2 ha (by rw [c3]; exact h0.symm)
      (fun t => by rw [c3]; exact le_trans (upoly_coeff_degreeOf s t i _) (hed t)) had (fun t ht => by rw [c3]; exact hcoR i t ht) haR
    have hg0 : poly g ≠ 0 := g3.ne_zero (by rw [c3]; exact h0.symm)
    obtain ⟨c', x1, x2, x3⟩ := ih (i + 1) g2 (by
      intro x
      constructor
      · intro hxg j hj
        rcases Nat.lt_succ_iff_lt_or_eq.1 hj with h | rfl
        · exact (hx x).1 (hxg.trans g3.right) j h
        · rw [← c3]; exact hxg.trans g3.left
      · intro h
        refine g3.greatest x (by rw [c3]; exact h i (by omega)) ((hx x).2 fun j hj => h j (by omega))) (.inl hg0)
    refine ⟨c', ?_, x2, fun x => by rw [x3 x, show i + 1 + k = i + (k + 1) by ring]⟩
    simp only [contentLoop]
    refine rts_bind c1.rts (rts_bind g1 ?_)
    push_cast at x1
    exact x1

theorem isUnit_C {q : ℚ} (h : q ≠ 0) : IsUnit (MvPolynomial.C (σ := Sym) q) := (IsUnit.mk0 q h).map MvPolynomial.C

/-- The content of an expanded polynomial. -/
theorem polyContent_ok (hc : cfg.Ok) {n d : ℕ} (hn : GcdAt cfg n d) (hd : (d : ℤ) < intMax) {s : Sym} {R : List Sym} (hR : R.length ≤ n) {e : Expr D} (he : EP e)
    (h0 : poly e ≠ 0) (hed : ∀ t, (poly e).degreeOf t ≤ d) (heR : ∀ t, t ∉ s :: R → (poly e).degreeOf t = 0) :
    ∃ c, Rts cfg (fun E => polyContent E e (.sym s)) c ∧ EP c ∧ CoeffGcd (poly c) (upoly s (poly e)) := by
  have hex : Tot cfg (fun E => E.expand e) e := tot_expand (tot_expand_ep hc he)
  unfold polyContent
  by_cases hnum : ∃ q : ℚ, e = .num (.rat q)
  · obtain ⟨q, rfl⟩ := hnum
    have hq : q ≠ 0 := by rintro rfl; rw [poly_ratE, map_zero] at h0; exact h0 rfl
    obtain ⟨p, hp, hpq⟩ := abs_rat (D := D) q
    have hp0 : p ≠ 0 := by rcases hpq with rfl | rfl; exacts [hq, neg_ne_zero.2 hq]
    refine ⟨.num (.rat p), rts_bind hex.rts ?_, EP.num p, ?_⟩
    · simp only [hp]; exact (tot_pure _).rts
    · rw [poly_ratE, poly_ratE, upoly_C]
      refine ⟨fun k => (isUnit_C hp0).dvd, fun x hx => ?_⟩
      have := hx 0
      rw [Polynomial.coeff_C_zero] at this
      exact this.trans ((isUnit_C hq).dvd)
  · obtain ⟨k, k1, k2, k3⟩ := minDegree_ep s he h0 (by have := hed s; omega)
    have hke : k ≤ (poly e).degreeOf s := by
      rw [← upoly_natDegree]; exact Polynomial.le_natDegree_of_ne_zero k2
    obtain ⟨c, c1, c2, c3⟩ := contentLoop_ok hc hn hd hR he hed heR ((poly e).degreeOf s - k + 1) k (acc := zero) EP.zero (by
      intro x
      rw [poly_zero]
      exact ⟨fun _ j hj => by rw [k3 j hj]; exact dvd_zero _, fun _ => dvd_zero _⟩) (.inr k2)
    refine ⟨c, rts_bind hex.rts ?_, c2, ?_⟩
    · have hnn : ∀ n : Number D, e ≠ .num n := by
        intro n hne
        match n with
        | .rat q => exact hnum ⟨q, hne⟩
        | .dbl x => have := he.polyE; rw [hne] at this; simp [isPolyE] at this
      split
      · rename_i n; exact absurd rfl (hnn n)
      · refine rts_bind (tot_lift k1).rts (rts_bind (tot_lift (degree_ep s he (by have := hed s; omega))).rts ?_)
        have : (((poly e).degreeOf s : ℤ) - (k : ℤ) + 1).toNat = (poly e).degreeOf s - k + 1 := by omega
        rw [this]
        exact c1
    · refine ⟨fun j => ?_, fun x hx => (c3 x).2 fun j _ => hx j⟩
      by_cases hj : j < k + ((poly e).degreeOf s - k + 1)
      · exact (c3 _).1 dvd_rfl j hj
      · rw [Polynomial.coeff_eq_zero_of_natDegree_lt (by rw [upoly_natDegree]; omega)]
        exact dvd_zero _

end Tsym
