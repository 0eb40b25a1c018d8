import Verif.PowPoly
import Verif.Diverge
import Verif.Props.PolyOps
import Mathlib.Algebra.Polynomial.Degree.Domain
import Mathlib.Algebra.Polynomial.Div

set_option autoImplicit false
set_option linter.unusedSectionVars false
set_option linter.unusedSimpArgs false
set_option linter.unusedVariables false

/-!
# Helper lemmas: polynomials as polynomials in one of the symbols
-/

namespace Tsym

open Expr

/-- A polynomial as a polynomial in the symbol `s`. -/
noncomputable def upoly (s : Sym) : MvPolynomial Sym ℚ →ₐ[ℚ] Polynomial (MvPolynomial Sym ℚ) :=
  MvPolynomial.aeval fun t => if t = s then Polynomial.X else Polynomial.C (MvPolynomial.X t)

theorem upoly_eval (s : Sym) (p : MvPolynomial Sym ℚ) : (upoly s p).eval (MvPolynomial.X s) = p := by
  induction p using MvPolynomial.induction_on with
  | C a =>
    rw [upoly, MvPolynomial.aeval_C, Polynomial.algebraMap_apply, Polynomial.eval_C]; rfl
  | add p q hp hq => rw [map_add, Polynomial.eval_add, hp, hq]
  | mul_X p t hp =>
    rw [map_mul, Polynomial.eval_mul, hp, upoly, MvPolynomial.aeval_X]
    split
    · rename_i h; rw [Polynomial.eval_X, h]
    · rw [Polynomial.eval_C]

theorem upoly_inj {s : Sym} {p q : MvPolynomial Sym ℚ} (h : upoly s p = upoly s q) : p = q := by
  rw [← upoly_eval s p, h, upoly_eval]

theorem upoly_eq_zero {s : Sym} {p : MvPolynomial Sym ℚ} : upoly s p = 0 ↔ p = 0 :=
  ⟨fun h => upoly_inj (s := s) (by rw [h, map_zero]), fun h => by rw [h, map_zero]⟩

theorem upoly_X (s : Sym) : upoly s (MvPolynomial.X s) = Polynomial.X := by
  rw [upoly, MvPolynomial.aeval_X, if_pos rfl]

theorem upoly_C (s : Sym) (q : ℚ) : upoly s (MvPolynomial.C q) = Polynomial.C (MvPolynomial.C q) := by
  rw [upoly, MvPolynomial.aeval_C, Polynomial.algebraMap_apply]; rfl

theorem upoly_monomial (s : Sym) (f : Sym →₀ ℕ) (q : ℚ) :
    upoly s (MvPolynomial.monomial f q) = Polynomial.monomial (f s) (MvPolynomial.monomial (f.erase s) q) := by
  induction f using Finsupp.induction generalizing q with
  | zero =>
    rw [MvPolynomial.monomial_zero', upoly_C]
    simp
  | single_add a b f ha hb ih =>
    have h1 : MvPolynomial.monomial (Finsupp.single a b + f) q = MvPolynomial.X a ^ b * MvPolynomial.monomial f q := by
      rw [MvPolynomial.X_pow_eq_monomial, MvPolynomial.monomial_mul, one_mul]
    rw [h1, map_mul, map_pow, ih]
    by_cases h : a = s
    · subst h
      rw [upoly_X, Polynomial.X_pow_mul_monomial]
      have h0 : f a = 0 := Finsupp.notMem_support_iff.1 ha
      have e : (Finsupp.single a b + f).erase a = f.erase a := by
        rw [Finsupp.erase_add, Finsupp.erase_single, zero_add]
      rw [e]; congr 1; simp [h0]
    · have hx : upoly s (MvPolynomial.X a) = Polynomial.C (MvPolynomial.X a) := by
        rw [upoly, MvPolynomial.aeval_X, if_neg h]
      have e : (Finsupp.single a b + f).erase s = Finsupp.single a b + f.erase s := by
        rw [Finsupp.erase_add, Finsupp.erase_single_ne (Ne.symm h)]
      rw [hx, ← Polynomial.C_pow, Polynomial.C_mul_monomial, e, MvPolynomial.X_pow_eq_monomial, MvPolynomial.monomial_mul, one_mul]
      congr 1
      simp [Finsupp.single_apply, h]

theorem upoly_cf (s : Sym) (n : ℕ) (p : MvPolynomial Sym ℚ) : Cf s n p ((upoly s p).coeff n) := by
  induction p using MvPolynomial.induction_on' with
  | monomial f q =>
    rw [upoly_monomial, Polynomial.coeff_monomial]
    by_cases h : f s = n
    · rw [if_pos h]
      intro g
      rw [MvPolynomial.coeff_monomial, MvPolynomial.coeff_monomial]
      by_cases hg : g s = 0
      · rw [if_pos hg]
        congr 1
        apply propext
        constructor
        · rintro rfl
          rw [← h, add_comm]; exact (Finsupp.single_add_erase s f).symm
        · rintro rfl
          rw [Finsupp.erase_add, Finsupp.erase_single, add_zero]
          exact Finsupp.erase_of_notMem_support (Finsupp.notMem_support_iff.2 hg)
      · rw [if_neg hg, if_neg]
        rintro rfl
        exact hg (by simp)
    · rw [if_neg h]; exact Cf.none q h
  | add p q hp hq => rw [map_add, Polynomial.coeff_add]; exact hp.add hq

theorem Cf.eq {s : Sym} {n : ℕ} {p c : MvPolynomial Sym ℚ} (h : Cf s n p c) : c = (upoly s p).coeff n :=
  h.unique (upoly_cf s n p)

theorem upoly_natDegree (s : Sym) (p : MvPolynomial Sym ℚ) : (upoly s p).natDegree = p.degreeOf s := by
  apply le_antisymm
  · rw [Polynomial.natDegree_le_iff_coeff_eq_zero]
    intro n hn
    exact (upoly_cf s n p).zero_of_lt hn
  · rw [MvPolynomial.degreeOf_le_iff]
    intro f hf
    apply Polynomial.le_natDegree_of_ne_zero
    intro h0
    have := upoly_cf s (f s) p (f.erase s)
    rw [h0, if_pos (by simp), add_comm, Finsupp.single_add_erase] at this
    exact MvPolynomial.mem_support_iff.1 hf this.symm

/-- A polynomial without the symbol. -/
theorem upoly_free {s : Sym} {c : MvPolynomial Sym ℚ} (h : c.degreeOf s = 0) : upoly s c = Polynomial.C c := by
  rw [← upoly_natDegree] at h
  have h1 := Polynomial.eq_C_of_natDegree_eq_zero h
  have h2 := upoly_eval s c
  rw [h1, Polynomial.eval_C] at h2
  rw [h1, h2]

theorem upoly_coeff_free (s : Sym) (n : ℕ) (p : MvPolynomial Sym ℚ) : ((upoly s p).coeff n).degreeOf s = 0 :=
  (upoly_cf s n p).degreeOf

theorem upoly_coeff_degreeOf (s t : Sym) (n : ℕ) (p : MvPolynomial Sym ℚ) : ((upoly s p).coeff n).degreeOf t ≤ p.degreeOf t := by
  rw [MvPolynomial.degreeOf_le_iff]
  intro f hf
  have h1 := MvPolynomial.mem_support_iff.1 hf
  rw [upoly_cf s n p f] at h1
  split at h1
  · have := MvPolynomial.le_degreeOf_of_mem_support t (MvPolynomial.mem_support_iff.2 h1)
    have h2 : f t ≤ (f + Finsupp.single s n) t := by simp
    omega
  · exact absurd rfl h1

theorem step_degree_uni {R : Type*} [CommRing R] {P V : Polynomial R} {a b : R} {m n : ℕ} (hr : P.natDegree = m) (hv : V.natDegree = n)
    (hmn : n ≤ m) (hab : a * V.coeff n = b * P.coeff m) (W : Polynomial R)
    (e : W = Polynomial.C b * P - Polynomial.C a * V * Polynomial.X ^ (m - n)) (h0 : W ≠ 0) : W.natDegree < m := by
  have hc : W.coeff m = 0 := by
    rw [e, Polynomial.coeff_sub, Polynomial.coeff_C_mul, Polynomial.coeff_mul_X_pow', if_pos (by omega), Polynomial.coeff_C_mul,
      show m - (m - n) = n by omega, hab, sub_self]
  have hle : W.natDegree ≤ m := by
    rw [Polynomial.natDegree_le_iff_coeff_eq_zero]
    intro k hk
    rw [e, Polynomial.coeff_sub, Polynomial.coeff_C_mul, Polynomial.coeff_mul_X_pow', if_pos (by omega), Polynomial.coeff_C_mul]
    rw [Polynomial.coeff_eq_zero_of_natDegree_lt (by rw [hr]; exact hk),
      Polynomial.coeff_eq_zero_of_natDegree_lt (p := V) (by rw [hv]; omega)]
    simp
  refine lt_of_le_of_ne hle fun h => ?_
  rw [← h] at hc
  exact h0 (Polynomial.leadingCoeff_eq_zero.1 hc)

/-- One step of the division in the symbol `s`: the leading terms cancel. -/
theorem step_degree (s : Sym) {r v a b : MvPolynomial Sym ℚ} {m n : ℕ} (hr : r.degreeOf s = m) (hv : v.degreeOf s = n) (hmn : n ≤ m)
    (ha : a.degreeOf s = 0) (hb : b.degreeOf s = 0) (hab : a * (upoly s v).coeff n = b * (upoly s r).coeff m)
    {w : MvPolynomial Sym ℚ} (hw : w = b * r - a * v * MvPolynomial.X s ^ (m - n)) : w = 0 ∨ w.degreeOf s < m := by
  rcases eq_or_ne w 0 with h0 | h0
  · exact .inl h0
  right
  have e : upoly s w = Polynomial.C b * upoly s r - Polynomial.C a * upoly s v * Polynomial.X ^ (m - n) := by
    rw [hw, map_sub, map_mul, map_mul, map_mul, map_pow, upoly_free ha, upoly_free hb, upoly_X]
  rw [← upoly_natDegree]
  exact step_degree_uni (by rw [upoly_natDegree, hr]) (by rw [upoly_natDegree, hv]) hmn hab _ e fun h => h0 (upoly_eq_zero.1 h)

theorem degreeOf_mul_ne (s : Sym) {p q : MvPolynomial Sym ℚ} (hp : p ≠ 0) (hq : q ≠ 0) :
    (p * q).degreeOf s = p.degreeOf s + q.degreeOf s := by
  rw [← upoly_natDegree, ← upoly_natDegree, ← upoly_natDegree, map_mul,
    Polynomial.natDegree_mul (fun h => hp (upoly_eq_zero.1 h)) fun h => hq (upoly_eq_zero.1 h)]

theorem degreeOf_pow_ne (s : Sym) {p : MvPolynomial Sym ℚ} (hp : p ≠ 0) (n : ℕ) : (p ^ n).degreeOf s = n * p.degreeOf s := by
  rw [← upoly_natDegree, ← upoly_natDegree, map_pow, Polynomial.natDegree_pow]

theorem lead_ne_zero {s : Sym} {p : MvPolynomial Sym ℚ} (h : p ≠ 0) : (upoly s p).coeff (p.degreeOf s) ≠ 0 := by
  rw [← upoly_natDegree]
  exact fun h' => h (upoly_eq_zero.1 (Polynomial.leadingCoeff_eq_zero.1 h'))

section

variable {D : Type} [Flt D] [ExactLt D] {cfg : Cfg D}

/-- The leading coefficient. -/
theorem tot_lead (hc : cfg.Ok) (s : Sym) {r : Expr D} (h : EP r) (hb : ((poly r).degreeOf s : ℤ) < intMax) :
    ∃ c, Tot cfg (fun E => leadingCoeff E (.sym s) r) c ∧ EP c ∧ poly c = (upoly s (poly r)).coeff ((poly r).degreeOf s) := by
  obtain ⟨c, h1, h2, h3⟩ := tot_coeff_ep hc s ((poly r).degreeOf s) h
  refine ⟨c, ?_, h2, h3.eq⟩
  unfold leadingCoeff
  exact tot_bind (tot_lift (degree_ep s h hb)) (tot_coeff h1)

theorem tot_coeff_ep' (hc : cfg.Ok) (s : Sym) (n : ℕ) {r : Expr D} (h : EP r) :
    ∃ c, Tot cfg (fun E => E.coeff (.sym s) n r) c ∧ EP c ∧ poly c = (upoly s (poly r)).coeff n := by
  obtain ⟨c, h1, h2, h3⟩ := tot_coeff_ep hc s n h
  exact ⟨c, tot_coeff h1, h2, h3.eq⟩

theorem hasValidType_symFac {x : Sym × ℕ} (h1 : 1 ≤ x.2) (hx : (x.2 : ℤ) ≤ intMax) : hasValidType (symFac x : Expr D) = .ok true := by
  unfold symFac fac
  split
  · simp [hasValidType]; rfl
  · have h2 : fitsInt (x.2 : ℤ) = true := by
      simp only [fitsInt, decide_eq_true_eq]
      exact ⟨le_trans (by unfold intMin; omega) (by omega : (0 : ℤ) ≤ x.2), hx⟩
    have h3 : (Number.rat ((x.2 : ℤ) : ℚ) : Number D).isInt = true := by simp [Number.isInt, Number.isRational, Number.denominator]
    have h4 : (Number.rat ((x.2 : ℤ) : ℚ) : Number D).numerator = (x.2 : ℤ) := by simp [Number.numerator]
    have h5 : Number.lt 0 (Number.rat ((x.2 : ℤ) : ℚ) : Number D) = true := by
      rw [Number.zero_def, lt_rat]; simp; omega
    have hn : numEval (int (x.2 : ℤ) : Expr D) = .ok (some (.rat ((x.2 : ℤ) : ℚ))) := numEval_rat _
    simp only [hasValidType, hn, bind, Except.bind, pure, Except.pure, h3, h4, h5, h2, Bool.and_self]

theorem hasValidOperands_all {l : List (Expr D)} (h : ∀ a ∈ l, hasValidType a = .ok true) : hasValidOperands l = .ok true := by
  induction l with
  | nil => simp [hasValidOperands]; rfl
  | cons a l ih =>
    rw [hasValidOperands, h a (by simp)]
    exact ih fun b hb => h b (by simp [hb])

theorem Key.le_count {K : Key} {x : Sym × ℕ} (hx : x ∈ K) : x.2 ≤ K.count x.1 := by
  induction K with
  | nil => simp at hx
  | cons y K ih =>
    simp only [Key.count, List.map_cons, List.sum_cons] at ih ⊢
    rcases List.mem_cons.1 hx with rfl | hx
    · simp
    · have := ih hx; omega

theorem hasValidType_em {m : Mono D} {K : Key} (hK : IsKey m.2 K) (hb : ∀ s, (K.count s : ℤ) ≤ intMax) : hasValidType (em m) = .ok true := by
  have hf : ∀ x ∈ K, hasValidType (symFac x : Expr D) = .ok true := fun x hx =>
    hasValidType_symFac (hK.1 x hx).2 (le_trans (by exact_mod_cast Key.le_count hx) (hb x.1))
  have hl : ∀ a ∈ rl m.1 m.2, hasValidType a = .ok true := by
    intro a ha
    rw [hK.2.2] at ha
    unfold rl at ha
    rw [Key.facs_map] at ha
    rcases List.mem_append.1 ha with ha | ha
    · split at ha
      · simp at ha
      · rw [List.mem_singleton.1 ha]; simp [hasValidType, Number.isRational]; rfl
    · obtain ⟨x, hx, rfl⟩ := List.mem_map.1 ha
      exact hf x hx
  unfold em
  rcases mexpr_cases m.1 m.2 with ⟨h0, e⟩ | ⟨f, h1, h2, e⟩ | ⟨_, _, e⟩
  · rw [e]; simp [hasValidType, Number.isRational]; rfl
  · rw [e]
    refine hl _ ?_
    rw [h1, h2, rl_one]; simp
  · rw [e, hasValidType]; exact hasValidOperands_all hl

theorem hasValidType_ep {r : Expr D} (h : EP r) (hb : ∀ s, ((poly r).degreeOf s : ℤ) ≤ intMax) : hasValidType r = .ok true := by
  rcases h.cases with rfl | ⟨m, K, hm, hK, rfl⟩ | ⟨L, hL, h2, rfl⟩
  · rw [zero_eq]; simp [hasValidType, Number.isRational]; rfl
  · refine hasValidType_em hK fun s => ?_
    have := hb s
    rwa [hK.poly, MvPolynomial.degreeOf_monomial_eq _ _ hm, Key.fs_count] at this
  · have hp : poly (.sum (L.map em) : Expr D) = psum L := poly_sum_em h2
    rw [hasValidType]
    refine hasValidOperands_all fun a ha => ?_
    obtain ⟨m, hm, rfl⟩ := List.mem_map.1 ha
    obtain ⟨K, hK⟩ := hL.ks.key m hm
    refine hasValidType_em hK fun s => ?_
    have h1 := MvPolynomial.le_degreeOf_of_mem_support s (hL.mem_support hm hK)
    rw [Key.fs_count] at h1
    have := hb s
    rw [hp] at this
    exact le_trans (by exact_mod_cast h1) this

theorem isPolyInputValid_ep {u v : Expr D} (hu : EP u) (hv : EP v) (h0 : poly v ≠ 0)
    (hbu : ∀ s, ((poly u).degreeOf s : ℤ) ≤ intMax) (hbv : ∀ s, ((poly v).degreeOf s : ℤ) ≤ intMax) :
    isPolyInputValid u v = .ok true := by
  have hz : v.isZero = false := by
    rw [Bool.eq_false_iff]; exact fun h => h0 (hv.isZero.1 h)
  simp only [isPolyInputValid, hz, Bool.and_false, Bool.false_eq_true, if_false, hasValidType_ep hu hbu, hasValidType_ep hv hbv]
  rfl

end

end Tsym
