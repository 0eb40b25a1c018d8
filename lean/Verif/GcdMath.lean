import Mathlib.RingTheory.Polynomial.Content
import Mathlib.RingTheory.Polynomial.UniqueFactorization
import Mathlib.RingTheory.UniqueFactorizationDomain.GCDMonoid
import Mathlib.RingTheory.UniqueFactorizationDomain.NormalizedFactors
import Verif.Subres
import Verif.PolyDivide

set_option autoImplicit false
set_option linter.unusedSectionVars false
set_option linter.unusedVariables false

/-!
# Helper lemmas: greatest common divisors by way of contents and primitive parts
-/

namespace Tsym

open Polynomial

/-- A greatest common divisor: a common divisor that every common divisor divides. -/
structure IsGcd {A : Type*} [CommSemiring A] (g a b : A) : Prop where
  left : g ∣ a
  right : g ∣ b
  greatest : ∀ d, d ∣ a → d ∣ b → d ∣ g

theorem IsGcd.symm {A : Type*} [CommSemiring A] {g a b : A} (h : IsGcd g a b) : IsGcd g b a :=
  ⟨h.right, h.left, fun d h1 h2 => h.greatest d h2 h1⟩

theorem IsGcd.assoc {A : Type*} [CommSemiring A] {g g' a b : A} (h : IsGcd g a b) (h1 : g ∣ g') (h2 : g' ∣ g) : IsGcd g' a b :=
  ⟨h2.trans h.left, h2.trans h.right, fun d x y => (h.greatest d x y).trans h1⟩

section

variable {R : Type*} [CommRing R] [IsDomain R] [UniqueFactorizationMonoid R]

/-- A primitive polynomial that divides a multiple by a constant. -/
theorem prim_dvd {P F : R[X]} {c : R} (hP : P.IsPrimitive) (hc : c ≠ 0) (h : P ∣ C c * F) : P ∣ F := by
  classical
  let _ : NormalizationMonoid R := UniqueFactorizationMonoid.strongNormalizationMonoid.toNormalizationMonoid
  let _ : NormalizedGCDMonoid R := UniqueFactorizationMonoid.toNormalizedGCDMonoid R
  by_cases hF : F = 0
  · rw [hF]; exact dvd_zero _
  have h0 : C c * F ≠ 0 := mul_ne_zero (by simpa using hc) hF
  have h1 := (hP.dvd_primPart_iff_dvd h0).2 h
  have h2 := associated_primPart_mul h0
  have h3 : P ∣ (C c).primPart * F.primPart := h1.trans h2.dvd
  rw [(isUnit_primPart_C c).dvd_mul_left] at h3
  exact (hP.dvd_primPart_iff_dvd hF).1 h3

/-- A greatest common divisor of the coefficients. -/
structure CoeffGcd (c : R) (p : R[X]) : Prop where
  dvd : ∀ n, c ∣ p.coeff n
  greatest : ∀ d, (∀ n, d ∣ p.coeff n) → d ∣ c

theorem CoeffGcd.C_dvd {c : R} {p : R[X]} (h : CoeffGcd c p) : C c ∣ p := C_dvd_iff_dvd_coeff c p |>.2 h.dvd

theorem CoeffGcd.prim {c : R} {p q : R[X]} (h : CoeffGcd c p) (hp : p ≠ 0) (e : p = C c * q) : q.IsPrimitive := by
  intro r hr
  have hc : c ≠ 0 := by rintro rfl; rw [C_0, zero_mul] at e; exact hp e
  have h1 : C (c * r) ∣ p := by rw [e, C_mul]; exact mul_dvd_mul_left _ hr
  have h2 := h.greatest (c * r) ((C_dvd_iff_dvd_coeff _ _).1 h1)
  obtain ⟨w, hw⟩ := h2
  refine isUnit_iff_exists_inv.2 ⟨w, ?_⟩
  exact mul_left_cancel₀ hc (by rw [mul_one, ← mul_assoc]; exact hw.symm)

/-- The primitive common divisors of `F0`, `G0` are those of `F`, `G`. -/
def SameDiv (F0 G0 F G : R[X]) : Prop := ∀ P : R[X], P.IsPrimitive → ((P ∣ F0 ∧ P ∣ G0) ↔ (P ∣ F ∧ P ∣ G))

theorem SameDiv.next {F0 G0 F G Q F' : R[X]} {c b : R} (h : SameDiv F0 G0 F G) (hc : c ≠ 0) (hb : b ≠ 0) (e : C c * F = Q * G + C b * F') :
    SameDiv F0 G0 G F' := by
  intro P hP
  rw [h P hP]
  constructor
  · rintro ⟨h1, h2⟩
    refine ⟨h2, prim_dvd hP hb ?_⟩
    have : C b * F' = C c * F - Q * G := by rw [e]; ring
    rw [this]; exact dvd_sub (h1.mul_left _) (h2.mul_left _)
  · rintro ⟨h1, h2⟩
    refine ⟨prim_dvd hP hc ?_, h1⟩
    rw [e]; exact dvd_add (h1.mul_left _) (h2.mul_left _)

theorem SameDiv.last {F0 G0 F G Q : R[X]} {c : R} (h : SameDiv F0 G0 F G) (hc : c ≠ 0) (e : C c * F = Q * G) :
    ∀ P : R[X], P.IsPrimitive → ((P ∣ F0 ∧ P ∣ G0) ↔ P ∣ G) := by
  intro P hP
  rw [h P hP]
  refine ⟨fun h => h.2, fun h => ⟨prim_dvd hP hc ?_, h⟩⟩
  rw [e]; exact h.mul_left _

/-- The greatest common divisor from the contents and the primitive part of the last remainder. -/
theorem gcd_of_parts {u v U V G P : R[X]} {uc vc d : R} (hu : u ≠ 0) (hv : v ≠ 0) (huc : CoeffGcd uc u) (hvc : CoeffGcd vc v) (eu : u = C uc * U)
    (ev : v = C vc * V) (hd : IsGcd d uc vc) (hG : ∀ P : R[X], P.IsPrimitive → ((P ∣ U ∧ P ∣ V) ↔ P ∣ G)) (hP : P.IsPrimitive)
    (hGP : ∀ Q : R[X], Q.IsPrimitive → (Q ∣ G ↔ Q ∣ P)) : IsGcd (C d * P) u v := by
  classical
  let _ : NormalizationMonoid R := UniqueFactorizationMonoid.strongNormalizationMonoid.toNormalizationMonoid
  let _ : NormalizedGCDMonoid R := UniqueFactorizationMonoid.toNormalizedGCDMonoid R
  have h1 := (hG P hP).2 ((hGP P hP).2 dvd_rfl)
  refine ⟨?_, ?_, fun D hDu hDv => ?_⟩
  · rw [eu]; exact mul_dvd_mul (map_dvd C hd.left) h1.1
  · rw [ev]; exact mul_dvd_mul (map_dvd C hd.right) h1.2
  · have hcu : uc ≠ 0 := by rintro rfl; rw [C_0, zero_mul] at eu; exact hu eu
    have hcv : vc ≠ 0 := by rintro rfl; rw [C_0, zero_mul] at ev; exact hv ev
    rw [D.eq_C_content_mul_primPart]
    refine mul_dvd_mul (map_dvd C (hd.greatest _ ?_ ?_)) ?_
    · exact huc.greatest _ ((C_dvd_iff_dvd_coeff _ _).1 (D.C_content_dvd.trans hDu))
    · exact hvc.greatest _ ((C_dvd_iff_dvd_coeff _ _).1 (D.C_content_dvd.trans hDv))
    · have hpp := D.isPrimitive_primPart
      refine (hGP _ hpp).1 ((hG _ hpp).1 ⟨?_, ?_⟩)
      · exact prim_dvd hpp hcu (eu ▸ D.primPart_dvd.trans hDu)
      · exact prim_dvd hpp hcv (ev ▸ D.primPart_dvd.trans hDv)

end

/-! ## Degrees of the coefficients -/

/-- The degree of all coefficients in the symbol `t`. -/
def YB (t : Sym) (B : ℕ) (P : (MvPolynomial Sym ℚ)[X]) : Prop := ∀ i, (P.coeff i).degreeOf t ≤ B

theorem degreeOf_sum_le' {ι : Type*} (t : Sym) (s : Finset ι) (f : ι → MvPolynomial Sym ℚ) (B : ℕ) (h : ∀ i ∈ s, (f i).degreeOf t ≤ B) :
    (∑ i ∈ s, f i).degreeOf t ≤ B := by
  classical
  induction s using Finset.induction_on with
  | empty => simp
  | insert a s ha ih =>
    rw [Finset.sum_insert ha]
    refine le_trans (MvPolynomial.degreeOf_add_le _ _ _) (max_le (h a (by simp)) (ih fun i hi => h i (by simp [hi])))

theorem YB.mono {t : Sym} {B B' : ℕ} {P : (MvPolynomial Sym ℚ)[X]} (h : YB t B P) (hB : B ≤ B') : YB t B' P := fun i => le_trans (h i) hB

theorem YB.mul {t : Sym} {B B' : ℕ} {P Q : (MvPolynomial Sym ℚ)[X]} (h : YB t B P) (h' : YB t B' Q) : YB t (B + B') (P * Q) := by
  intro i
  rw [coeff_mul]
  refine degreeOf_sum_le' t _ _ _ fun x _ => ?_
  refine le_trans (MvPolynomial.degreeOf_mul_le _ _ _) ?_
  have := h x.1; have := h' x.2; omega

theorem YB.sum {ι : Type*} {t : Sym} {B : ℕ} (s : Finset ι) {f : ι → (MvPolynomial Sym ℚ)[X]} (h : ∀ i ∈ s, YB t B (f i)) : YB t B (∑ i ∈ s, f i) := by
  intro i
  rw [finsetSum_coeff]
  exact degreeOf_sum_le' t _ _ _ fun x hx => h x hx i

theorem YB.one (t : Sym) : YB t 0 1 := by
  intro i
  rw [coeff_one]
  split <;> simp [MvPolynomial.degreeOf_one]

theorem YB.prod {k : ℕ} {t : Sym} {B : ℕ} {f : Fin k → (MvPolynomial Sym ℚ)[X]} (h : ∀ i, YB t B (f i)) : YB t (k * B) (∏ i, f i) := by
  induction k with
  | zero => simpa using YB.one t
  | succ k ih =>
    rw [Fin.prod_univ_succ]
    exact ((h 0).mul (ih fun i => h i.succ)).mono (by ring_nf; rfl)

theorem YB.neg {t : Sym} {B : ℕ} {P : (MvPolynomial Sym ℚ)[X]} (h : YB t B P) : YB t B (-P) := by
  intro i
  rw [coeff_neg, MvPolynomial.degreeOf_neg]; exact h i

theorem YB.det {k : ℕ} {t : Sym} {B : ℕ} {A : Matrix (Fin k) (Fin k) (MvPolynomial Sym ℚ)[X]} (h : ∀ i j, YB t B (A i j)) : YB t (k * B) A.det := by
  rw [Matrix.det_apply]
  refine YB.sum _ fun σ _ => ?_
  have h1 : YB t (k * B) (∏ i, A (σ i) i) := YB.prod fun i => h _ _
  rcases Int.units_eq_one_or (Equiv.Perm.sign σ) with h | h
  · rw [h, one_smul]; exact h1
  · rw [h, Units.neg_smul, one_smul]; exact h1.neg

theorem YB.subres {t : Sym} {B m n j : ℕ} {F G : (MvPolynomial Sym ℚ)[X]} (hF : YB t B F) (hG : YB t B G) :
    YB t (((n - j) + (m - j)) * B) (Subres.S m n j F G) := by
  unfold Subres.S Subres.dp
  refine YB.det fun i c => ?_
  rw [Matrix.of_apply]
  have hX : ∀ (a : ℕ) (P : (MvPolynomial Sym ℚ)[X]), YB t B P → YB t B (X ^ a * P) := by
    intro a P hP i
    rw [coeff_X_pow_mul']
    split
    · exact hP _
    · simp
  have hr : YB t B (Subres.rows (n - j) (m - j) F G i) := by
    unfold Subres.rows
    split
    · exact hX _ _ hF
    · exact hX _ _ hG
  unfold Subres.ent
  split
  · exact hr
  · intro i
    rw [coeff_C]
    split
    · exact hr _
    · simp

theorem degreeOf_unit {t : Sym} {c : MvPolynomial Sym ℚ} (h : IsUnit c) : c.degreeOf t = 0 := by
  have := degreeOf_dvd t one_ne_zero h.dvd
  rw [MvPolynomial.degreeOf_one] at this
  omega

theorem degreeOf_assoc {t : Sym} {p q : MvPolynomial Sym ℚ} (h : Associated p q) : p.degreeOf t = q.degreeOf t := by
  by_cases hp : p = 0
  · subst hp; rw [(associated_zero_iff_eq_zero q).1 h.symm]
  have hq : q ≠ 0 := fun e => hp ((associated_zero_iff_eq_zero p).1 (e ▸ h))
  exact le_antisymm (degreeOf_dvd t hq h.dvd) (degreeOf_dvd t hp h.symm.dvd)

theorem YB.assoc {t : Sym} {B : ℕ} {P Q : (MvPolynomial Sym ℚ)[X]} (h : YB t B P) (ha : Associated Q P) : YB t B Q := by
  obtain ⟨w, hw⟩ := ha.symm
  obtain ⟨c, hc, hcw⟩ := Polynomial.isUnit_iff.1 w.isUnit
  intro i
  rw [← hw, ← hcw, coeff_mul_C]
  refine le_trans (MvPolynomial.degreeOf_mul_le _ _ _) ?_
  rw [degreeOf_unit hc]; exact h i

theorem degreeOf_of_coeffs {s t : Sym} (hts : t ≠ s) {f : MvPolynomial Sym ℚ} {B : ℕ} (h : YB t B (upoly s f)) : f.degreeOf t ≤ B := by
  rw [← upoly_eval s f, eval_eq_sum_range]
  refine degreeOf_sum_le' t _ _ _ fun i _ => ?_
  refine le_trans (MvPolynomial.degreeOf_mul_le _ _ _) ?_
  rw [degreeOf_X_pow_le s t i hts]; exact h i

theorem YB.upoly {s t : Sym} {f : MvPolynomial Sym ℚ} {B : ℕ} (h : f.degreeOf t ≤ B) : YB t B (upoly s f) :=
  fun i => le_trans (upoly_coeff_degreeOf s t i f) h

/-! ## Divisibility of polynomials in several symbols and of polynomials in one of them -/

theorem upoly_dvd {s : Sym} {p q : MvPolynomial Sym ℚ} : upoly s p ∣ upoly s q ↔ p ∣ q := by
  constructor
  · rintro ⟨c, hc⟩
    refine ⟨c.eval (MvPolynomial.X s), ?_⟩
    have := congrArg (fun w => w.eval (MvPolynomial.X s)) hc
    simpa only [eval_mul, upoly_eval] using this
  · rintro ⟨c, rfl⟩
    rw [map_mul]; exact dvd_mul_right _ _

theorem IsGcd.of_upoly {s : Sym} {g a b : MvPolynomial Sym ℚ} (h : IsGcd (upoly s g) (upoly s a) (upoly s b)) : IsGcd g a b :=
  ⟨upoly_dvd.1 h.left, upoly_dvd.1 h.right, fun d h1 h2 => upoly_dvd.1 (h.greatest _ (upoly_dvd.2 h1) (upoly_dvd.2 h2))⟩

end Tsym
