import Mathlib.Algebra.Polynomial.Degree.Lemmas
import Mathlib.LinearAlgebra.Matrix.Block
import Mathlib.LinearAlgebra.Matrix.Determinant.Basic
import Mathlib.Tactic.Ring
import Mathlib.Tactic.LinearCombination

set_option autoImplicit false

/-!
# Helper lemmas: subresultants

The exactness of the divisions in the subresultant algorithm. All equations are up to units.
-/

namespace Tsym.Subres

open Polynomial Matrix

section

variable {R : Type*} [CommRing R]

/-- An entry of the matrix: the coefficients from the highest one on, and the polynomial itself in the
last column. -/
noncomputable def ent (N k : ℕ) (f : R[X]) (c : ℕ) : R[X] := if c + 1 = k then f else C (f.coeff (N - 1 - c))

/-- The determinant polynomial of `k` polynomials. -/
noncomputable def dp (N k : ℕ) (P : ℕ → R[X]) : R[X] := Matrix.det (Matrix.of fun i c : Fin k => ent N k (P i) c)

theorem dp_congr {N k : ℕ} {P Q : ℕ → R[X]} (h : ∀ i < k, P i = Q i) : dp N k P = dp N k Q := by
  unfold dp
  congr 1
  ext i c : 2
  simp only [of_apply, h i i.2]

theorem sign_assoc (k : ℕ) (σ : Equiv.Perm (Fin k)) (x : R[X]) : Associated (((Equiv.Perm.sign σ : ℤˣ) : ℤ) * x) x := by
  rcases Int.units_eq_one_or (Equiv.Perm.sign σ) with h | h
  · rw [h]; simp
  · rw [h]; simp only [Units.val_neg, Units.val_one, Int.cast_neg, Int.cast_one, neg_mul, one_mul]
    exact Associated.neg_left (Associated.refl x)

/-- Exchange of two blocks of rows. -/
theorem dp_flip (N p q : ℕ) (P Q : ℕ → R[X]) (h1 : ∀ i < q, Q i = P (p + i)) (h2 : ∀ i < p, Q (q + i) = P i) :
    Associated (dp N (p + q) P) (dp N (q + p) Q) := by
  have e : dp N (q + p) Q = ((Equiv.Perm.sign ((finAddFlip (m := q) (n := p)).trans (finCongr (add_comm p q))) : ℤˣ) : ℤ) *
      dp N (q + p) P := by
    unfold dp
    rw [← det_permute]
    congr 1
    ext i c : 2
    simp only [of_apply, submatrix_apply, id]
    congr 1
    refine Fin.addCases (fun i => ?_) (fun i => ?_) i
    · simp [h1 i i.2, add_comm p]
    · simp [h2 i i.2]
  have e2 : dp N (p + q) P = dp N (q + p) P := by rw [add_comm]
  rw [e, e2]
  exact (sign_assoc _ _ _).symm

theorem ent_sum {N k : ℕ} (c : ℕ) {ι : Type*} (s : Finset ι) (a : ι → R) (f : ι → R[X]) :
    ent N k (∑ j ∈ s, C (a j) * f j) c = ∑ j ∈ s, C (a j) * ent N k (f j) c := by
  unfold ent
  split
  · rfl
  · simp [Polynomial.finsetSum_coeff, map_sum]

/-- Row operations. -/
theorem dp_rowop (N k : ℕ) (T : Matrix (Fin k) (Fin k) R) (P Q : ℕ → R[X]) (h : ∀ i : Fin k, Q i = ∑ j : Fin k, C (T i j) * P j) :
    dp N k Q = C T.det * dp N k P := by
  unfold dp
  rw [RingHom.map_det, ← det_mul]
  congr 1
  ext i c : 2
  simp only [of_apply, mul_apply, RingHom.mapMatrix_apply, map_apply]
  rw [h i, ent_sum]

/-- The rows are multiplied by constants. -/
theorem dp_scale (N k : ℕ) (a : ℕ → R) (P : ℕ → R[X]) : dp N k (fun i => C (a i) * P i) = C (∏ i : Fin k, a i) * dp N k P := by
  rw [dp_rowop N k (Matrix.diagonal fun i : Fin k => a i) P (fun i => C (a i) * P i) (by
    intro i
    simp only [diagonal_apply]
    rw [Finset.sum_eq_single i (fun j _ hj => by rw [if_neg (Ne.symm hj)]; simp) (by simp)]
    simp), det_diagonal]

/-- The first row is the only one with a coefficient in the first column. -/
theorem dp_peel1 (N k : ℕ) (hk : 0 < k) (P : ℕ → R[X]) (h : ∀ i, 0 < i → i < k + 1 → (P i).coeff (N - 1) = 0) :
    dp N (k + 1) P = C ((P 0).coeff (N - 1)) * dp (N - 1) k (fun i => P (i + 1)) := by
  unfold dp
  rw [det_succ_column_zero, Fin.sum_univ_succ]
  rw [Finset.sum_eq_zero]
  · have h0 : ¬ (0 + 1 = k + 1) := by omega
    simp only [Fin.val_zero, pow_zero, one_mul, of_apply, ent, h0, if_false, Nat.sub_zero, add_zero]
    congr 2
    ext i c : 2
    simp only [submatrix_apply, of_apply, Fin.succAbove_zero, Fin.val_succ, Nat.add_right_cancel_iff]
    split
    · rfl
    · rw [show N - 1 - ((c : ℕ) + 1) = N - 1 - 1 - c by omega]
  · intro i _
    have h0 : ¬ (0 + 1 = k + 1) := by omega
    simp only [of_apply, ent, Fin.val_zero, h0, if_false, Nat.sub_zero]
    rw [h _ (by simp) (by have := i.2; simp)]
    simp

theorem dp_peel (r : ℕ) : ∀ (N k : ℕ) (l : R) (P : ℕ → R[X]), 0 < k → (∀ i < r, (P i).coeff (N - 1 - i) = l) →
    (∀ i j, i < r → i < j → j < k + r → (P j).coeff (N - 1 - i) = 0) → dp N (k + r) P = C (l ^ r) * dp (N - r) k (fun i => P (i + r)) := by
  induction r with
  | zero => intro N k l P _ _ _; simp
  | succ r ih =>
    intro N k l P hk h1 h2
    rw [← add_assoc, dp_peel1 N (k + r) (by omega) P fun i hi hi' => by simpa using h2 0 i (by omega) hi (by omega)]
    rw [ih (N - 1) k l (fun i => P (i + 1)) hk (fun i hi => ?_) fun i j hi hij hj => ?_]
    · have := h1 0 (by omega)
      rw [Nat.sub_zero] at this
      rw [this, pow_succ', C_mul, mul_assoc]
      congr 3
      · omega
    · have := h1 (i + 1) (by omega)
      rw [← this]; congr 1; omega
    · have := h2 (i + 1) (j + 1) (by omega) (by omega) (by omega)
      rw [← this]; congr 1; omega

theorem dp_one (N : ℕ) (P : ℕ → R[X]) : dp N 1 P = P 0 := by
  unfold dp; simp [ent]

/-- The rows `x^(p-1) F, ..., F, x^(q-1) G, ..., G`. -/
noncomputable def rows (p q : ℕ) (F G : R[X]) (i : ℕ) : R[X] := if i < p then X ^ (p - 1 - i) * F else X ^ (q - 1 - (i - p)) * G

/-- The subresultant `j` of two polynomials of degrees (at most) `m` and `n`. -/
noncomputable def S (m n j : ℕ) (F G : R[X]) : R[X] := dp (m + n - j) ((n - j) + (m - j)) (rows (n - j) (m - j) F G)

theorem rows_flip (N p q : ℕ) (F G : R[X]) : Associated (dp N (p + q) (rows p q F G)) (dp N (q + p) (rows q p G F)) := by
  refine dp_flip N p q _ _ (fun i hi => ?_) fun i hi => ?_
  · simp only [rows, hi, if_true, show ¬ (p + i < p) by omega, if_false]
    congr 2; omega
  · simp only [rows, hi, if_true, show ¬ (q + i < q) by omega, if_false]
    congr 2; omega

/-- Multiples of the second polynomial can be subtracted from the first one. -/
theorem rows_reduce (N p q : ℕ) (F G H Q : R[X]) (c : R) (h : C c * F = Q * G + H) (hQ : Q.natDegree + p ≤ q) :
    dp N (p + q) (rows p q H G) = C (c ^ p) * dp N (p + q) (rows p q F G) := by
  let T : Matrix (Fin (p + q)) (Fin (p + q)) R := Matrix.of fun i j =>
    if (i : ℕ) < p then (if (j : ℕ) < p then (if i = j then c else 0) else -(X ^ (p - 1 - (i : ℕ)) * Q).coeff (q - 1 - ((j : ℕ) - p)))
    else (if i = j then 1 else 0)
  have hT : T.det = c ^ p := by
    rw [det_of_isUpperTriangular]
    · rw [Fin.prod_univ_add]
      simp [T]
    · intro i j hij
      have hij' : (j : ℕ) < i := hij
      simp only [T, of_apply]
      have hne : i ≠ j := by rintro rfl; exact absurd hij' (lt_irrefl _)
      split
      · rw [if_pos (by omega)]
      · rfl
  rw [dp_rowop N (p + q) T (rows p q F G) (rows p q H G) ?_, hT]
  intro i
  by_cases hi : (i : ℕ) < p
  · rw [Fin.sum_univ_add]
    have h1 : ∑ j : Fin p, C (T i (Fin.castAdd q j)) * rows p q F G (Fin.castAdd q j) = C c * (X ^ (p - 1 - (i : ℕ)) * F) := by
      rw [Finset.sum_eq_single ⟨i, hi⟩]
      · have : i = Fin.castAdd q ⟨i, hi⟩ := Fin.ext rfl
        simp only [T, of_apply, hi, if_true, rows, ← this]
      · intro j _ hj
        have : ¬ i = Fin.castAdd q j := fun h => hj (Fin.ext (by simpa using (congrArg Fin.val h).symm))
        simp only [T, of_apply, hi, if_true, Fin.val_castAdd, j.2, this, if_false]
        simp
      · simp
    have h2 : ∑ j : Fin q, C (T i (Fin.natAdd p j)) * rows p q F G (Fin.natAdd p j) = - (X ^ (p - 1 - (i : ℕ)) * Q * G) := by
      have hd : (X ^ (p - 1 - (i : ℕ)) * Q).natDegree < q := by
        refine lt_of_le_of_lt natDegree_mul_le ?_
        have := natDegree_X_pow_le (R := R) (p - 1 - (i : ℕ))
        omega
      have hs := as_sum_range' (X ^ (p - 1 - (i : ℕ)) * Q) q hd
      have h3 : X ^ (p - 1 - (i : ℕ)) * Q * G = ∑ j : Fin q, C ((X ^ (p - 1 - (i : ℕ)) * Q).coeff (q - 1 - j)) * (X ^ (q - 1 - (j : ℕ)) * G) := by
        conv_lhs => rw [hs, Finset.sum_mul, ← Finset.sum_range_reflect]
        refine (Fin.sum_univ_eq_sum_range (fun j => (monomial (q - 1 - j)) ((X ^ (p - 1 - (i : ℕ)) * Q).coeff (q - 1 - j)) * G) q).symm.trans ?_
        refine Finset.sum_congr rfl fun j _ => ?_
        rw [← C_mul_X_pow_eq_monomial, mul_assoc]
      rw [h3, ← Finset.sum_neg_distrib]
      refine Finset.sum_congr rfl fun j _ => ?_
      simp only [T, of_apply, hi, if_true, Fin.val_natAdd, rows, show ¬ (p + (j : ℕ) < p) by omega, if_false, Nat.add_sub_cancel_left, C_neg, neg_mul]
    rw [h1, h2]
    simp only [rows, hi, if_true]
    linear_combination (- X ^ (p - 1 - (i : ℕ))) * h
  · rw [Finset.sum_eq_single i]
    · simp only [T, of_apply, hi, if_false, if_true, rows]; simp
    · intro j _ hj
      simp only [T, of_apply, hi, if_false, if_neg (Ne.symm hj)]; simp
    · simp

/-- The second polynomial is multiplied by a constant. -/
theorem S_scale (m n j : ℕ) (F G : R[X]) (b : R) : S m n j F (C b * G) = C (b ^ (m - j)) * S m n j F G := by
  unfold S
  have h := dp_scale (m + n - j) ((n - j) + (m - j)) (fun i : ℕ => if i < n - j then (1 : R) else b) (rows (n - j) (m - j) F G)
  have h1 : ∏ i : Fin ((n - j) + (m - j)), (if (i : ℕ) < n - j then (1 : R) else b) = b ^ (m - j) := by
    rw [Fin.prod_univ_add]; simp
  rw [h1] at h
  rw [← h]
  refine dp_congr fun i hi => ?_
  unfold rows
  split
  · simp
  · ring

theorem coeff_X_pow_mul_of_le {k i : ℕ} (F : R[X]) (h : k ≤ i) : (X ^ k * F).coeff i = F.coeff (i - k) := by
  rw [coeff_X_pow_mul', if_pos h]

/-- Row elimination for `rows G H q p`: `r` rows are taken off. -/
theorem rows_peel (m n k j : ℕ) (G H : R[X]) (hnm : n ≤ m) (hkn : k < n) (hj : j ≤ k) (hG : G.natDegree ≤ n) (hH : H.natDegree ≤ k) :
    dp (m + n - j) ((m - j) + (n - j)) (rows (m - j) (n - j) G H) = C (G.coeff n ^ (m - k)) * S n k j G H := by
  have e : (m - j) + (n - j) = ((k - j) + (n - j)) + (m - k) := by omega
  rw [e, dp_peel (m - k) (m + n - j) _ (G.coeff n) _ (by omega)]
  · unfold S
    rw [show m + n - j - (m - k) = n + k - j by omega]
    congr 1
    refine dp_congr fun i hi => ?_
    unfold rows
    by_cases h : i < k - j
    · rw [if_pos h, if_pos (by omega)]; congr 2; omega
    · rw [if_neg h, if_neg (by omega)]; congr 2; omega
  · intro i hi
    unfold rows
    rw [if_pos (by omega), coeff_X_pow_mul_of_le _ (by omega)]
    congr 1; omega
  · intro i i' hi hii' hi'
    unfold rows
    split
    · rw [coeff_X_pow_mul_of_le _ (by omega)]
      exact coeff_eq_zero_of_natDegree_lt (by omega)
    · rw [coeff_X_pow_mul_of_le _ (by omega)]
      exact coeff_eq_zero_of_natDegree_lt (by omega)

/-- From the subresultants of `F` and `G` to those of `G` and the pseudo-remainder. -/
theorem S_step (m n k j : ℕ) (F G H Q : R[X]) (hnm : n ≤ m) (hkn : k < n) (hj : j ≤ k) (hG : G.natDegree ≤ n) (hH : H.natDegree ≤ k)
    (hQ : Q.natDegree ≤ m - n) (c : R) (h : C c * F = Q * G + H) :
    Associated (C (c ^ (n - j)) * S m n j F G) (C (G.coeff n ^ (m - k)) * S n k j G H) := by
  have h1 := rows_reduce (m + n - j) (n - j) (m - j) F G H Q c h (by omega)
  have h2 := rows_flip (m + n - j) (n - j) (m - j) H G
  rw [rows_peel m n k j G H hnm hkn hj hG hH, h1] at h2
  exact h2

/-- The last subresultant before the degree of `G`. -/
theorem S_pred (m n : ℕ) (F G H Q : R[X]) (hnm : n ≤ m) (h0 : 0 < n) (hG : G.natDegree ≤ n) (hH : H.natDegree < n)
    (hQ : Q.natDegree ≤ m - n) (c : R) (h : C c * F = Q * G + H) :
    Associated (C c * S m n (n - 1) F G) (C (G.coeff n ^ (m - n + 1)) * H) := by
  have h1 := rows_reduce (m + n - (n - 1)) (n - (n - 1)) (m - (n - 1)) F G H Q c h (by omega)
  have h2 := rows_flip (m + n - (n - 1)) (n - (n - 1)) (m - (n - 1)) H G
  have h3 : dp (m + n - (n - 1)) ((m - (n - 1)) + (n - (n - 1))) (rows (m - (n - 1)) (n - (n - 1)) G H) = C (G.coeff n ^ (m - n + 1)) * H := by
    have e : (m - (n - 1)) + (n - (n - 1)) = 1 + (m - n + 1) := by omega
    rw [e, dp_peel (m - n + 1) _ _ (G.coeff n) _ (by omega), dp_one]
    · simp only [rows]
      rw [if_neg (by omega), show n - (n - 1) - 1 - (0 + (m - n + 1) - (m - (n - 1))) = 0 by omega]
      simp
    · intro i hi
      unfold rows
      rw [if_pos (by omega), coeff_X_pow_mul_of_le _ (by omega)]
      congr 1; omega
    · intro i i' hi hii' hi'
      unfold rows
      split
      · rw [coeff_X_pow_mul_of_le _ (by omega)]
        exact coeff_eq_zero_of_natDegree_lt (by omega)
      · rw [coeff_X_pow_mul_of_le _ (by omega)]
        exact coeff_eq_zero_of_natDegree_lt (by omega)
  rw [h3, h1] at h2
  unfold S
  have e : n - (n - 1) = 1 := by omega
  rw [e] at h2 ⊢
  rwa [pow_one] at h2

/-- The subresultant at the degree of the second polynomial. -/
theorem S_self (n k : ℕ) (G H : R[X]) (hkn : k < n) (hH : H.natDegree ≤ k) :
    S n k k G H = C (H.coeff k ^ (n - k - 1)) * H := by
  unfold S
  rw [show k - k + (n - k) = 1 + (n - k - 1) by omega, dp_peel (n - k - 1) _ _ (H.coeff k) _ (by omega), dp_one]
  · simp only [rows]
    rw [if_neg (by omega), show n - k - 1 - (0 + (n - k - 1) - (k - k)) = 0 by omega]
    simp
  · intro i hi
    unfold rows
    rw [if_neg (by omega), coeff_X_pow_mul_of_le _ (by omega)]
    congr 1; omega
  · intro i i' hi hii' hi'
    unfold rows
    rw [if_neg (by omega), coeff_X_pow_mul_of_le _ (by omega)]
    exact coeff_eq_zero_of_natDegree_lt (by omega)

/-- A common divisor of the leading coefficients divides the subresultants. -/
theorem S_dvd (m n j : ℕ) (F G : R[X]) (hn : j < n) (hm : j < m) (hF : F.natDegree ≤ m) (hG : G.natDegree ≤ n) (g : R) (h1 : g ∣ F.coeff m)
    (h2 : g ∣ G.coeff n) : C g ∣ S m n j F G := by
  unfold S dp
  obtain ⟨w, hw⟩ : ∃ w, (n - j) + (m - j) = w + 1 := ⟨(n - j) + (m - j) - 1, by omega⟩
  rw [hw, det_succ_column_zero]
  refine Finset.dvd_sum fun i _ => ?_
  refine Dvd.dvd.mul_right (Dvd.dvd.mul_left ?_ _) _
  simp only [of_apply, ent, Fin.val_zero, show ¬ (0 + 1 = w + 1) by omega, if_false, Nat.sub_zero]
  refine map_dvd C ?_
  have hi := i.2
  unfold rows
  split
  · rw [coeff_X_pow_mul_of_le _ (by omega)]
    by_cases h : (i : ℕ) = 0
    · rw [show m + n - j - 1 - (n - j - 1 - (i : ℕ)) = m by omega]; exact h1
    · rw [coeff_eq_zero_of_natDegree_lt (by omega)]; exact dvd_zero _
  · rw [coeff_X_pow_mul_of_le _ (by omega)]
    by_cases h : (i : ℕ) - (n - j) = 0
    · rw [show m + n - j - 1 - (m - j - 1 - ((i : ℕ) - (n - j))) = n by omega]; exact h2
    · rw [coeff_eq_zero_of_natDegree_lt (by omega)]; exact dvd_zero _

end

section

variable {R : Type*} [CommRing R] [IsDomain R]

theorem assoc_ident {A : Type*} [CommRing A] [IsDomain A] {l lp s s' b B Y : A} {δ e u v : ℕ} (hl : l ≠ 0) (hlp : lp ≠ 0) (hs : s ≠ 0)
    (hb : Associated b (lp * s ^ δ)) (hs' : Associated (s' * s ^ (δ - 1)) (l ^ δ)) (hu : IsUnit s ∨ 0 < δ) (huv : u + v = δ + e + 1)
    (h : Associated (l ^ ((δ + 1) * (e + 1)) * (lp ^ (e + 1) * s ^ (δ + e) * B)) (l ^ v * (b ^ (e + 1) * Y))) :
    Associated (l ^ u * s' ^ e * B) Y := by
  have h1 : Associated (l ^ v * (b ^ (e + 1) * Y)) (l ^ v * ((lp * s ^ δ) ^ (e + 1) * Y)) :=
    (Associated.refl _).mul_mul ((hb.pow_pow).mul_mul (Associated.refl _))
  have h2 := h.trans h1
  have hc : l ^ v * (lp * s ^ δ) ^ (e + 1) ≠ 0 := mul_ne_zero (pow_ne_zero _ hl) (pow_ne_zero _ (mul_ne_zero hlp (pow_ne_zero _ hs)))
  refine Associated.of_mul_left ?_ (Associated.refl (l ^ v * (lp * s ^ δ) ^ (e + 1))) hc
  rw [mul_assoc (l ^ v) _ Y]
  refine Associated.trans ?_ h2
  by_cases hd : 0 < δ
  · have h3 : Associated (s' ^ e * s ^ ((δ - 1) * e)) (l ^ (δ * e)) := by
      have := hs'.pow_pow (n := e)
      rwa [mul_pow, ← pow_mul, ← pow_mul] at this
    have h4 := h3.mul_mul (Associated.refl (l ^ (u + v) * lp ^ (e + 1) * s ^ (δ + e) * B))
    have e1 : l ^ v * (lp * s ^ δ) ^ (e + 1) * (l ^ u * s' ^ e * B) = s' ^ e * s ^ ((δ - 1) * e) * (l ^ (u + v) * lp ^ (e + 1) * s ^ (δ + e) * B) := by
      obtain ⟨d, rfl⟩ : ∃ d, δ = d + 1 := ⟨δ - 1, by omega⟩
      rw [Nat.add_sub_cancel]; ring
    have e2 : l ^ ((δ + 1) * (e + 1)) * (lp ^ (e + 1) * s ^ (δ + e) * B) = l ^ (δ * e) * (l ^ (u + v) * lp ^ (e + 1) * s ^ (δ + e) * B) := by
      rw [huv]; ring
    rw [e1, e2]; exact h4
  · have hd0 : δ = 0 := by omega
    subst hd0
    have hsu := hu.resolve_right (by omega)
    have hs1 : Associated s' 1 := by simpa using hs'
    have h3 : Associated (s' ^ e) (s ^ e) := by
      have h5 := hs1.pow_pow (n := e)
      have h6 := (associated_one_iff_isUnit.2 hsu).pow_pow (n := e)
      exact h5.trans (by simpa using h6.symm)
    have h4 := h3.mul_mul (Associated.refl (l ^ (u + v) * lp ^ (e + 1) * B))
    have e1 : l ^ v * (lp * s ^ 0) ^ (e + 1) * (l ^ u * s' ^ e * B) = s' ^ e * (l ^ (u + v) * lp ^ (e + 1) * B) := by ring
    have e2 : l ^ ((0 + 1) * (e + 1)) * (lp ^ (e + 1) * s ^ (0 + e) * B) = s ^ e * (l ^ (u + v) * lp ^ (e + 1) * B) := by
      rw [huv]; ring
    rw [e1, e2]; exact h4

/-- The invariant of the algorithm: `F0`, `G0` are the polynomials at the start, `F`, `G` those at present, `lp` is the leading
coefficient of `F` (1 at the start), `s` is called psi in the algorithm. -/
structure Inv (F0 G0 F G : R[X]) (lp s : R) : Prop where
  le : G.natDegree ≤ F.natDegree
  ne : G ≠ 0
  lp0 : lp ≠ 0
  s0 : s ≠ 0
  unit : IsUnit s ∨ G.natDegree < F.natDegree
  sub : ∀ j < G.natDegree, Associated (C (lp ^ (G.natDegree - j) * s ^ (F.natDegree - 1 - j)) * S F0.natDegree G0.natDegree j F0 G0)
    (S F.natDegree G.natDegree j F G)
  psi : s ^ (F.natDegree - G.natDegree - 1) ∣ G.leadingCoeff ^ (F.natDegree - G.natDegree)

theorem Inv.start {F G : R[X]} (hle : G.natDegree ≤ F.natDegree) (hne : G ≠ 0) {s : R} (hs : IsUnit s) : Inv F G F G 1 s := by
  refine ⟨hle, hne, one_ne_zero, hs.ne_zero, .inl hs, fun j _ => ?_, (hs.pow _).dvd⟩
  rw [one_pow, one_mul, C_pow]
  have : IsUnit (C s : R[X]) := hs.map C
  simpa using (associated_one_iff_isUnit.2 (this.pow (F.natDegree - 1 - j))).mul_mul (Associated.refl (S F.natDegree G.natDegree j F G))

variable {F0 G0 F G H Q : R[X]} {lp s : R}

theorem natDegree_quot (hle : G.natDegree ≤ F.natDegree) (hne : G ≠ 0) (hH : H.natDegree < G.natDegree ∨ H = 0) {c : R} (h : C c * F = Q * G + H) :
    Q.natDegree ≤ F.natDegree - G.natDegree := by
  by_cases hQ : Q = 0
  · simp [hQ]
  have h1 : Q * G = C c * F - H := by rw [h]; ring
  have h2 := natDegree_mul hQ hne
  have h3 : (C c * F - H).natDegree ≤ F.natDegree := by
    refine le_trans (natDegree_sub_le _ _) (max_le (natDegree_C_mul_le _ _) ?_)
    rcases hH with hH | rfl
    · omega
    · simp
  rw [← h1, h2] at h3
  omega

/-- The pseudo-remainder is divisible by beta; the quotient is a subresultant. -/
theorem Inv.beta (hI : Inv F0 G0 F G lp s) (hH : H.natDegree < G.natDegree)
    (h : C (G.leadingCoeff ^ (F.natDegree - G.natDegree + 1)) * F = Q * G + H) {b : R} (hb : Associated b (lp * s ^ (F.natDegree - G.natDegree))) :
    ∃ F', H = C b * F' ∧ Associated F' (S F0.natDegree G0.natDegree (G.natDegree - 1) F0 G0) := by
  have hn : 0 < G.natDegree := by omega
  have hQ := natDegree_quot hI.le hI.ne (.inl hH) h
  have h1 := S_pred F.natDegree G.natDegree F G H Q hI.le hn le_rfl hH hQ _ h
  have hl : C (G.leadingCoeff ^ (F.natDegree - G.natDegree + 1)) ≠ 0 := by
    rw [Ne, C_eq_zero]; exact pow_ne_zero _ (leadingCoeff_ne_zero.2 hI.ne)
  have h2 : Associated (S F.natDegree G.natDegree (G.natDegree - 1) F G) H := by
    refine Associated.of_mul_left h1 (Associated.refl _) hl
  have h3 := (hI.sub (G.natDegree - 1) (by omega)).trans h2
  rw [show G.natDegree - (G.natDegree - 1) = 1 by omega, pow_one, show F.natDegree - 1 - (G.natDegree - 1) = F.natDegree - G.natDegree by omega] at h3
  have h4 : Associated (C b * S F0.natDegree G0.natDegree (G.natDegree - 1) F0 G0) H :=
    ((hb.map (C : R →+* R[X])).mul_mul (Associated.refl _)).trans h3
  obtain ⟨w, hw⟩ := h4
  refine ⟨S F0.natDegree G0.natDegree (G.natDegree - 1) F0 G0 * w, by rw [← hw]; ring, ?_⟩
  exact associated_mul_unit_left _ _ w.isUnit

/-- The next round. -/
theorem Inv.next (hI : Inv F0 G0 F G lp s) (hH : H.natDegree < G.natDegree) (hH0 : H ≠ 0)
    (h : C (G.leadingCoeff ^ (F.natDegree - G.natDegree + 1)) * F = Q * G + H) {b : R} (hb : Associated b (lp * s ^ (F.natDegree - G.natDegree)))
    {F' : R[X]} (hF' : H = C b * F') {s' : R} (hs' : Associated (s' * s ^ (F.natDegree - G.natDegree - 1)) (G.leadingCoeff ^ (F.natDegree - G.natDegree))) :
    Inv F0 G0 G F' G.leadingCoeff s' ∧
      Associated (C (s' ^ (G.natDegree - F'.natDegree - 1)) * S F0.natDegree G0.natDegree F'.natDegree F0 G0)
        (C (F'.leadingCoeff ^ (G.natDegree - F'.natDegree - 1)) * F') := by
  have hb0 : b ≠ 0 := by
    rintro rfl
    rw [C_0, zero_mul] at hF'
    exact hH0 hF'
  have hF'0 : F' ≠ 0 := by rintro rfl; simp at hF'; exact hH0 hF'
  have hdeg : H.natDegree = F'.natDegree := by rw [hF', natDegree_C_mul hb0]
  have hl0 : G.leadingCoeff ≠ 0 := leadingCoeff_ne_zero.2 hI.ne
  have hQ := natDegree_quot hI.le hI.ne (.inl hH) h
  have hle := hI.le
  have hs'0 : s' ≠ 0 := by
    rintro rfl
    rw [zero_mul] at hs'
    exact pow_ne_zero _ hl0 ((associated_zero_iff_eq_zero _).1 hs'.symm)
  have key : ∀ j ≤ F'.natDegree, Associated (C (G.leadingCoeff ^ (F'.natDegree - j) * s' ^ (G.natDegree - 1 - j)) * S F0.natDegree G0.natDegree j F0 G0)
      (S G.natDegree F'.natDegree j G F') := by
    intro j hj
    have h1 := S_step F.natDegree G.natDegree F'.natDegree j F G H Q hle (by omega) hj le_rfl hdeg.le hQ _ h
    rw [hF', S_scale] at h1
    have h2 := (hI.sub j (by omega))
    have h3 := ((Associated.refl (C ((G.leadingCoeff ^ (F.natDegree - G.natDegree + 1)) ^ (G.natDegree - j)))).mul_mul h2).trans h1
    have h4 := assoc_ident (A := R[X]) (l := C G.leadingCoeff) (lp := C lp) (s := C s) (s' := C s') (b := C b)
      (B := S F0.natDegree G0.natDegree j F0 G0) (Y := S G.natDegree F'.natDegree j G F') (δ := F.natDegree - G.natDegree) (e := G.natDegree - 1 - j)
      (u := F'.natDegree - j) (v := F.natDegree - F'.natDegree) (by simpa using hl0) (by simpa using hI.lp0) (by simpa using hI.s0)
      (by simpa using hb.map (C : R →+* R[X])) (by simpa using hs'.map (C : R →+* R[X])) (hI.unit.imp (fun h => h.map C) fun h => by omega) (by omega) (by
        have e1 : G.natDegree - 1 - j + 1 = G.natDegree - j := by omega
        have e2 : F.natDegree - G.natDegree + (G.natDegree - 1 - j) = F.natDegree - 1 - j := by omega
        rw [e1, e2, pow_mul]
        simpa only [C_mul, C_pow, coeff_natDegree] using h3)
    simpa only [C_mul, C_pow] using h4
  have hself := key F'.natDegree le_rfl
  rw [S_self _ _ _ _ (by omega) le_rfl, Nat.sub_self, pow_zero, one_mul, coeff_natDegree,
    show G.natDegree - 1 - F'.natDegree = G.natDegree - F'.natDegree - 1 by omega] at hself
  refine ⟨⟨by omega, hF'0, hl0, hs'0, .inr (by omega), fun j hj => key j hj.le, ?_⟩, hself⟩
  obtain ⟨w, hw⟩ := hself.symm
  obtain ⟨c, hc, hcw⟩ := Polynomial.isUnit_iff.1 w.isUnit
  have h5 := congrArg (fun p => p.coeff F'.natDegree) hw
  simp only [← hcw, coeff_mul_C, coeff_C_mul, coeff_natDegree] at h5
  have h6 : s' ^ (G.natDegree - F'.natDegree - 1) ∣ F'.leadingCoeff ^ (G.natDegree - F'.natDegree - 1) * F'.leadingCoeff * c := ⟨_, h5⟩
  rw [hc.dvd_mul_right, ← pow_succ, show G.natDegree - F'.natDegree - 1 + 1 = G.natDegree - F'.natDegree by omega] at h6
  exact h6

/-- The next psi is a coefficient of a subresultant. -/
theorem psi_coeff {F' : R[X]} {s' s'' : R} {n : ℕ} (hlt : F'.natDegree < n) (hs' : s' ≠ 0) {T : R[X]}
    (h : Associated (C (s' ^ (n - F'.natDegree - 1)) * T) (C (F'.leadingCoeff ^ (n - F'.natDegree - 1)) * F'))
    (hs'' : Associated (s'' * s' ^ (n - F'.natDegree - 1)) (F'.leadingCoeff ^ (n - F'.natDegree))) :
    Associated s'' (T.coeff F'.natDegree) := by
  obtain ⟨w, hw⟩ := h.symm
  obtain ⟨c, hc, hcw⟩ := Polynomial.isUnit_iff.1 w.isUnit
  have h5 := congrArg (fun p => p.coeff F'.natDegree) hw
  simp only [← hcw, coeff_mul_C, coeff_C_mul, coeff_natDegree] at h5
  have h6 : Associated (F'.leadingCoeff ^ (n - F'.natDegree)) (s' ^ (n - F'.natDegree - 1) * T.coeff F'.natDegree) := by
    rw [← h5, ← pow_succ, show n - F'.natDegree - 1 + 1 = n - F'.natDegree by omega]
    exact (associated_mul_unit_left _ _ hc).symm
  have h7 := hs''.trans h6
  rw [mul_comm s''] at h7
  exact Associated.of_mul_left h7 (Associated.refl _) (pow_ne_zero _ hs')

end

end Tsym.Subres
