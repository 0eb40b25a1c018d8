import Mathlib.FieldTheory.IntermediateField.Adjoin.Basic
import Mathlib.NumberTheory.Real.Irrational
import Mathlib.Algebra.Squarefree.Basic
import Mathlib.Data.Nat.Squarefree
import Mathlib.Data.Nat.Factorization.Basic

set_option autoImplicit false

/-!
# Helper lemmas: square roots of different squarefree numbers are linearly independent over the rational numbers
-/

namespace Tsym.Indep

/-- The real numbers `a + b * √p` with `a` and `b` from a field that contains `p`. -/
def ext (K : Subfield ℝ) (p : ℕ) : Subfield ℝ where
  carrier := {x | ∃ a ∈ K, ∃ b ∈ K, x = a + b * √(p : ℝ)}
  one_mem' := ⟨1, K.one_mem, 0, K.zero_mem, by simp⟩
  zero_mem' := ⟨0, K.zero_mem, 0, K.zero_mem, by simp⟩
  add_mem' := by
    rintro x y ⟨a, ha, b, hb, rfl⟩ ⟨c, hc, d, hd, rfl⟩
    exact ⟨a + c, K.add_mem ha hc, b + d, K.add_mem hb hd, by ring⟩
  neg_mem' := by
    rintro x ⟨a, ha, b, hb, rfl⟩
    exact ⟨-a, K.neg_mem ha, -b, K.neg_mem hb, by ring⟩
  mul_mem' := by
    rintro x y ⟨a, ha, b, hb, rfl⟩ ⟨c, hc, d, hd, rfl⟩
    have hs : √(p : ℝ) * √(p : ℝ) = p := Real.mul_self_sqrt (Nat.cast_nonneg p)
    refine ⟨a * c + b * d * p, K.add_mem (K.mul_mem ha hc) (K.mul_mem (K.mul_mem hb hd) (natCast_mem K p)), a * d + b * c,
      K.add_mem (K.mul_mem ha hd) (K.mul_mem hb hc), ?_⟩
    linear_combination b * d * hs
  inv_mem' := by
    rintro x ⟨a, ha, b, hb, rfl⟩
    have hs : √(p : ℝ) * √(p : ℝ) = p := Real.mul_self_sqrt (Nat.cast_nonneg p)
    by_cases h0 : a + b * √(p : ℝ) = 0
    · exact ⟨0, K.zero_mem, 0, K.zero_mem, by rw [h0]; simp⟩
    by_cases h1 : a - b * √(p : ℝ) = 0
    · -- then √p * b = a, so the number is 2 * a
      have e : a + b * √(p : ℝ) = 2 * a := by linarith
      rw [e]
      exact ⟨(2 * a)⁻¹, K.inv_mem (K.mul_mem (ofNat_mem K 2) ha), 0, K.zero_mem, by simp⟩
    · have hn : a * a - b * b * p ∈ K := K.sub_mem (K.mul_mem ha ha) (K.mul_mem (K.mul_mem hb hb) (natCast_mem K p))
      have e : (a + b * √(p : ℝ)) * (a - b * √(p : ℝ)) = a * a - b * b * p := by linear_combination -(b * b) * hs
      have hne : a * a - b * b * p ≠ 0 := by rw [← e]; exact mul_ne_zero h0 h1
      refine ⟨a * (a * a - b * b * p)⁻¹, K.mul_mem ha (K.inv_mem hn), -b * (a * a - b * b * p)⁻¹, K.mul_mem (K.neg_mem hb) (K.inv_mem hn), ?_⟩
      refine inv_eq_of_mul_eq_one_right ?_
      rw [show (a + b * √(p : ℝ)) * (a * (a * a - b * b * p)⁻¹ + -b * (a * a - b * b * p)⁻¹ * √(p : ℝ)) =
        (a + b * √(p : ℝ)) * (a - b * √(p : ℝ)) * (a * a - b * b * p)⁻¹ by ring, e, mul_inv_cancel₀ hne]

/-- The field with the square roots of the numbers of a list. -/
noncomputable def field : List ℕ → Subfield ℝ
  | [] => (Rat.castHom ℝ).fieldRange
  | p :: l => ext (field l) p

theorem mem_ext {K : Subfield ℝ} {p : ℕ} {x : ℝ} : x ∈ ext K p ↔ ∃ a ∈ K, ∃ b ∈ K, x = a + b * √(p : ℝ) := Iff.rfl

theorem sub_ext {K : Subfield ℝ} {p : ℕ} {x : ℝ} (h : x ∈ K) : x ∈ ext K p := ⟨x, h, 0, K.zero_mem, by simp⟩

theorem sqrt_mem_ext (K : Subfield ℝ) (p : ℕ) : √(p : ℝ) ∈ ext K p := ⟨0, K.zero_mem, 1, K.one_mem, by simp⟩

/-- The root of a squarefree number with a prime that is not in the list is not in the field of the list. -/
theorem not_mem : ∀ (l : List ℕ), (∀ p ∈ l, p.Prime) → l.Nodup → ∀ q : ℕ, Squarefree q → q ≠ 1 → (∀ p ∈ l, ¬ p ∣ q) → √(q : ℝ) ∉ field l
  | [], _, _, q, hq, h1, _ => by
    intro h
    obtain ⟨r, hr⟩ : ∃ r : ℚ, (r : ℝ) = √(q : ℝ) := h
    have hirr : Irrational √((q : ℤ) : ℝ) := by
      rw [irrational_sqrt_intCast_iff]
      refine ⟨?_, by positivity⟩
      rintro ⟨k, hk⟩
      have hk' : q = k.natAbs * k.natAbs := by
        have := congrArg Int.natAbs hk
        rwa [Int.natAbs_natCast, Int.natAbs_mul] at this
      have hu := hq k.natAbs ⟨1, by rw [mul_one]; exact hk'⟩
      rw [Nat.isUnit_iff] at hu
      rw [hu] at hk'
      exact h1 hk'
    exact hirr ⟨r, by rw [hr]; push_cast; rfl⟩
  | p :: l, hp, hn, q, hq, h1, hd => by
    have hpp := hp p (by simp)
    have hpl := (List.nodup_cons.1 hn).1
    have hl := (List.nodup_cons.1 hn).2
    have hpr : ∀ r ∈ l, r.Prime := fun r hr => hp r (by simp [hr])
    have hsp : √(p : ℝ) ∉ field l := not_mem l hpr hl p hpp.prime.squarefree hpp.one_lt.ne' fun r hr hd' => by
      rcases (Nat.dvd_prime hpp).1 hd' with h | h
      · exact (hpr r hr).one_lt.ne' h
      · exact hpl (h ▸ hr)
    have hsq : √(q : ℝ) ∉ field l := not_mem l hpr hl q hq h1 fun r hr => hd r (by simp [hr])
    have hspq : √((p * q : ℕ) : ℝ) ∉ field l := by
      have hc : p.Coprime q := (Nat.Prime.coprime_iff_not_dvd hpp).2 (hd p (by simp))
      refine not_mem l hpr hl (p * q) ((Nat.squarefree_mul hc).2 ⟨hpp.prime.squarefree, hq⟩) ?_ fun r hr hdv => ?_
      · intro h
        exact hpp.one_lt.ne' (Nat.eq_one_of_mul_eq_one_right h)
      · rcases (hpr r hr).dvd_mul.1 hdv with h | h
        · rcases (Nat.dvd_prime hpp).1 h with h | h
          · exact (hpr r hr).one_lt.ne' h
          · exact hpl (h ▸ hr)
        · exact hd r (by simp [hr]) h
    rintro ⟨a, ha, b, hb, he⟩
    have s1 : √(p : ℝ) * √(p : ℝ) = p := Real.mul_self_sqrt (Nat.cast_nonneg p)
    have s2 : √(q : ℝ) * √(q : ℝ) = q := Real.mul_self_sqrt (Nat.cast_nonneg q)
    have K := field l
    by_cases hb0 : b = 0
    · rw [hb0, zero_mul, add_zero] at he
      exact hsq (he ▸ ha)
    by_cases ha0 : a = 0
    · rw [ha0, zero_add] at he
      refine hspq ?_
      have : √((p * q : ℕ) : ℝ) = b * p := by
        push_cast
        rw [Real.sqrt_mul (Nat.cast_nonneg p), he]
        linear_combination b * s1
      rw [this]
      exact (field l).mul_mem hb (natCast_mem _ p)
    · refine hsp ?_
      have h2 : (q : ℝ) = a * a + b * b * p + 2 * a * b * √(p : ℝ) := by
        rw [← s2, he]; linear_combination b * b * s1
      have h3 : √(p : ℝ) = (q - a * a - b * b * p) * (2 * a * b)⁻¹ := by
        have : (2 * a * b : ℝ) ≠ 0 := by simp [ha0, hb0]
        field_simp
        linarith
      rw [h3]
      exact (field l).mul_mem ((field l).sub_mem ((field l).sub_mem (natCast_mem _ q) ((field l).mul_mem ha ha))
        ((field l).mul_mem ((field l).mul_mem hb hb) (natCast_mem _ p)))
        ((field l).inv_mem ((field l).mul_mem ((field l).mul_mem (ofNat_mem _ 2) ha) hb))

/-- The root of a squarefree number is in the field of its primes. -/
theorem sqrt_mem : ∀ (l : List ℕ) (q : ℕ), Squarefree q → (∀ p, p.Prime → p ∣ q → p ∈ l) → √(q : ℝ) ∈ field l
  | [], q, hq, h => by
    have : q = 1 := by
      by_contra h1
      obtain ⟨p, hp, hd⟩ := Nat.exists_prime_and_dvd h1
      exact absurd (h p hp hd) (by simp)
    rw [this]
    simp [(field []).one_mem]
  | p :: l, q, hq, h => by
    by_cases hd : p ∣ q ∧ p.Prime
    · obtain ⟨⟨k, rfl⟩, hp⟩ := hd
      have hc := Nat.coprime_of_squarefree_mul hq
      have hk := hq.of_mul_right
      have := sqrt_mem l k hk fun r hr hdv => by
        rcases List.mem_cons.1 (h r hr (dvd_mul_of_dvd_right hdv p)) with rfl | h
        · exact absurd hdv ((Nat.Prime.coprime_iff_not_dvd hp).1 hc)
        · exact h
      push_cast
      rw [Real.sqrt_mul (Nat.cast_nonneg p)]
      exact (ext (field l) p).mul_mem (sqrt_mem_ext _ p) (sub_ext this)
    · refine sub_ext (sqrt_mem l q hq fun r hr hdv => ?_)
      rcases List.mem_cons.1 (h r hr hdv) with rfl | h
      · exact absurd ⟨hdv, hr⟩ hd
      · exact h

/-- Linear independence, for the squarefree numbers with the primes of a list. -/
theorem indep_aux : ∀ (l : List ℕ), (∀ p ∈ l, p.Prime) → l.Nodup → ∀ (T : Finset ℕ) (c : ℕ → ℚ),
    (∀ n ∈ T, Squarefree n ∧ ∀ p, p.Prime → p ∣ n → p ∈ l) → ∑ n ∈ T, (c n : ℝ) * √(n : ℝ) = 0 → ∀ n ∈ T, c n = 0
  | [], _, _, T, c, hT, hs => by
    have h1 : ∀ n ∈ T, n = 1 := fun n hn => by
      by_contra h1
      obtain ⟨p, hp, hd⟩ := Nat.exists_prime_and_dvd h1
      exact absurd ((hT n hn).2 p hp hd) (by simp)
    intro n hn
    have hTn : T = {1} := by
      ext m
      constructor
      · intro hm; rw [h1 m hm]; simp
      · intro hm; rw [Finset.mem_singleton] at hm; rw [hm, ← h1 n hn]; exact hn
    rw [hTn] at hs
    rw [h1 n hn]
    simpa using hs
  | p :: l, hp, hn, T, c, hT, hs => by
    have hpp := hp p (by simp)
    have hpl := (List.nodup_cons.1 hn).1
    have hl := (List.nodup_cons.1 hn).2
    have hpr : ∀ r ∈ l, r.Prime := fun r hr => hp r (by simp [hr])
    set A := T.filter (fun n => ¬ p ∣ n) with hA
    set B := (T.filter (fun n => p ∣ n)).image (fun n => n / p) with hB
    have hAT : ∀ n ∈ A, Squarefree n ∧ ∀ q, q.Prime → q ∣ n → q ∈ l := by
      intro n hn
      obtain ⟨h1, h2⟩ := Finset.mem_filter.1 hn
      refine ⟨(hT n h1).1, fun q hq hd => ?_⟩
      rcases List.mem_cons.1 ((hT n h1).2 q hq hd) with rfl | h
      · exact absurd hd h2
      · exact h
    have hBT : ∀ n ∈ B, Squarefree n ∧ ∀ q, q.Prime → q ∣ n → q ∈ l := by
      intro n hn
      obtain ⟨m, hm, rfl⟩ := Finset.mem_image.1 hn
      obtain ⟨h1, k, rfl⟩ := Finset.mem_filter.1 hm
      rw [Nat.mul_div_cancel_left k hpp.pos]
      have hsq := (hT _ h1).1
      refine ⟨hsq.of_mul_right, fun q hq hd => ?_⟩
      rcases List.mem_cons.1 ((hT _ h1).2 q hq (dvd_mul_of_dvd_right hd p)) with rfl | h
      · exact absurd hd ((Nat.Prime.coprime_iff_not_dvd hpp).1 (Nat.coprime_of_squarefree_mul hsq))
      · exact h
    have hsum : ∑ n ∈ A, (c n : ℝ) * √(n : ℝ) + (∑ n ∈ B, (c (p * n) : ℝ) * √(n : ℝ)) * √(p : ℝ) = 0 := by
      rw [← hs, ← Finset.sum_filter_add_sum_filter_not T (fun n => p ∣ n), add_comm]
      congr 1
      rw [hB, Finset.sum_image, Finset.sum_mul]
      · refine Finset.sum_congr rfl fun n hn => ?_
        obtain ⟨h1, k, rfl⟩ := Finset.mem_filter.1 hn
        rw [Nat.mul_div_cancel_left k hpp.pos]
        push_cast
        rw [Real.sqrt_mul (Nat.cast_nonneg p)]
        ring
      · intro x hx y hy hxy
        obtain ⟨_, k, rfl⟩ := Finset.mem_filter.1 hx
        obtain ⟨_, k', rfl⟩ := Finset.mem_filter.1 hy
        simp only [Nat.mul_div_cancel_left _ hpp.pos] at hxy
        rw [hxy]
    have hsp : √(p : ℝ) ∉ field l := not_mem l hpr hl p hpp.prime.squarefree hpp.one_lt.ne' fun r hr hd' => by
      rcases (Nat.dvd_prime hpp).1 hd' with h | h
      · exact (hpr r hr).one_lt.ne' h
      · exact hpl (h ▸ hr)
    have mem : ∀ (S : Finset ℕ) (d : ℕ → ℚ), (∀ n ∈ S, Squarefree n ∧ ∀ q, q.Prime → q ∣ n → q ∈ l) → ∑ n ∈ S, (d n : ℝ) * √(n : ℝ) ∈ field l :=
      fun S d h => (field l).sum_mem fun n hn => (field l).mul_mem (SubfieldClass.ratCast_mem _ _) (sqrt_mem l n (h n hn).1 (h n hn).2)
    have hB0 : ∑ n ∈ B, (c (p * n) : ℝ) * √(n : ℝ) = 0 := by
      by_contra h0
      refine hsp ?_
      have : √(p : ℝ) = -(∑ n ∈ A, (c n : ℝ) * √(n : ℝ)) * (∑ n ∈ B, (c (p * n) : ℝ) * √(n : ℝ))⁻¹ := by
        field_simp
        linarith
      rw [this]
      exact (field l).mul_mem ((field l).neg_mem (mem A c hAT)) ((field l).inv_mem (mem B (fun n => c (p * n)) hBT))
    have hA0 : ∑ n ∈ A, (c n : ℝ) * √(n : ℝ) = 0 := by rwa [hB0, zero_mul, add_zero] at hsum
    have iA := indep_aux l hpr hl A c hAT hA0
    have iB := indep_aux l hpr hl B (fun n => c (p * n)) hBT hB0
    intro n hn
    by_cases hd : p ∣ n
    · obtain ⟨k, rfl⟩ := hd
      refine iB k (Finset.mem_image.2 ⟨p * k, Finset.mem_filter.2 ⟨hn, dvd_mul_right p k⟩, Nat.mul_div_cancel_left k hpp.pos⟩)
    · exact iA n (Finset.mem_filter.2 ⟨hn, hd⟩)

/-- The square roots of different squarefree numbers are linearly independent over the rational numbers. -/
theorem indep (T : Finset ℕ) (c : ℕ → ℚ) (hT : ∀ n ∈ T, Squarefree n) (hs : ∑ n ∈ T, (c n : ℝ) * √(n : ℝ) = 0) : ∀ n ∈ T, c n = 0 := by
  refine indep_aux (T.biUnion Nat.primeFactors).toList ?_ (Finset.nodup_toList _) T c (fun n hn => ⟨hT n hn, fun p hp hd => ?_⟩) hs
  · intro p hp
    rw [Finset.mem_toList, Finset.mem_biUnion] at hp
    obtain ⟨n, _, h⟩ := hp
    exact Nat.prime_of_mem_primeFactors h
  · rw [Finset.mem_toList, Finset.mem_biUnion]
    exact ⟨n, hn, Nat.mem_primeFactors.2 ⟨hp, hd, (hT n hn).ne_zero⟩⟩

end Tsym.Indep
