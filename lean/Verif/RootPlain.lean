import Verif.RootNMul
import Mathlib.Data.Nat.Factorization.Basic

set_option autoImplicit false
set_option linter.unusedSectionVars false
set_option linter.unusedSimpArgs false
set_option linter.unusedVariables false

/-!
# Helper lemmas: the numbers whose roots stay as they are
-/

namespace Tsym

namespace PrimeFac

theorem sorted_block {g : ℕ} (hg : 0 < g) {x : ℕ} {xs : List ℕ} (hs : (x :: xs).Pairwise (· ≤ ·)) (h : (x :: xs)[g - 1]? = some x) :
    (x :: xs).take g = List.replicate g x := by
  obtain ⟨hl, hx⟩ := List.getElem?_eq_some_iff.1 h
  rw [List.eq_replicate_iff]
  refine ⟨by rw [List.length_take]; omega, fun y hy => ?_⟩
  obtain ⟨i, hi, rfl⟩ := List.getElem_of_mem hy
  rw [List.getElem_take]
  rw [List.length_take] at hi
  rw [List.pairwise_iff_getElem] at hs
  have h1 : x ≤ (x :: xs)[i] := by
    rcases Nat.eq_zero_or_pos i with e | e
    · subst e; exact le_rfl
    · exact hs 0 i (by simp) (by omega) e
  have h2 : (x :: xs)[i] ≤ x := by
    rcases Nat.lt_or_ge i (g - 1) with e | e
    · have := hs i (g - 1) (by omega) hl e
      rwa [hx] at this
    · have : i = g - 1 := by omega
      subst this; exact hx.le
  exact le_antisymm h2 h1

theorem blocksOk_dvd {g : ℕ} (hg : 0 < g) : ∀ (k : ℕ) (l : List ℕ), l.length ≤ k → l.Pairwise (· ≤ ·) → blocksOk g k l = true → ∀ z, g ∣ l.count z := by
  intro k
  induction k with
  | zero => intro l hl _ _ z; rw [List.length_eq_zero_iff.1 (Nat.le_zero.1 hl)]; simp
  | succ k ih =>
    intro l hl hs hb z
    match l with
    | [] => simp
    | x :: xs =>
      simp only [blocksOk, Bool.and_eq_true, decide_eq_true_eq] at hb
      have ht := sorted_block hg hs hb.1
      have hd := ih ((x :: xs).drop g) (by rw [List.length_drop]; simp only [List.length_cons] at hl ⊢; omega)
        (hs.sublist (List.drop_sublist _ _)) hb.2 z
      rw [← List.take_append_drop g (x :: xs), List.count_append, ht, List.count_replicate]
      refine Nat.dvd_add ?_ hd
      split <;> simp

theorem sorted_takeWhile (x : ℕ) : ∀ l : List ℕ, (x :: l).Pairwise (· ≤ ·) → ((x :: l).takeWhile (· == x)).length = (x :: l).count x := by
  intro l
  induction l with
  | nil => intro _; simp
  | cons y l ih =>
    intro hs
    by_cases e : y = x
    · subst e
      have := ih hs.of_cons
      rw [List.takeWhile_cons_of_pos (by simp), List.count_cons_self, List.length_cons, this]
    · have hc : (y :: l).count x = 0 := by
        refine List.count_eq_zero.2 fun hm => ?_
        have h1 : x ≤ y := (List.pairwise_cons.1 hs).1 y (by simp)
        have h2 : y ≤ x := by
          rcases List.mem_cons.1 hm with h | h
          · exact h.ge
          · exact (List.pairwise_cons.1 hs.of_cons).1 x h
        exact e (le_antisymm h2 h1)
      rw [List.count_cons_self, hc, List.takeWhile_cons_of_pos (by simp), List.takeWhile_cons_of_neg (by simpa using e)]
      rfl

/-- If the exponent of the smallest prime is one or does not divide all exponents, no common exponent is seen. -/
theorem equalCountOf_le_one {x : ℕ} {xs : List ℕ} (hs : (x :: xs).Pairwise (· ≤ ·))
    (h : (x :: xs).count x = 1 ∨ ∃ z, ¬ (x :: xs).count x ∣ (x :: xs).count z) : ∃ c, equalCountOf (x :: xs) = .ok c ∧ c ≤ 1 := by
  unfold equalCountOf
  simp only
  have ht := sorted_takeWhile x xs hs
  rw [ht]
  split
  · exact ⟨_, rfl, by omega⟩
  · split
    · exact ⟨_, rfl, le_rfl⟩
    · rename_i h1 h2
      refine ⟨_, rfl, ?_⟩
      rw [if_neg]
      · omega
      · intro hb
        rcases h with h | ⟨z, hz⟩
        · exact h2 h
        · have hpos : 0 < (x :: xs).count x := by simp
          have hd := blocksOk_dvd hpos _ _ (by rw [List.length_drop]; omega) (hs.sublist (List.drop_sublist _ _)) hb z
          refine hz ?_
          have e : (x :: xs).take ((x :: xs).count x) = List.replicate ((x :: xs).count x) x := by
            have : (x :: xs).takeWhile (· == x) = (x :: xs).take ((x :: xs).count x) := by
              rw [← ht]; exact List.prefix_iff_eq_take.1 (List.takeWhile_prefix _)
            rw [← this, List.eq_replicate_iff]
            exact ⟨ht, fun y hy => by have := List.all_eq_true.1 List.all_takeWhile y hy; simpa using this⟩
          conv_rhs => rw [← List.take_append_drop ((x :: xs).count x) (x :: xs), List.count_append, e, List.count_replicate]
          refine Nat.dvd_add ?_ hd
          split <;> simp

theorem count_fact {l : List ℕ} {N : ℕ} (hp : ∀ x ∈ l, x.Prime) (h : l.prod = N) (z : ℕ) : l.count z = N.factorization z := by
  rw [← Nat.primeFactorsList_count_eq]
  exact (Nat.primeFactorsList_unique h hp).count_eq z

theorem head_minFac {x N : ℕ} {xs : List ℕ} (hp : ∀ y ∈ x :: xs, y.Prime) (hs : (x :: xs).Pairwise (· ≤ ·)) (h : (x :: xs).prod = N) :
    N.minFac = x := by
  have hx := hp x (by simp)
  have hd : x ∣ N := by rw [← h]; simp
  have hN : N ≠ 1 := by intro e; rw [e] at hd; exact hx.one_lt.ne' (Nat.dvd_one.1 hd)
  refine le_antisymm (Nat.minFac_le_of_dvd hx.two_le hd) ?_
  have hm := Nat.minFac_prime hN
  have hm2 : N.minFac ∣ (x :: xs).prod := by rw [h]; exact Nat.minFac_dvd N
  obtain ⟨a, ha, hda⟩ := (Prime.dvd_prod_iff hm.prime).1 hm2
  rw [(Nat.prime_dvd_prime_iff_eq hm (hp a ha)).1 hda]
  rcases List.mem_cons.1 ha with e | e
  · exact e.ge
  · exact (List.pairwise_cons.1 hs).1 a e

end PrimeFac

/-- No prime has an exponent of `d` or more, and the exponent of the smallest prime is one or does not divide all the others. -/
structure PlainNat (d N : ℕ) : Prop where
  pos : N ≠ 0
  low : ∀ p, N.factorization p < d
  sep : N = 1 ∨ N.factorization N.minFac = 1 ∨ ∃ p, ¬ N.factorization N.minFac ∣ N.factorization p

theorem PlainNat.count {d N : ℕ} (h : PlainNat d N) {l : List ℕ} (hp : ∀ x ∈ l, x.Prime) (hs : l.Pairwise (· ≤ ·)) (hl : l.prod = N) :
    (∀ z, l.count z < d) ∧ (l ≠ [] → ∃ c, PrimeFac.equalCountOf l = .ok c ∧ c ≤ 1) := by
  refine ⟨fun z => by rw [PrimeFac.count_fact hp hl]; exact h.low z, fun hne => ?_⟩
  match l, hne with
  | x :: xs, _ =>
    have hm := PrimeFac.head_minFac hp hs hl
    refine PrimeFac.equalCountOf_le_one hs ?_
    simp only [PrimeFac.count_fact hp hl]
    have hN : N ≠ 1 := by
      intro e
      have hx := hp x (by simp)
      have : x ∣ N := by rw [← hl]; simp
      rw [e] at this; exact hx.one_lt.ne' (Nat.dvd_one.1 this)
    have := h.sep
    rw [hm] at this
    exact this.resolve_left hN

theorem Stable.of_plain {max : ℤ} {b e : ℚ} (h0 : 0 < b) (h1 : b ≠ 1) (e0 : 0 < e) (e1 : e < 1) (hd : (e.den : ℤ) < Number.unsignedMax)
    (h : NumPowerSimpl.SmallQ max b → PlainNat e.den b.num.natAbs ∧ PlainNat e.den b.den) : Stable max b e := by
  obtain ⟨k0, k1, k2⟩ := NumPowerSimpl.exp_parts e0 e1
  refine ⟨h0, h1, e0, e1, ⟨k2.trans hd, hd⟩, fun hs P hP => ?_⟩
  obtain ⟨hn, hdd⟩ := h hs
  obtain ⟨p1, p2⟩ := hP.nums
  have p1' : P.num.prod = b.num.natAbs := by rw [← p1, Int.natAbs_natCast]
  obtain ⟨c1, q1⟩ := hn.count hP.pn hP.sn p1'
  obtain ⟨c2, q2⟩ := hdd.count hP.pd hP.sd p2
  refine ⟨c1, c2, ?_⟩
  unfold PrimeFac.equalCount
  by_cases a1 : P.num = []
  · by_cases a2 : P.den = []
    · exact ⟨0, by simp [a1, a2], by omega⟩
    · obtain ⟨c, hc, hc2⟩ := q2 a2
      exact ⟨c, by simp [a1, a2, hc], hc2⟩
  · obtain ⟨a, ha, ha2⟩ := q1 a1
    by_cases a2 : P.den = []
    · exact ⟨a, by simp [a1, a2, ha], ha2⟩
    · obtain ⟨c, hc, hc2⟩ := q2 a2
      refine ⟨if a = c then a else 0, by simp [a1, a2, ha, hc, bind, Except.bind, pure, Except.pure], ?_⟩
      split <;> omega

end Tsym
