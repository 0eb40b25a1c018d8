import Verif.RootPlain
import Verif.NumPowerSimplThm
import Verif.PrimeCollect

set_option autoImplicit false
set_option linter.unusedSectionVars false
set_option linter.unusedSimpArgs false
set_option linter.unusedVariables false

/-!
# Helper lemmas: when NumPowerSimpl is right
-/

namespace Tsym

/-- The primes of `q` are primes of `b`, on the same side of the fraction. -/
def Supp (b q : ℚ) : Prop := ∀ p : ℕ, p.Prime → (p ∣ q.num.natAbs → p ∣ b.num.natAbs) ∧ (p ∣ q.den → p ∣ b.den)

theorem Supp.one (b : ℚ) : Supp b 1 := by
  intro p hp
  simp [hp.ne_one]

theorem Supp.mul {b q r : ℚ} (hq : Supp b q) (hr : Supp b r) : Supp b (q * r) := by
  intro p hp
  have hd : ((q.den * r.den : ℕ) : ℤ) ≠ 0 := by exact_mod_cast Nat.mul_ne_zero q.den_nz r.den_nz
  have e : q * r = Rat.divInt (q.num * r.num) ((q.den * r.den : ℕ) : ℤ) := by
    rw [Rat.mul_def, Rat.normalize_eq_mkRat, Rat.mkRat_eq_divInt]
  have h1 : (q * r).num ∣ q.num * r.num := by rw [e]; exact Rat.num_dvd _ hd
  have h2 : (((q * r).den : ℕ) : ℤ) ∣ ((q.den * r.den : ℕ) : ℤ) := by rw [e]; exact Rat.den_dvd _ _
  have h1' : (q * r).num.natAbs ∣ q.num.natAbs * r.num.natAbs := by rw [← Int.natAbs_mul]; exact Int.natAbs_dvd_natAbs.2 h1
  have h2' : (q * r).den ∣ q.den * r.den := by exact_mod_cast h2
  constructor
  · intro h
    rcases hp.dvd_mul.1 (h.trans h1') with h | h
    · exact (hq p hp).1 h
    · exact (hr p hp).1 h
  · intro h
    rcases hp.dvd_mul.1 (h.trans h2') with h | h
    · exact (hq p hp).2 h
    · exact (hr p hp).2 h

theorem Supp.pow {b q : ℚ} (hq : Supp b q) (n : ℕ) : Supp b (q ^ n) := by
  induction n with
  | zero => rw [pow_zero]; exact Supp.one b
  | succ n ih => rw [pow_succ]; exact ih.mul hq

namespace PrimeFac

theorem Canon.supp {P S : PrimeFac} {b : ℚ} (hP : P.Canon b) (h1 : ∀ x ∈ S.num, x ∈ P.num) (h2 : ∀ x ∈ S.den, x ∈ P.den) : Supp b S.value := by
  intro p hp
  obtain ⟨n1, n2⟩ := hP.nums
  have n1' : P.num.prod = b.num.natAbs := by rw [← n1, Int.natAbs_natCast]
  have hd : (S.den.prod : ℤ) ≠ 0 := by
    have : 0 < S.den.prod := prod_pos fun x hx => (hP.pd x (h2 x hx)).pos
    omega
  have e : S.value = Rat.divInt (S.num.prod : ℤ) (S.den.prod : ℤ) := by
    rw [Rat.divInt_eq_div, Int.cast_natCast, Int.cast_natCast]; rfl
  have d1 : S.value.num ∣ (S.num.prod : ℤ) := by rw [e]; exact Rat.num_dvd _ hd
  have d2 : (S.value.den : ℤ) ∣ (S.den.prod : ℤ) := by rw [e]; exact Rat.den_dvd _ _
  have d1' : S.value.num.natAbs ∣ S.num.prod := by
    have := Int.natAbs_dvd_natAbs.2 d1
    rwa [Int.natAbs_natCast] at this
  have d2' : S.value.den ∣ S.den.prod := by exact_mod_cast d2
  rw [← n1', ← n2]
  constructor
  · intro h
    obtain ⟨x, hx, hpx⟩ := (Prime.dvd_prod_iff hp.prime).1 (h.trans d1')
    exact hpx.trans (List.dvd_prod (h1 x hx))
  · intro h
    obtain ⟨x, hx, hpx⟩ := (Prime.dvd_prod_iff hp.prime).1 (h.trans d2')
    exact hpx.trans (List.dvd_prod (h2 x hx))

/-! ## The count of equal primes -/

theorem blocksOk_of_dvd {g : ℕ} (hg : 0 < g) : ∀ (k : ℕ) (l : List ℕ), l.Pairwise (· ≤ ·) → (∀ z, g ∣ l.count z) → blocksOk g k l = true := by
  intro k
  induction k with
  | zero => intro l _ _; cases l <;> rfl
  | succ k ih =>
    intro l hs hc
    match l with
    | [] => rfl
    | x :: xs =>
      have hpos : 0 < (x :: xs).count x := by simp
      have hle : g ≤ (x :: xs).count x := Nat.le_of_dvd hpos (hc x)
      have ht := sorted_takeWhile x xs hs
      have hl : (x :: xs).takeWhile (· == x) = List.replicate ((x :: xs).count x) x := by
        rw [List.eq_replicate_iff]
        exact ⟨ht, fun y hy => by have := List.all_eq_true.1 List.all_takeWhile y hy; simpa using this⟩
      have htake : (x :: xs).take g = List.replicate g x := by
        have h1 : (x :: xs).take g = ((x :: xs).takeWhile (· == x)).take g := by
          have hp : (x :: xs).takeWhile (· == x) <+: x :: xs := List.takeWhile_prefix _
          rw [List.prefix_iff_eq_take.1 hp, List.take_take, ht, min_eq_left hle]
        rw [h1, hl, List.take_replicate, min_eq_left hle]
      have hget : (x :: xs)[g - 1]? = some x := by
        have h2 : ((x :: xs).take g)[g - 1]? = some x := by
          rw [htake, List.getElem?_replicate, if_pos (by omega)]
        rwa [List.getElem?_take_of_lt (by omega)] at h2
      simp only [blocksOk, Bool.and_eq_true, decide_eq_true_eq]
      refine ⟨hget, ih _ (hs.sublist (List.drop_sublist _ _)) fun z => ?_⟩
      have h3 := hc z
      rw [← List.take_append_drop g (x :: xs), List.count_append, htake, List.count_replicate] at h3
      refine (Nat.dvd_add_right ?_).1 h3
      split <;> simp

theorem dvd_length {g : ℕ} {l : List ℕ} (h : ∀ z, g ∣ l.count z) : g ∣ l.length := by
  rw [← List.sum_map_count_dedup_eq_length]
  refine List.dvd_sum fun y hy => ?_
  obtain ⟨z, _, rfl⟩ := List.mem_map.1 hy
  exact h z

/-- The count that is found: the one of the smallest prime, if it is one or divides all. -/
theorem equalCountOf_eq {x : ℕ} {xs : List ℕ} (hs : (x :: xs).Pairwise (· ≤ ·)) :
    (equalCountOf (x :: xs) = .ok 1 ∧ (x :: xs).count x = 1) ∨
    (equalCountOf (x :: xs) = .ok ((x :: xs).count x) ∧ 2 ≤ (x :: xs).count x ∧ ∀ z, (x :: xs).count x ∣ (x :: xs).count z) ∨
    (equalCountOf (x :: xs) = .ok 0 ∧ 2 ≤ (x :: xs).count x ∧ ¬ ∀ z, (x :: xs).count x ∣ (x :: xs).count z) := by
  have ht := sorted_takeWhile x xs hs
  have hpos : 0 < (x :: xs).count x := by simp
  by_cases h1 : (x :: xs).count x = 1
  · refine .inl ⟨?_, h1⟩
    unfold equalCountOf
    simp only [ht, h1, Nat.mod_one, ne_eq, not_true_eq_false, if_false, if_true]
  · refine .inr ?_
    by_cases h2 : ∀ z, (x :: xs).count x ∣ (x :: xs).count z
    · refine .inl ⟨?_, by omega, h2⟩
      have hl : (x :: xs).length % (x :: xs).count x = 0 := Nat.mod_eq_zero_of_dvd (dvd_length h2)
      have hb : blocksOk ((x :: xs).count x) (x :: xs).length ((x :: xs).drop ((x :: xs).count x)) = true := by
        refine blocksOk_of_dvd hpos _ _ (hs.sublist (List.drop_sublist _ _)) fun z => ?_
        have hl : (x :: xs).take ((x :: xs).count x) = List.replicate ((x :: xs).count x) x := by
          have : (x :: xs).takeWhile (· == x) = (x :: xs).take ((x :: xs).count x) := by
            rw [← ht]; exact List.prefix_iff_eq_take.1 (List.takeWhile_prefix _)
          rw [← this, List.eq_replicate_iff]
          exact ⟨ht, fun y hy => by have := List.all_eq_true.1 List.all_takeWhile y hy; simpa using this⟩
        have h3 := h2 z
        rw [show (x :: xs).count z = ((x :: xs).take ((x :: xs).count x)).count z + ((x :: xs).drop ((x :: xs).count x)).count z by
          rw [← List.count_append, List.take_append_drop], hl, List.count_replicate] at h3
        refine (Nat.dvd_add_right ?_).1 h3
        split <;> simp
      unfold equalCountOf
      simp only [ht, hl, h1, ne_eq, not_true_eq_false, if_false, hb, if_true]
    · refine .inr ⟨?_, by omega, h2⟩
      obtain ⟨c, hc, hc1⟩ := equalCountOf_le_one hs (.inr (not_forall.1 h2))
      unfold equalCountOf at hc ⊢
      simp only [ht] at hc ⊢
      by_cases h3 : (x :: xs).length % (x :: xs).count x = 0
      · simp only [h3, h1, ne_eq, not_true_eq_false, if_false] at hc ⊢
        split at hc
        · have := Except.ok.inj hc; omega
        · rename_i h4; rw [if_neg h4]
      · simp only [h3, ne_eq, not_false_eq_true, if_true]

/-! ## Dropping duplicates -/

theorem unique_self_mem : ∀ (l : List ℕ) (z : ℕ), z ∈ unique l ↔ z ∈ l := by
  intro l
  induction l with
  | nil => intro z; simp [unique]
  | cons x l ih =>
    intro z
    match l with
    | [] => simp [unique]
    | y :: ys =>
      unfold unique
      split
      · rename_i h; subst h; rw [ih]; simp
      · rw [List.mem_cons, ih]; simp

theorem unique_sorted : ∀ l : List ℕ, l.Pairwise (· ≤ ·) → (unique l).Pairwise (· < ·) := by
  intro l
  induction l with
  | nil => intro _; simp [unique]
  | cons x l ih =>
    intro hs
    match l with
    | [] => simp [unique]
    | y :: ys =>
      unfold unique
      split
      · exact ih hs.of_cons
      · rename_i h
        refine List.pairwise_cons.2 ⟨fun z hz => ?_, ih hs.of_cons⟩
        have hz' := (unique_self_mem _ _).1 hz
        have h1 : x ≤ y := (List.pairwise_cons.1 hs).1 y (by simp)
        have h2 : y ≤ z := by
          rcases List.mem_cons.1 hz' with e | e
          · exact e.ge
          · exact (List.pairwise_cons.1 hs.of_cons).1 z e
        omega

theorem unique_count {l : List ℕ} (hs : l.Pairwise (· ≤ ·)) (z : ℕ) : (unique l).count z = if z ∈ l then 1 else 0 := by
  have hn : (unique l).Nodup := (unique_sorted l hs).imp fun h => h.ne
  by_cases h : z ∈ l
  · rw [if_pos h]; exact List.count_eq_one_of_mem hn ((unique_self_mem _ _).2 h)
  · rw [if_neg h]; exact List.count_eq_zero.2 fun h' => h ((unique_self_mem _ _).1 h')

theorem unique_canon {R : PrimeFac} {q : ℚ} (h : R.Canon q) : (⟨unique R.num, unique R.den⟩ : PrimeFac).Canon ((⟨unique R.num, unique R.den⟩ : PrimeFac).value) :=
  ⟨fun x hx => h.pn x ((unique_self_mem _ _).1 hx), fun x hx => h.pd x ((unique_self_mem _ _).1 hx), (unique_sorted _ h.sn).imp fun h => h.le,
    (unique_sorted _ h.sd).imp fun h => h.le, fun x hx hx' => h.dis x ((unique_self_mem _ _).1 hx) ((unique_self_mem _ _).1 hx'), rfl⟩

/-- The power of the product of the different primes is the product exactly if all primes have this count. -/
theorem unique_pow {l : List ℕ} (hp : ∀ x ∈ l, x.Prime) (hs : l.Pairwise (· ≤ ·)) (c : ℕ) :
    (unique l).prod ^ c = l.prod ↔ ∀ z ∈ l, l.count z = c := by
  have hu : ∀ x ∈ unique l, x.Prime := fun x hx => hp x ((unique_self_mem _ _).1 hx)
  have h1 : (unique l).prod ^ c ≠ 0 := pow_ne_zero _ (prod_pos fun x hx => (hu x hx).pos).ne'
  have h2 : l.prod ≠ 0 := (prod_pos fun x hx => (hp x hx).pos).ne'
  have hf : ∀ z, ((unique l).prod ^ c).factorization z = c * (if z ∈ l then 1 else 0) := by
    intro z
    rw [Nat.factorization_pow, Finsupp.smul_apply, smul_eq_mul, ← count_fact hu rfl z, unique_count hs]
  constructor
  · intro h z hz
    have := hf z
    rw [h, ← count_fact hp rfl z, if_pos hz, mul_one] at this
    exact this
  · intro h
    refine Nat.eq_of_factorization_eq h1 h2 fun z => ?_
    rw [hf, ← count_fact hp rfl z]
    by_cases hz : z ∈ l
    · rw [if_pos hz, mul_one, h z hz]
    · rw [if_neg hz, mul_zero, List.count_eq_zero.2 hz]

theorem unique_pow_value {R : PrimeFac} {q : ℚ} (h : R.Canon q) (c : ℕ) :
    (⟨unique R.num, unique R.den⟩ : PrimeFac).value ^ c = R.value ↔ (∀ z ∈ R.num, R.num.count z = c) ∧ ∀ z ∈ R.den, R.den.count z = c := by
  rw [← unique_pow h.pn h.sn c, ← unique_pow h.pd h.sd c]
  have hu := unique_canon h
  obtain ⟨u1, u2⟩ := hu.nums
  have hR := h.val
  obtain ⟨r1, r2⟩ := h.nums
  constructor
  · intro e
    rw [hR] at e
    constructor
    · have := congrArg Rat.num e
      rw [Rat.num_pow, ← u1, ← r1] at this
      exact_mod_cast this
    · have := congrArg Rat.den e
      rw [Rat.den_pow, ← u2, ← r2] at this
      exact this
  · rintro ⟨e1, e2⟩
    simp only [value, div_pow]
    rw [← Nat.cast_pow, ← Nat.cast_pow, e1, e2]

theorem dup_strict (c : ℕ) : ∀ l : List ℕ, l.Pairwise (· < ·) → (dup c c l).Pairwise (· ≤ ·) := by
  intro l
  induction l with
  | nil => intro _; simp [dup]
  | cons x l ih =>
    intro h
    obtain ⟨h1, h2⟩ := List.pairwise_cons.1 h
    rw [dup_cons fun y hy => (h1 y hy).ne']
    refine List.pairwise_append.2 ⟨List.pairwise_replicate.2 (.inr le_rfl), ih h2, fun y hy z hz => ?_⟩
    rw [(List.mem_replicate.1 hy).2]
    exact (h1 z (dup_mem _ _ _ _ hz)).le

/-- Multiplying the different primes gives the list exactly if all have the count. -/
theorem dup_unique {l : List ℕ} (hp : ∀ x ∈ l, x.Prime) (hs : l.Pairwise (· ≤ ·)) (c : ℕ) :
    dup c c (unique l) = l ↔ ∀ z ∈ l, l.count z = c := by
  have hu : ∀ x ∈ unique l, x.Prime := fun x hx => hp x ((unique_self_mem _ _).1 hx)
  have hd : ∀ x ∈ dup c c (unique l), x.Prime := fun x hx => hu x (dup_mem _ _ _ _ hx)
  rw [← unique_pow hp hs, ← dup_prod c (unique l) fun x hx => (hu x hx).pos]
  constructor
  · intro h; rw [h]
  · intro h
    have h1 : ∀ z, (dup c c (unique l)).count z = l.count z := fun z => by
      rw [count_fact hd h, count_fact hp rfl]
    exact (List.perm_iff_count.2 h1).eq_of_pairwise' (dup_strict c _ (unique_sorted l hs)) hs

/-! ## Extraction -/

/-- What stays of the exponent `n` of a prime below the root of degree `d`; nothing is taken out of integer powers. -/
def stays (d n : ℕ) : ℕ := if d = 1 then n else n % d

theorem extractLoop_all : ∀ (xs pre : List ℕ) (prime n : ℕ), (0 < n ∨ ∀ x ∈ xs, x ≠ prime) → extractLoop 1 pre prime n xs = (pre.reverse ++ xs, []) := by
  intro xs
  induction xs with
  | nil => intro pre prime n _; simp [extractLoop]
  | cons x xs ih =>
    intro pre prime n h
    unfold extractLoop
    by_cases hx : prime ≠ x
    · rw [if_pos hx, ih _ _ _ (.inl Nat.one_pos)]; simp
    · have hn : ¬ (n + 1 = 1) := by
        rcases h with h | h
        · omega
        · exact absurd (not_not.1 hx).symm (h x (by simp))
      rw [if_neg hx, if_neg hn, ih _ _ _ (.inl (by omega))]; simp


theorem extract_run2 {D : Type} [Flt D] [ExactLt D] {P : PrimeFac} {b e : ℚ} (hP : P.Canon b) (h0 : 0 < e) (hd : 2 ≤ e.den)
    (hk : e.num < Number.unsignedMax) :
    ∃ X R : PrimeFac, ∃ s : ℚ, P.extract (.rat e : Number D) = .ok (X, R) ∧ X.Pos ∧ 0 < s ∧ X.value = s ^ e.num ∧ R.Canon R.value ∧ b = R.value * s ^ e.den ∧
      (∀ z, R.num.count z = P.num.count z % e.den) ∧ (∀ z, R.den.count z = P.den.count z % e.den) ∧ Supp b s := by
  have hnum := Rat.num_pos.2 h0
  have step : ∀ {A : List ℕ}, (∀ x ∈ A, x.Prime) → A.Pairwise (· ≤ ·) →
      (extractLoop e.den [] 0 0 A).1.prod * (extractLoop e.den [] 0 0 A).2.prod ^ e.den = A.prod ∧
      (extractLoop e.den [] 0 0 A).1.Pairwise (· ≤ ·) ∧ (∀ x ∈ (extractLoop e.den [] 0 0 A).1, x ∈ A) ∧
      (∀ x ∈ (extractLoop e.den [] 0 0 A).2, x ∈ A) ∧ ∀ z, (extractLoop e.den [] 0 0 A).1.count z = A.count z % e.den := by
    intro A pA sA
    obtain ⟨a1, a2, a3⟩ := extractLoop_ok e.den e.den_pos A [] 0 0 ⟨[], by simp⟩ (Or.inl e.den_pos)
    have b := extractLoop_count e.den hd A [] 0 0 (by simp) (by simp) (by simp) sA (by intro z; simp only [List.count_nil]; omega) (by omega)
    simp only [List.replicate_zero, List.nil_append] at b
    have m1 : ∀ x ∈ (extractLoop e.den [] 0 0 A).1, x ∈ A := fun x hx => by simpa using a2 x hx
    rw [List.prod_nil, one_mul] at a1
    refine ⟨a1, b.1, m1, a3, fun z => ?_⟩
    have p1 : ∀ x ∈ (extractLoop e.den [] 0 0 A).1, x.Prime := fun x hx => pA x (m1 x hx)
    have p2 : ∀ x ∈ (extractLoop e.den [] 0 0 A).2, x.Prime := fun x hx => pA x (a3 x hx)
    have n1 : (extractLoop e.den [] 0 0 A).1.prod ≠ 0 := (prod_pos fun x hx => (p1 x hx).pos).ne'
    have n2 : (extractLoop e.den [] 0 0 A).2.prod ^ e.den ≠ 0 := pow_ne_zero _ (prod_pos fun x hx => (p2 x hx).pos).ne'
    have hf : A.prod.factorization z = (extractLoop e.den [] 0 0 A).1.prod.factorization z + e.den * (extractLoop e.den [] 0 0 A).2.prod.factorization z := by
      rw [← a1, Nat.factorization_mul n1 n2, Finsupp.add_apply, Nat.factorization_pow, Finsupp.smul_apply, smul_eq_mul]
    rw [← count_fact pA rfl, ← count_fact p1 rfl] at hf
    rw [hf, Nat.add_mul_mod_self_left, Nat.mod_eq_of_lt (b.2 z)]
  obtain ⟨a1, a2, a3, a4, a5⟩ := step hP.pn hP.sn
  obtain ⟨c1, c2, c3, c4, c5⟩ := step hP.pd hP.sd
  set A := extractLoop e.den [] 0 0 P.num with hA
  set B := extractLoop e.den [] 0 0 P.den with hB
  have hC : (⟨A.2, B.2⟩ : PrimeFac).Pos := ⟨fun x hx => hP.pos.1 x (a4 x hx), fun x hx => hP.pos.2 x (c4 x hx)⟩
  have hnn : e.num = (e.num.natAbs : ℤ) := (Int.natAbs_of_nonneg hnum.le).symm
  have ht : ∃ X, toThe ⟨A.2, B.2⟩ e.num = .ok X := by
    unfold toThe duplicate
    have q1 : ¬ e.num = 0 := by omega
    have q2 : 0 < (e.num.natAbs : ℤ) ∧ (e.num.natAbs : ℤ) < Number.unsignedMax := ⟨by omega, by omega⟩
    have q3 : ¬ e.num < 0 := by omega
    simp only [q1, q3, if_false, q2, and_self, if_true, bind, Except.bind]
    exact ⟨_, rfl⟩
  obtain ⟨X, hX⟩ := ht
  obtain ⟨x1, x2⟩ := toThe_ok hX hC
  refine ⟨X, ⟨A.1, B.1⟩, (⟨A.2, B.2⟩ : PrimeFac).value, ?_, x1, hC.value_pos, x2, ⟨fun x hx => hP.pn x (a3 x hx), fun x hx => hP.pd x (c3 x hx), a2, c2,
    fun x hx hx' => hP.dis x (a3 x hx) (c3 x hx'), rfl⟩, ?_, a5, c5, hP.supp a4 c4⟩
  · unfold extract
    simp only [Number.denominator, Number.numerator, Int.toNat_natCast, bind, Except.bind, ← hA, ← hB, hX]
    rfl
  · rw [← hP.val]
    have e1 : (P.num.prod : ℚ) = A.1.prod * A.2.prod ^ e.den := by exact_mod_cast a1.symm
    have e2 : (P.den.prod : ℚ) = B.1.prod * B.2.prod ^ e.den := by exact_mod_cast c1.symm
    simp only [value, e1, e2, div_pow]
    rw [div_mul_div_comm]

theorem extract_run {D : Type} [Flt D] [ExactLt D] {P : PrimeFac} {b e : ℚ} (hP : P.Canon b) (h0 : 0 < e) (hk : e.num < Number.unsignedMax) :
    ∃ X R : PrimeFac, ∃ s : ℚ, P.extract (.rat e : Number D) = .ok (X, R) ∧ X.Pos ∧ 0 < s ∧ X.value = s ^ e.num ∧ R.Canon R.value ∧ b = R.value * s ^ e.den ∧
      (∀ z, R.num.count z = stays e.den (P.num.count z)) ∧ (∀ z, R.den.count z = stays e.den (P.den.count z)) ∧ Supp b s := by
  unfold stays
  by_cases hd : e.den = 1
  · simp only [hd, if_true]
    have q1 : e.num ≠ 0 := (Rat.num_pos.2 h0).ne'
    have hnum := Rat.num_pos.2 h0
    have ht : ∃ X, toThe ⟨[], []⟩ e.num = .ok X := by
      unfold toThe duplicate
      have q2 : 0 < (e.num.natAbs : ℤ) ∧ (e.num.natAbs : ℤ) < Number.unsignedMax := ⟨by omega, by omega⟩
      have q3 : ¬ e.num < 0 := by omega
      simp only [q1, q3, if_false, q2, and_self, if_true, bind, Except.bind]
      exact ⟨_, rfl⟩
    obtain ⟨X, hX⟩ := ht
    have hC : (⟨[], []⟩ : PrimeFac).Pos := ⟨by simp, by simp⟩
    obtain ⟨x1, x2⟩ := toThe_ok hX hC
    have hv1 : (⟨[], []⟩ : PrimeFac).value = 1 := by simp [PrimeFac.value]
    have l1 : extractLoop 1 [] 0 0 P.num = (P.num, []) := by
      rw [extractLoop_all _ _ _ _ (.inr fun x hx => (hP.pn x hx).ne_zero)]; rfl
    have l2 : extractLoop 1 [] 0 0 P.den = (P.den, []) := by
      rw [extractLoop_all _ _ _ _ (.inr fun x hx => (hP.pd x hx).ne_zero)]; rfl
    have hPv : P.value = b := hP.val
    refine ⟨X, P, 1, ?_, x1, _root_.one_pos, by rw [x2, hv1], by rw [hPv]; exact hP, by rw [hPv]; simp, fun _ => rfl, fun _ => rfl, Supp.one b⟩
    unfold extract
    simp only [Number.denominator, Number.numerator, Int.toNat_natCast, bind, Except.bind, hd, l1, l2, hX]
    rfl
  · simp only [hd, if_false]
    exact extract_run2 hP h0 (by have := e.den_pos; omega) hk

/-- The count `c` is found in this list. -/
def Shared (l : List ℕ) (c : ℕ) : Prop := l = [] ∨ ∃ x xs, l = x :: xs ∧ l.count x = c ∧ ∀ z, c ∣ l.count z

theorem equalCountOf_shared {l : List ℕ} (hs : l.Pairwise (· ≤ ·)) (hl : l ≠ []) :
    ∃ c, equalCountOf l = .ok c ∧ ∀ c', 2 ≤ c' → (c = c' ↔ Shared l c') := by
  match l, hl with
  | x :: xs, hl =>
    have hsh : ∀ c', Shared (x :: xs) c' ↔ (x :: xs).count x = c' ∧ ∀ z, c' ∣ (x :: xs).count z := by
      intro c'
      constructor
      · rintro (h | ⟨y, ys, h, h1, h2⟩)
        · exact absurd h hl
        · have : x = y := (List.cons.inj h).1
          subst this
          exact ⟨h1, h2⟩
      · rintro ⟨h1, h2⟩
        exact .inr ⟨x, xs, rfl, h1, h2⟩
    rcases equalCountOf_eq hs with ⟨h1, h2⟩ | ⟨h1, h2, h3⟩ | ⟨h1, h2, h3⟩
    · exact ⟨1, h1, fun c' hc => by rw [hsh]; exact ⟨fun h => by omega, fun h => by omega⟩⟩
    · refine ⟨_, h1, fun c' hc => ?_⟩
      rw [hsh]
      exact ⟨fun h => ⟨h, fun z => h ▸ h3 z⟩, fun h => h.1⟩
    · refine ⟨0, h1, fun c' hc => ?_⟩
      rw [hsh]
      exact ⟨fun h => by omega, fun h => absurd (fun z => h.1 ▸ h.2 z) h3⟩

theorem equalCount_shared {R : PrimeFac} (hn : R.num.Pairwise (· ≤ ·)) (hd : R.den.Pairwise (· ≤ ·)) (hne : ¬ (R.num = [] ∧ R.den = [])) :
    ∃ c, R.equalCount = .ok c ∧ ∀ c', 2 ≤ c' → (c = c' ↔ Shared R.num c' ∧ Shared R.den c') := by
  unfold equalCount
  rw [if_neg hne]
  by_cases h1 : R.num = []
  · have h2 : R.den ≠ [] := fun h => hne ⟨h1, h⟩
    obtain ⟨c, hc, hc'⟩ := equalCountOf_shared hd h2
    refine ⟨c, by rw [if_pos h1, hc], fun c' h => ?_⟩
    rw [hc' c' h]
    exact ⟨fun x => ⟨.inl h1, x⟩, fun x => x.2⟩
  · obtain ⟨a, ha, ha'⟩ := equalCountOf_shared hn h1
    by_cases h2 : R.den = []
    · refine ⟨a, by rw [if_neg h1, if_pos h2, ha], fun c' h => ?_⟩
      rw [ha' c' h]
      exact ⟨fun x => ⟨x, .inl h2⟩, fun x => x.1⟩
    · obtain ⟨b, hb, hb'⟩ := equalCountOf_shared hd h2
      refine ⟨if a = b then a else 0, by rw [if_neg h1, if_neg h2, ha, hb]; rfl, fun c' h => ?_⟩
      rw [← ha' c' h, ← hb' c' h]
      by_cases e : a = b
      · rw [if_pos e, ← e]; simp
      · rw [if_neg e]
        constructor
        · intro h; omega
        · rintro ⟨rfl, rfl⟩; exact absurd rfl e

theorem Canon.value_ne_one {R : PrimeFac} {q : ℚ} (h : R.Canon q) (hne : ¬ (R.num = [] ∧ R.den = [])) : R.value ≠ 1 := by
  intro e
  rw [h.val] at e
  obtain ⟨h1, h2⟩ := h.nums
  rw [e] at h1 h2
  have key : ∀ {l : List ℕ}, (∀ x ∈ l, x.Prime) → l.prod = 1 → l = [] := by
    intro l hp hl
    match l with
    | [] => rfl
    | x :: xs =>
      rw [List.prod_cons] at hl
      exact absurd (Nat.eq_one_of_mul_eq_one_right hl) (hp x (by simp)).one_lt.ne'
  exact hne ⟨key h.pn (Int.natCast_inj.1 (h1.trans (by rfl))), key h.pd (h2.trans (by rfl))⟩

end PrimeFac

namespace NumPowerSimpl

open Number

variable {D : Type} [Flt D] [LawfulFlt D]

theorem adjust_run {B X Q : ℚ} (hB : 0 < B) (hQ : 0 < Q) (hX : 0 < X) (hn : X ≤ (unsignedMax : ℤ)) :
    ∃ (X' Q' : ℚ) (n : ℕ), adjustExpGreaterThanOne (⟨.rat B, .rat X, .rat Q⟩ : Payload D) = .ok ⟨.rat B, .rat X', .rat Q'⟩ ∧ 0 < Q' ∧
      (Q' : ℝ) * (B : ℝ) ^ (X' : ℝ) = Q * (B : ℝ) ^ (X : ℝ) ∧ Q' = Q * B ^ n ∧ X' = X - n ∧ (2 ≤ X.den → 0 < X' ∧ X' < 1) ∧
      (X.den = 1 → X' = 0 ∧ n ≠ 0 ∨ X' = 1 ∧ n = 0) := by
  have hB' : (0 : ℝ) < B := by exact_mod_cast hB
  have hx0 := Rat.num_pos.2 hX
  have hXr : ∀ k : ℤ, 2 ≤ X.den → X ≠ k := by
    intro k hd e
    rw [e, Rat.den_intCast] at hd
    omega
  unfold adjustExpGreaterThanOne
  have h2 : ¬ X < -1 := by linarith
  simp only [one_lt_rat, rat_lt_negone, h2, decide_false, Bool.or_false, decide_eq_true_eq]
  by_cases h1 : 1 < X
  · rw [if_pos h1]
    have hfl : X.num.tdiv X.den = ⌊X⌋ := by
      rw [Int.tdiv_eq_ediv_of_nonneg hx0.le]
      exact (Rat.floor_def X).symm
    have h3 : 0 ≤ ⌊X⌋ := Int.floor_nonneg.2 hX.le
    have hq : ((⌊X⌋).natAbs : ℤ) ≤ unsignedMax := by
      have h2 : ⌊X⌋ ≤ unsignedMax := by
        have := Int.floor_mono hn
        rwa [Int.floor_intCast] at this
      omega
    have ht := toThe_eq (D := D) hB.ne' hq
    have hfn : ((⌊X⌋.natAbs : ℕ) : ℤ) = ⌊X⌋ := Int.natAbs_of_nonneg h3
    simp only [Number.numerator, Number.denominator, Number.sub, Number.mul, hfl]
    simp only [ht, bind, Except.bind, pure, Except.pure]
    refine ⟨_, _, ⌊X⌋.natAbs, rfl, by positivity, ?_, by rw [← zpow_natCast, hfn], ?_, fun hd => ⟨?_, ?_⟩, fun hd => .inl ⟨?_, ?_⟩⟩
    · push_cast
      rw [← sub_eq_add_neg, Real.rpow_sub hB', ← Real.rpow_intCast]
      field_simp
    · rw [← sub_eq_add_neg]
      congr 1
      rw [Nat.cast_natAbs, abs_of_nonneg h3]
    · rw [← sub_eq_add_neg]
      exact sub_pos.2 (lt_of_le_of_ne (Int.floor_le X) (Ne.symm (hXr _ hd)))
    · rw [← sub_eq_add_neg]
      linarith [Int.lt_floor_add_one X]
    · have hXn : X = X.num := by
        have := Rat.mul_den_eq_num X
        rwa [hd, Nat.cast_one, mul_one] at this
      rw [← sub_eq_add_neg, hXn, Int.floor_intCast, sub_self]
    · have : 1 ≤ ⌊X⌋ := Int.le_floor.2 (by exact_mod_cast h1.le)
      omega
  · rw [if_neg h1]
    refine ⟨X, Q, 0, rfl, hQ, rfl, by simp, by simp, fun hd => ⟨hX, lt_of_le_of_ne (not_lt.1 h1) ?_⟩, fun hd => .inr ⟨?_, rfl⟩⟩
    · have := hXr 1 hd
      simpa using this
    · have hXn : X = X.num := by
        have := Rat.mul_den_eq_num X
        rwa [hd, Nat.cast_one, mul_one] at this
      have h2 : X.num ≤ 1 := by
        have h3 := not_lt.1 h1
        rw [hXn] at h3
        exact_mod_cast h3
      rw [hXn, show X.num = 1 by omega]
      rfl

theorem Stable.canon {P R : PrimeFac} {q : ℚ} (hP : P.Canon q) (hR : R.Canon q) : P = R := by
  obtain ⟨p1, p2⟩ := hP.nums
  obtain ⟨r1, r2⟩ := hR.nums
  have e1 : P.num = R.num := (List.perm_iff_count.2 fun z => by
    rw [PrimeFac.count_fact hP.pn rfl, PrimeFac.count_fact hR.pn rfl, Int.natCast_inj.1 (p1.trans r1.symm)]).eq_of_pairwise' hP.sn hR.sn
  have e2 : P.den = R.den := (List.perm_iff_count.2 fun z => by
    rw [PrimeFac.count_fact hP.pd rfl, PrimeFac.count_fact hR.pd rfl, p2.trans r2.symm]).eq_of_pairwise' hP.sd hR.sd
  cases P; cases R; simp_all

/-- The run of `cancel` without a prefactor. -/
theorem cancel_run {b e : ℚ} (hb : 0 < b) (h0 : 0 < e) (hk : e.num < unsignedMax) (hdm : (e.den : ℤ) < unsignedMax)
    (hone : e.den = 1 → ∀ p : ℕ, (b.num.natAbs.factorization p : ℤ) * e.num ≤ unsignedMax ∧ (b.den.factorization p : ℤ) * e.num ≤ unsignedMax) :
    ∃ (P R : PrimeFac) (s : ℚ) (B X Q : ℚ) (g : Bool), cancel (⟨.rat b, .rat e, .rat 1⟩ : Payload D) = .ok (⟨.rat B, .rat X, .rat Q⟩, g) ∧
      P.Canon b ∧ R.Canon R.value ∧ 0 < s ∧ b = R.value * s ^ e.den ∧ 0 < B ∧ 0 < Q ∧
      (∀ z, R.num.count z = PrimeFac.stays e.den (P.num.count z)) ∧ (∀ z, R.den.count z = PrimeFac.stays e.den (P.den.count z)) ∧
      ((Q : ℝ) * (B : ℝ) ^ (X : ℝ) = (b : ℝ) ^ (e : ℝ) ↔
        ∀ c, 2 ≤ c → ¬ (R.num = [] ∧ R.den = []) → PrimeFac.Shared R.num c → PrimeFac.Shared R.den c →
          (∀ z ∈ R.num, R.num.count z = c) ∧ ∀ z ∈ R.den, R.den.count z = c) ∧
      ((Q : ℝ) * (B : ℝ) ^ (X : ℝ) = (b : ℝ) ^ (e : ℝ) ↔ g = true) ∧
      (2 ≤ e.den → Supp b Q ∧ (X = 1 ∧ Q = 1 ∨ Supp b B ∧ ∀ max, Stable max B X)) ∧
      (e.den = 1 → X = 0 ∧ Q ≠ 1 ∨ X = 1 ∧ Q = 1) := by
  obtain ⟨P, hP, cP⟩ := PrimeFac.canon_ofNumber (D := D) hb
  obtain ⟨E, R, s, hE, pE, hs, vE, cR, hv, c1, c2, hSs⟩ := PrimeFac.extract_run (D := D) cP h0 hk
  have hmul : P.multiply PrimeFac.one = P := by unfold PrimeFac.multiply; rw [if_pos ⟨rfl, rfl⟩]
  have hEv : 0 < E.value := pE.value_pos
  have hRv : 0 < R.value := cR.pos.value_pos
  have hsr : (0 : ℝ) < s := by exact_mod_cast hs
  have hRr : (0 : ℝ) < R.value := by exact_mod_cast hRv
  have hEr : (0 : ℝ) < E.value := by exact_mod_cast hEv
  -- the exact value
  have hbe : (b : ℝ) ^ (e : ℝ) = E.value * (R.value : ℝ) ^ (e : ℝ) := by
    have e1 : (b : ℝ) = R.value * (s : ℝ) ^ e.den := by exact_mod_cast congrArg (Rat.cast (K := ℝ)) hv
    rw [e1, Real.mul_rpow hRr.le (by positivity), ← Real.rpow_natCast, ← Real.rpow_mul hsr.le, vE, mul_comm]
    congr 1
    have hdn : (e.den : ℝ) ≠ 0 := by exact_mod_cast e.den_nz
    have he' : (e : ℝ) = e.num / e.den := by
      conv_lhs => rw [← Rat.num_div_den e]
      push_cast; rfl
    have : ((e.den : ℝ) * (e : ℝ)) = ((e.num : ℤ) : ℝ) := by rw [he']; field_simp
    rw [this, Real.rpow_intCast]
    push_cast
    rfl
  have hstart : ∀ {N : PrimeFac} {x : ℚ} {p2 p3 : Payload D}, R.collectToNewExp (.rat e : Number D) = .ok (N, .rat x) →
      primesToComponents N (⟨.rat b, .rat x, .rat E.value⟩ : Payload D) = .ok p2 → adjustExpGreaterThanOne p2 = .ok p3 →
      cancel (⟨.rat b, .rat e, .rat 1⟩ : Payload D) = .ok (p3, collectExact R) := by
    intro N x p2 p3 h1 h2 h3
    unfold cancel
    simp only [hP, bind, Except.bind, defPreFac_one h0 hdm, hmul, hE, eval_eq pE, Number.mul, one_mul, h1, h2, h3]
    rfl
  have hem : e ≤ (unsignedMax : ℤ) := by
    have h1 : e ≤ e * e.den := le_mul_of_one_le_right h0.le (by exact_mod_cast e.den_pos)
    rw [Rat.mul_den_eq_num] at h1
    exact h1.trans (by exact_mod_cast hk.le)
  have hSE : Supp b E.value := by
    have hn := Rat.num_pos.2 h0
    rw [vE, show e.num = ((e.num.natAbs : ℕ) : ℤ) from (Int.natAbs_of_nonneg hn.le).symm, zpow_natCast]
    exact hSs.pow _
  have hm1 : ∀ x ∈ R.num, x ∈ P.num := fun x hx => List.count_pos_iff.1 (by
    have h1 := List.count_pos_iff.2 hx
    rw [c1] at h1
    unfold PrimeFac.stays at h1
    split_ifs at h1
    · exact h1
    · exact lt_of_lt_of_le h1 (Nat.mod_le _ _))
  have hm2 : ∀ x ∈ R.den, x ∈ P.den := fun x hx => List.count_pos_iff.1 (by
    have h1 := List.count_pos_iff.2 hx
    rw [c2] at h1
    unfold PrimeFac.stays at h1
    split_ifs at h1
    · exact h1
    · exact lt_of_lt_of_le h1 (Nat.mod_le _ _))
  have hE1 : e.den = 1 → E.value = 1 := by
    intro hd
    have e1 : R.num = P.num := (List.perm_iff_count.2 fun z => by rw [c1, PrimeFac.stays, if_pos hd]).eq_of_pairwise' cR.sn cP.sn
    have e2 : R.den = P.den := (List.perm_iff_count.2 fun z => by rw [c2, PrimeFac.stays, if_pos hd]).eq_of_pairwise' cR.sd cP.sd
    have e3 : R.value = b := by rw [← cP.val]; unfold PrimeFac.value; rw [e1, e2]
    rw [e3, hd, pow_one] at hv
    have hs1 : s = 1 := by
      have : b * s = b * 1 := by rw [mul_one]; exact hv.symm
      exact mul_left_cancel₀ hb.ne' this
    rw [vE, hs1, one_zpow]
  have hpow1 : ∀ {y : ℚ} {n : ℕ}, 0 < y → y ≠ 1 → n ≠ 0 → y ^ n ≠ 1 := fun h0 h1 hn h => h1 ((pow_eq_one_iff_of_nonneg h0.le hn).1 h)
  by_cases hnil : R.num = [] ∧ R.den = []
  · -- everything was taken out
    have hR1 : R.value = 1 := by simp [PrimeFac.value, hnil.1, hnil.2]
    have hcnt : R.equalCount = .ok 0 := by unfold PrimeFac.equalCount; rw [if_pos hnil]
    have hcoll : R.collectToNewExp (.rat e : Number D) = .ok (R, .rat 1) := by
      unfold PrimeFac.collectToNewExp
      simp only [hcnt, bind, Except.bind, show ¬ 1 < 0 by omega, if_false, hnil, and_self, if_true, Number.one_def]
      rfl
    have hprim : primesToComponents R (⟨.rat b, .rat 1, .rat E.value⟩ : Payload D) = .ok ⟨.rat E.value, .rat 1, .rat 1⟩ := by
      unfold primesToComponents
      simp only [eval_eq cR.pos, hR1, bind, Except.bind, rat_eqv_one, decide_true, if_true]
      rfl
    have hadj : adjustExpGreaterThanOne (⟨.rat E.value, .rat 1, .rat 1⟩ : Payload D) = .ok ⟨.rat E.value, .rat 1, .rat 1⟩ := by
      unfold adjustExpGreaterThanOne
      have h2 : ¬ ((1 : ℚ) < -1) := by norm_num
      simp only [one_lt_rat, rat_lt_negone, h2, lt_irrefl, decide_false, Bool.or_self, Bool.false_eq_true, if_false]
      rfl
    refine ⟨P, R, s, E.value, 1, 1, _, hstart hcoll hprim hadj, cP, cR, hs, hv, hEv, one_pos, c1, c2, ?_⟩
    have hval : ((1 : ℚ) : ℝ) * ((E.value : ℚ) : ℝ) ^ ((1 : ℚ) : ℝ) = (b : ℝ) ^ (e : ℝ) := by rw [hbe, hR1]; simp
    have hgh : collectExact R = true := by unfold collectExact; rw [hcnt]; rfl
    exact ⟨⟨fun _ c _ h => absurd hnil h, fun _ => hval⟩, ⟨fun _ => hgh, fun _ => hval⟩, fun _ => ⟨Supp.one b, .inl ⟨rfl, rfl⟩⟩, fun _ => .inr ⟨rfl, rfl⟩⟩
  · obtain ⟨c, hc, hc'⟩ := PrimeFac.equalCount_shared cR.sn cR.sd hnil
    by_cases hc2 : 1 < c
    · -- the primes are collected
      have hsh := (hc' c hc2).1 rfl
      have cU := PrimeFac.unique_canon cR
      set U : PrimeFac := ⟨PrimeFac.unique R.num, PrimeFac.unique R.den⟩ with hU
      have hUv : 0 < U.value := cU.pos.value_pos
      have hUr : (0 : ℝ) < U.value := by exact_mod_cast hUv
      have hUnil : ¬ (U.num = [] ∧ U.den = []) := by
        rintro ⟨h1, h2⟩
        refine hnil ⟨?_, ?_⟩
        · refine List.eq_nil_iff_forall_not_mem.2 fun x hx => ?_
          have := (PrimeFac.unique_self_mem _ _).2 hx
          rw [show PrimeFac.unique R.num = [] from h1] at this
          cases this
        · refine List.eq_nil_iff_forall_not_mem.2 fun x hx => ?_
          have := (PrimeFac.unique_self_mem _ _).2 hx
          rw [show PrimeFac.unique R.den = [] from h2] at this
          cases this
      have hU1 := cU.value_ne_one hUnil
      have hcoll : R.collectToNewExp (.rat e : Number D) = .ok (U, .rat (c * e)) := by
        unfold PrimeFac.collectToNewExp
        simp only [hc, bind, Except.bind, hc2, if_true, Number.mul]
        rfl
      have hprim : primesToComponents U (⟨.rat b, .rat (c * e), .rat E.value⟩ : Payload D) = .ok ⟨.rat U.value, .rat (c * e), .rat E.value⟩ := by
        unfold primesToComponents
        simp only [eval_eq cU.pos, bind, Except.bind, rat_eqv_one, hU1, decide_false, Bool.false_eq_true, if_false]
        rfl
      have hce : (0 : ℚ) < c * e := by have : (0 : ℚ) < c := by exact_mod_cast (by omega : 0 < c)
                                       positivity
      have hke : e * e.den = e.num := Rat.mul_den_eq_num e
      have hcm : (c * e : ℚ) ≤ (unsignedMax : ℤ) := by
        obtain ⟨n1, n2⟩ := cP.nums
        have n1' : P.num.prod = b.num.natAbs := by rw [← n1, Int.natAbs_natCast]
        by_cases hd1 : e.den = 1
        · have hone := hone hd1
          have e1 : e = e.num := by rw [hd1, Nat.cast_one, mul_one] at hke; exact hke
          have : (c : ℤ) * e.num ≤ unsignedMax := by
            rcases hsh.1 with h | ⟨x, xs, h, h1, h2⟩
            · rcases hsh.2 with h' | ⟨x, xs, h', h1, h2⟩
              · exact absurd ⟨h, h'⟩ hnil
              · rw [← h1, c2, PrimeFac.stays, if_pos hd1, PrimeFac.count_fact cP.pd n2]; exact (hone x).2
            · rw [← h1, c1, PrimeFac.stays, if_pos hd1, PrimeFac.count_fact cP.pn n1']; exact (hone x).1
          rw [e1]
          exact_mod_cast this
        · have hcd : c < e.den := by
            rcases hsh.1 with h | ⟨x, xs, h, h1, h2⟩
            · rcases hsh.2 with h' | ⟨x, xs, h', h1, h2⟩
              · exact absurd ⟨h, h'⟩ hnil
              · rw [← h1, c2, PrimeFac.stays, if_neg hd1]; exact Nat.mod_lt _ e.den_pos
            · rw [← h1, c1, PrimeFac.stays, if_neg hd1]; exact Nat.mod_lt _ e.den_pos
          have h1 : (c : ℚ) * e ≤ e.den * e := mul_le_mul_of_nonneg_right (by exact_mod_cast hcd.le) h0.le
          have h2 : ((e.num : ℤ) : ℚ) ≤ (unsignedMax : ℤ) := by exact_mod_cast hk.le
          rw [← hke, mul_comm] at h2
          exact h1.trans h2
      obtain ⟨X', Q', n, ha, hq, hval, hQ', hX', hlt, hint⟩ := adjust_run (D := D) hUv hEv hce hcm
      refine ⟨P, R, s, _, _, _, _, hstart hcoll hprim ha, cP, cR, hs, hv, hUv, hq, c1, c2, ?_⟩
      have hpw : (U.value : ℝ) ^ ((c * e : ℚ) : ℝ) = ((U.value : ℝ) ^ c) ^ (e : ℝ) := by
        push_cast
        rw [Real.rpow_mul hUr.le, Real.rpow_natCast]
      have he0 : (e : ℝ) ≠ 0 := by exact_mod_cast h0.ne'
      have hiff : (E.value : ℝ) * (U.value : ℝ) ^ ((c * e : ℚ) : ℝ) = (E.value : ℝ) * (R.value : ℝ) ^ (e : ℝ) ↔ U.value ^ c = R.value := by
        rw [hpw]
        constructor
        · intro h
          have h1 := mul_left_cancel₀ hEr.ne' h
          have h2 := (Real.rpow_left_inj (by positivity) hRr.le he0).1 h1
          exact_mod_cast h2
        · intro h
          rw [← h]
          push_cast
          rfl
      rw [hval, hbe, hiff, PrimeFac.unique_pow_value cR c]
      refine ⟨⟨?_, ?_⟩, ?_, fun hd => ⟨?_, .inr ⟨?_, fun max => ?_⟩⟩, fun hd => ?_⟩
      · intro h c' h2 _ s1 s2
        have := (hc' c' h2).2 ⟨s1, s2⟩
        rw [← this]
        exact h
      · intro h
        exact h c hc2 hnil hsh.1 hsh.2
      · unfold collectExact
        rw [hc]
        have hc1 : ¬ c ≤ 1 := by omega
        simp only [hc1, decide_false, Bool.false_or, Bool.and_eq_true, beq_iff_eq]
        rw [PrimeFac.dup_unique cR.pn cR.sn, PrimeFac.dup_unique cR.pd cR.sd]
      · have hSU : Supp b U.value := cP.supp (S := U) (fun x hx => hm1 x ((PrimeFac.unique_self_mem _ _).1 hx)) (fun x hx => hm2 x ((PrimeFac.unique_self_mem _ _).1 hx))
        rw [hQ']
        exact hSE.mul (hSU.pow n)
      · exact cP.supp (S := U) (fun x hx => hm1 x ((PrimeFac.unique_self_mem _ _).1 hx)) (fun x hx => hm2 x ((PrimeFac.unique_self_mem _ _).1 hx))
      · -- the different primes below the root
        have hd1 : ¬ e.den = 1 := by omega
        have hcd : c < e.den := by
          rcases hsh.1 with h | ⟨x, xs, h, h1, h2⟩
          · rcases hsh.2 with h' | ⟨x, xs, h', h1, h2⟩
            · exact absurd ⟨h, h'⟩ hnil
            · rw [← h1, c2, PrimeFac.stays, if_neg hd1]; exact Nat.mod_lt _ e.den_pos
          · rw [← h1, c1, PrimeFac.stays, if_neg hd1]; exact Nat.mod_lt _ e.den_pos
        have hden : 2 ≤ ((c : ℚ) * e).den := by
          by_contra hlt2
          have h1 : ((c : ℚ) * e).den = 1 := by have := ((c : ℚ) * e).den_pos; omega
          have h2 : (c : ℚ) * e = ((c : ℚ) * e).num := by
            have := Rat.mul_den_eq_num ((c : ℚ) * e)
            rw [h1, Nat.cast_one, mul_one] at this
            exact this
          have h3 : (c : ℤ) * e.num = ((c : ℚ) * e).num * e.den := by
            have : (c : ℚ) * e.num = ((c : ℚ) * e).num * e.den := by rw [← h2, mul_assoc, Rat.mul_den_eq_num]
            exact_mod_cast this
          have h4 : e.den ∣ c * e.num.natAbs := by
            have : (e.den : ℤ) ∣ (c : ℤ) * e.num := ⟨_, by rw [h3, mul_comm]⟩
            have := Int.natAbs_dvd_natAbs.2 this
            rwa [Int.natAbs_natCast, Int.natAbs_mul, Int.natAbs_natCast] at this
          have h5 := (Nat.Coprime.symm e.reduced).dvd_of_dvd_mul_right h4
          exact absurd (Nat.le_of_dvd (by omega) h5) (by omega)
        obtain ⟨l1, l2⟩ := hlt hden
        have hdX : X'.den ∣ e.den := by
          rw [hX', Rat.sub_natCast_den]
          have e1 : (c : ℚ) * e = Rat.divInt ((c : ℤ) * e.num) (e.den : ℤ) := by
            rw [Rat.divInt_eq_div]
            push_cast
            rw [mul_div_assoc, Rat.num_div_den]
          have : ((((c : ℚ) * e).den : ℕ) : ℤ) ∣ (e.den : ℤ) := by rw [e1]; exact Rat.den_dvd _ _
          exact_mod_cast this
        have hXd : X'.den ≤ e.den := Nat.le_of_dvd e.den_pos hdX
        have hXd2 : 2 ≤ X'.den := by rw [hX', Rat.sub_natCast_den]; exact hden
        obtain ⟨y0, y1, y2⟩ := exp_parts l1 l2
        refine ⟨hUv, hU1, l1, l2, ⟨by omega, by omega⟩, fun _ P' hP' => ?_⟩
        have hPU := Stable.canon hP' cU
        rw [hPU]
        have u1 : ∀ z, U.num.count z ≤ 1 := fun z => by rw [hU]; simp only; rw [PrimeFac.unique_count cR.sn]; split_ifs <;> omega
        have u2 : ∀ z, U.den.count z ≤ 1 := fun z => by rw [hU]; simp only; rw [PrimeFac.unique_count cR.sd]; split_ifs <;> omega
        refine ⟨fun z => by have := u1 z; omega, fun z => by have := u2 z; omega, ?_⟩
        obtain ⟨k, hk, hk'⟩ := PrimeFac.equalCount_shared cU.sn cU.sd hUnil
        refine ⟨k, hk, ?_⟩
        by_contra hk1
        obtain ⟨s1, s2⟩ := (hk' k (by omega)).1 rfl
        rcases s1 with h | ⟨x, xs, h, h1, h2⟩
        · rcases s2 with h' | ⟨x, xs, h', h1, h2⟩
          · exact hUnil ⟨h, h'⟩
          · have := u2 x; omega
        · have := u1 x; omega
      · have hcd : ((c : ℚ) * e).den = 1 := by
          rw [hd, Nat.cast_one, mul_one] at hke
          rw [hke]
          have : (c : ℚ) * (e.num : ℤ) = (((c : ℤ) * e.num : ℤ) : ℚ) := by push_cast; rfl
          rw [this, Rat.den_intCast]
        rw [hE1 hd, one_mul] at hQ'
        rcases hint hcd with ⟨i1, i2⟩ | ⟨i1, i2⟩
        · exact .inl ⟨i1, by rw [hQ']; exact hpow1 hUv hU1 i2⟩
        · exact .inr ⟨i1, by rw [hQ', i2, pow_zero]⟩
    · have hcoll : R.collectToNewExp (.rat e : Number D) = .ok (R, .rat e) := by
        unfold PrimeFac.collectToNewExp
        simp only [hc, bind, Except.bind, hc2, if_false, hnil]
        rfl
      have hprim : primesToComponents R (⟨.rat b, .rat e, .rat E.value⟩ : Payload D) = .ok ⟨.rat R.value, .rat e, .rat E.value⟩ := by
        unfold primesToComponents
        simp only [eval_eq cR.pos, bind, Except.bind, rat_eqv_one, cR.value_ne_one hnil, decide_false, Bool.false_eq_true, if_false]
        rfl
      obtain ⟨X', Q', n, ha, hq, hval, hQ', hX', hlt, hint⟩ := adjust_run (D := D) hRv hEv h0 hem
      refine ⟨P, R, s, _, _, _, _, hstart hcoll hprim ha, cP, cR, hs, hv, hRv, hq, c1, c2, ?_⟩
      rw [hval, hbe]
      have hgh : collectExact R = true := by unfold collectExact; rw [hc]; simp; omega
      have hSR : Supp b R.value := cP.supp hm1 hm2
      refine ⟨⟨fun _ c' h2 _ s1 s2 => ?_, fun _ => rfl⟩, ⟨fun _ => hgh, fun _ => rfl⟩, fun hd => ⟨?_, .inr ⟨hSR, fun max => ?_⟩⟩, fun hd => ?_⟩
      · have := (hc' c' h2).2 ⟨s1, s2⟩
        omega
      · rw [hQ']
        exact hSE.mul (hSR.pow n)
      · obtain ⟨l1, l2⟩ := hlt hd
        have hXd : X'.den = e.den := by rw [hX', Rat.sub_natCast_den]
        obtain ⟨y0, y1, y2⟩ := exp_parts l1 l2
        have hd1 : ¬ e.den = 1 := by omega
        refine ⟨hRv, cR.value_ne_one hnil, l1, l2, ⟨by omega, by omega⟩, fun _ P' hP' => ?_⟩
        rw [Stable.canon hP' cR, hXd]
        refine ⟨fun z => ?_, fun z => ?_, c, hc, by omega⟩
        · rw [c1, PrimeFac.stays, if_neg hd1]; exact Nat.mod_lt _ e.den_pos
        · rw [c2, PrimeFac.stays, if_neg hd1]; exact Nat.mod_lt _ e.den_pos
      · rw [hE1 hd, one_mul] at hQ'
        rcases hint hd with ⟨i1, i2⟩ | ⟨i1, i2⟩
        · exact .inl ⟨i1, by rw [hQ']; exact hpow1 hRv (cR.value_ne_one hnil) i2⟩
        · exact .inr ⟨i1, by rw [hQ', i2, pow_zero]⟩

end NumPowerSimpl

end Tsym
