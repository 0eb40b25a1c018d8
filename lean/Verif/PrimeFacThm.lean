import Mathlib.Data.Nat.Prime.Basic
import Mathlib.Algebra.Order.Field.Rat
import Mathlib.Tactic.FieldSimp
import Mathlib.Tactic.Positivity
import Mathlib.Tactic.Linarith
import Mathlib.Tactic.Ring
import Mathlib.Algebra.BigOperators.Group.List.Basic
import Verif.PrimeFac
import Verif.NumberThm

/-!
# Helper lemmas about the prime factorisation
-/

namespace Tsym

theorem strip_spec (p : ℕ) (hp : 2 ≤ p) : ∀ k n, 0 < n → n ≤ k →
    ∃ m, (strip p k n).1 = List.replicate m p ∧ n = p ^ m * (strip p k n).2 ∧
      ¬ p ∣ (strip p k n).2 ∧ 0 < (strip p k n).2 := by
  intro k
  induction k with
  | zero => intro n h1 h2; omega
  | succ k ih =>
    intro n h1 h2
    unfold strip
    split
    · rename_i hd
      have hdvd : p ∣ n := Nat.dvd_of_mod_eq_zero hd
      have hpos : 0 < n / p := Nat.div_pos (Nat.le_of_dvd h1 hdvd) (by omega)
      have hlt : n / p < n := Nat.div_lt_self h1 (by omega)
      obtain ⟨m, e1, e2, e3, e4⟩ := ih (n / p) hpos (by omega)
      refine ⟨m + 1, ?_, ?_, e3, e4⟩
      · simp [e1, List.replicate_succ]
      · have : n = p * (n / p) := (Nat.mul_div_cancel' hdvd).symm
        rw [this]
        conv_lhs => rw [e2]
        simp only
        rw [← this]
        ring
    · rename_i hd
      exact ⟨0, by simp, by simp, fun h => hd (Nat.mod_eq_zero_of_dvd h), h1⟩

theorem trial_spec (n0 : ℕ) : ∀ k i n, 0 < n → n ≤ n0 → 3 ≤ i → i % 2 = 1 →
    n0 < i + 2 * k → (∀ q : ℕ, q.Prime → q ∣ n → i ≤ q) →
    n = (trial n0 k i n).1.prod * (trial n0 k i n).2 ∧
    (∀ p ∈ (trial n0 k i n).1, p.Prime ∧ i ≤ p) ∧
    (trial n0 k i n).1.Pairwise (· ≤ ·) ∧
    ((trial n0 k i n).2 = 1 ∨ ((trial n0 k i n).2.Prime ∧ i ≤ (trial n0 k i n).2 ∧
      ∀ p ∈ (trial n0 k i n).1, p ≤ (trial n0 k i n).2)) := by
  intro k
  induction k with
  | zero =>
    intro i n h1 h2 h3 h4 h5 h6
    simp only [trial, List.prod_nil, one_mul, true_and]
    refine ⟨by simp, by simp, ?_⟩
    left
    by_contra hne
    have := h6 _ (Nat.minFac_prime hne) (Nat.minFac_dvd n)
    have := Nat.minFac_le h1
    omega
  | succ k ih =>
    intro i n h1 h2 h3 h4 h5 h6
    unfold trial
    split
    · obtain ⟨m, e1, e2, e3, e4⟩ := strip_spec i (by omega) n n h1 le_rfl
      set s := strip i n n with hs
      have hsn : s.2 ≤ n := by
        conv_rhs => rw [e2]
        exact Nat.le_mul_of_pos_left _ (Nat.pow_pos (by omega))
      have hdiv : s.2 ∣ n := ⟨i ^ m, by rw [mul_comm]; exact e2⟩
      obtain ⟨a1, a2, a3, a4⟩ := ih (i + 2) s.2 e4 (by omega) (by omega) (by omega) (by omega) (by
        intro q hq hqd
        have hiq := h6 q hq (dvd_trans hqd hdiv)
        have hne : q ≠ i := by rintro rfl; exact e3 hqd
        have hne2 : q ≠ i + 1 := by
          rintro rfl
          have : 2 ∣ i + 1 := by omega
          have := (Nat.prime_dvd_prime_iff_eq Nat.prime_two hq).1 this
          omega
        omega)
      have hip : m ≠ 0 → i.Prime := by
        intro hm
        have hid : i ∣ n := by rw [e2]; exact Dvd.dvd.mul_right (dvd_pow_self i hm) _
        have h7 := h6 _ (Nat.minFac_prime (by omega : i ≠ 1)) (dvd_trans (Nat.minFac_dvd i) hid)
        have h8 := Nat.minFac_le (by omega : 0 < i)
        have : i.minFac = i := by omega
        exact this ▸ Nat.minFac_prime (by omega : i ≠ 1)
      have hmem : ∀ p ∈ s.1, p = i ∧ i.Prime := by
        intro p hp
        rw [e1] at hp
        have := List.mem_replicate.1 hp
        exact ⟨this.2, hip this.1⟩
      refine ⟨?_, ?_, ?_, ?_⟩
      · simp only [List.prod_append, e1, List.prod_replicate]
        rw [mul_assoc, ← a1]; exact e2
      · intro p hp
        rcases List.mem_append.1 hp with hp | hp
        · obtain ⟨rfl, h⟩ := hmem p hp; exact ⟨h, le_rfl⟩
        · obtain ⟨h, h'⟩ := a2 p hp; exact ⟨h, by omega⟩
      · simp only
        rw [List.pairwise_append]
        refine ⟨?_, a3, ?_⟩
        · rw [e1]; exact List.pairwise_replicate.2 (Or.inr le_rfl)
        · intro a ha b hb
          rw [(hmem a ha).1]; have := (a2 b hb).2; omega
      · rcases a4 with h | ⟨h, h', h''⟩
        · left; exact h
        · right
          refine ⟨h, by simp only; omega, ?_⟩
          intro p hp
          rcases List.mem_append.1 hp with hp | hp
          · rw [(hmem p hp).1]; simp only; omega
          · exact h'' p hp
    · rename_i hlim
      simp only [List.prod_nil, one_mul, true_and]
      refine ⟨by simp, by simp, ?_⟩
      by_cases hn1 : n = 1
      · left; exact hn1
      · right
        have hsq : n < i * i := by
          have : 4 * n0 ≤ (2 * i - 1) ^ 2 := by omega
          have h9 : (2 * i - 1) ^ 2 < (2 * i) ^ 2 := Nat.pow_lt_pow_left (by omega) (by norm_num)
          nlinarith
        have hpr : n.Prime := by
          by_contra hnp
          have hmf := Nat.minFac_sq_le_self h1 hnp
          have := h6 _ (Nat.minFac_prime hn1) (Nat.minFac_dvd n)
          nlinarith
        exact ⟨hpr, h6 n hpr dvd_rfl, by simp⟩

/-- Trial division finds the sorted list of prime factors of each positive integer. -/
theorem computeAndStore_spec (n : ℕ) (hn : 0 < n) :
    ∃ l, computeAndStore n = .ok l ∧ (∀ p ∈ l, p.Prime) ∧ l.Pairwise (· ≤ ·) ∧ l.prod = n := by
  unfold computeAndStore
  rw [if_neg (by omega)]
  obtain ⟨m, e1, e2, e3, e4⟩ := strip_spec 2 le_rfl n n hn le_rfl
  set t := strip 2 n n with ht
  obtain ⟨a1, a2, a3, a4⟩ := trial_spec t.2 t.2 3 t.2 e4 le_rfl le_rfl rfl (by omega) (by
    intro q hq hqd
    have := hq.two_le
    have hne : q ≠ 2 := by rintro rfl; exact e3 hqd
    omega)
  set r := trial t.2 t.2 3 t.2 with hr
  have hmem : ∀ p ∈ t.1, p = 2 := by
    intro p hp; rw [e1] at hp; exact (List.mem_replicate.1 hp).2
  refine ⟨_, rfl, ?_, ?_, ?_⟩
  · intro p hp
    simp only [List.mem_append] at hp
    rcases hp with (hp | hp) | hp
    · rw [hmem p hp]; exact Nat.prime_two
    · exact (a2 p hp).1
    · split at hp
      · rename_i h2r
        rw [List.mem_singleton.1 hp]
        rcases a4 with h | h
        · rw [← hr, h] at h2r; omega
        · exact h.1
      · simp at hp
  · rw [List.pairwise_append, List.pairwise_append]
    refine ⟨⟨?_, a3, ?_⟩, ?_, ?_⟩
    · rw [e1]; exact List.pairwise_replicate.2 (Or.inr le_rfl)
    · intro a ha b hb; rw [hmem a ha]; have := (a2 b hb).2; omega
    · split <;> simp
    · intro a ha b hb
      split at hb
      · rename_i h2r
        rw [List.mem_singleton.1 hb]
        rcases a4 with h | h
        · rw [← hr, h] at h2r; omega
        · rcases List.mem_append.1 ha with ha | ha
          · rw [hmem a ha]; omega
          · exact h.2.2 a ha
      · simp at hb
  · have hlast : (if 2 < r.2 then [r.2] else []).prod = r.2 := by
      split
      · simp
      · rcases a4 with h | h
        · simp [h]
        · omega
    rw [List.prod_append, List.prod_append, hlast, e1, List.prod_replicate, mul_assoc, ← a1]
    exact e2.symm


namespace PrimeFac

/-- No entry is zero. -/
def Pos (p : PrimeFac) : Prop := (∀ x ∈ p.num, 0 < x) ∧ (∀ x ∈ p.den, 0 < x)

/-- The rational number a factorisation stands for. -/
def value (p : PrimeFac) : ℚ := (p.num.prod : ℚ) / (p.den.prod : ℚ)

theorem prod_pos {l : List ℕ} (h : ∀ x ∈ l, 0 < x) : 0 < l.prod :=
  List.prod_pos (fun a ha => h a ha)

theorem Pos.num_pos {p : PrimeFac} (h : p.Pos) : (0 : ℚ) < p.num.prod := by
  exact_mod_cast prod_pos h.1
theorem Pos.den_pos {p : PrimeFac} (h : p.Pos) : (0 : ℚ) < p.den.prod := by
  exact_mod_cast prod_pos h.2
theorem Pos.value_pos {p : PrimeFac} (h : p.Pos) : 0 < p.value := div_pos h.num_pos h.den_pos

theorem one_pos : one.Pos := by simp [one, Pos]
theorem one_value : one.value = 1 := by simp [one, value]

theorem dup_prod_aux (n : ℕ) : ∀ ins x xs, (∀ z ∈ x :: xs, 0 < z) →
    (dup n ins (x :: xs)).prod * x ^ n = x ^ ins * (x :: xs).prod ^ n := by
  intro ins x xs
  induction xs generalizing ins x with
  | nil => intro _; simp [dup]
  | cons y ys ih =>
    intro hpos
    have hy : ∀ z ∈ y :: ys, 0 < z := fun z hz => hpos z (List.mem_cons_of_mem _ hz)
    unfold dup
    split
    · rename_i h
      subst h
      rw [ih _ _ hy]
      simp only [List.prod_cons, mul_pow]
      ring
    · have := ih n y hy
      have h2 : (dup n n (y :: ys)).prod * y ^ n = (y :: ys).prod ^ n * y ^ n := by
        rw [this]; ring
      have h0 : 0 < y ^ n := Nat.pow_pos (hy y List.mem_cons_self)
      simp only [List.prod_append, List.prod_replicate]
      rw [Nat.eq_of_mul_eq_mul_right h0 h2]
      simp only [List.prod_cons, mul_pow]; ring

theorem dup_prod (n : ℕ) (l : List ℕ) (h : ∀ z ∈ l, 0 < z) : (dup n n l).prod = l.prod ^ n := by
  cases l with
  | nil => simp [dup]
  | cons x xs =>
    have h1 := dup_prod_aux n n x xs h
    have h0 : 0 < x ^ n := Nat.pow_pos (h x List.mem_cons_self)
    apply Nat.eq_of_mul_eq_mul_right h0
    rw [h1]; ring

theorem dup_mem (n : ℕ) : ∀ l ins z, z ∈ dup n ins l → z ∈ l := by
  intro l
  induction l with
  | nil => intro ins z h; simp [dup] at h
  | cons x xs ih =>
    intro ins z h
    cases xs with
    | nil => simp [dup, List.mem_replicate] at h; simp [h]
    | cons y ys =>
      unfold dup at h
      split at h
      · exact List.mem_cons_of_mem _ (ih _ _ h)
      · rcases List.mem_append.1 h with h | h
        · rw [(List.mem_replicate.1 h).2]; exact List.mem_cons_self
        · exact List.mem_cons_of_mem _ (ih _ _ h)


theorem duplicate_ok {l r : List ℕ} {n : ℤ} (h : duplicate l n = .ok r) :
    0 < n ∧ r = dup n.toNat n.toNat l := by
  unfold duplicate at h
  split at h
  · rename_i hn; simp at h; exact ⟨hn.1, h.symm⟩
  · cases h

theorem toThe_ok {p r : PrimeFac} {ex : ℤ} (h : p.toThe ex = .ok r) (hp : p.Pos) :
    r.Pos ∧ r.value = p.value ^ ex := by
  unfold toThe at h
  simp only [bind, Except.bind] at h
  by_cases h0 : ex = 0
  · subst h0
    simp [pure, Except.pure] at h
    subst h
    exact ⟨one_pos, by simp [one_value]⟩
  · simp only [h0, if_false] at h
    cases ha : duplicate p.num (ex.natAbs : ℤ) with
    | error e => simp only [ha] at h; cases h
    | ok a =>
      cases hb : duplicate p.den (ex.natAbs : ℤ) with
      | error e => simp only [ha, hb] at h; cases h
      | ok b =>
        simp only [ha, hb, pure, Except.pure] at h
        obtain ⟨_, rfl⟩ := duplicate_ok ha
        obtain ⟨_, rfl⟩ := duplicate_ok hb
        simp only [Int.toNat_natCast] at h
        have pa : ∀ x ∈ dup ex.natAbs ex.natAbs p.num, 0 < x := fun x hx => hp.1 x (dup_mem _ _ _ _ hx)
        have pb : ∀ x ∈ dup ex.natAbs ex.natAbs p.den, 0 < x := fun x hx => hp.2 x (dup_mem _ _ _ _ hx)
        have e1 := dup_prod ex.natAbs p.num hp.1
        have e2 := dup_prod ex.natAbs p.den hp.2
        split at h
        · rename_i hn
          simp at h
          subst h
          refine ⟨⟨pb, pa⟩, ?_⟩
          have : ex = -(ex.natAbs : ℤ) := by omega
          conv_rhs => rw [this]
          simp only [value, e1, e2, zpow_neg, zpow_natCast, div_pow, Nat.cast_pow, inv_div]
        · rename_i hn
          simp at h
          subst h
          refine ⟨⟨pa, pb⟩, ?_⟩
          have : ex = (ex.natAbs : ℤ) := by omega
          conv_rhs => rw [this]
          simp only [value, e1, e2, zpow_natCast, div_pow, Nat.cast_pow]

theorem cancel_mem (p q : List ℕ) : (∀ x ∈ (cancel p q).1, x ∈ p) ∧ (∀ x ∈ (cancel p q).2, x ∈ q) := by
  fun_induction cancel p q with
  | case1 q => simp
  | case2 p h => simp
  | case3 x xs y ys h r ih =>
    refine ⟨?_, ih.2⟩
    intro z hz
    simp only [List.mem_cons] at hz ⊢
    rcases hz with hz | hz
    · exact Or.inl hz
    · exact Or.inr (ih.1 z hz)
  | case4 x xs y ys h h' r ih =>
    refine ⟨ih.1, ?_⟩
    intro z hz
    simp only [List.mem_cons] at hz ⊢
    rcases hz with hz | hz
    · exact Or.inl hz
    · exact Or.inr (ih.2 z hz)
  | case5 x xs y ys h h' ih =>
    exact ⟨fun z hz => List.mem_cons_of_mem _ (ih.1 z hz), fun z hz => List.mem_cons_of_mem _ (ih.2 z hz)⟩

theorem cancel_prod (p q : List ℕ) : (cancel p q).1.prod * q.prod = p.prod * (cancel p q).2.prod := by
  fun_induction cancel p q with
  | case1 q => simp
  | case2 p h => simp
  | case3 x xs y ys h r ih =>
    simp only [List.prod_cons] at ih ⊢
    rw [mul_assoc, mul_assoc, ← ih]
  | case4 x xs y ys h h' r ih =>
    simp only [List.prod_cons] at ih ⊢
    calc r.1.prod * (y * ys.prod) = y * (r.1.prod * ys.prod) := by ring
      _ = y * (x * xs.prod * r.2.prod) := by rw [ih]
      _ = _ := by ring
  | case5 x xs y ys h h' ih =>
    have : x = y := by omega
    subst this
    simp only [List.prod_cons]
    calc (cancel xs ys).1.prod * (x * ys.prod) = x * ((cancel xs ys).1.prod * ys.prod) := by ring
      _ = _ := by rw [ih]; ring

theorem merge_perm (a b : List ℕ) : (merge a b).Perm (a ++ b) := List.perm_insertionSort _ _

theorem multiply_ok {p o : PrimeFac} (hp : p.Pos) (ho : o.Pos) :
    (p.multiply o).Pos ∧ (p.multiply o).value = p.value * o.value := by
  unfold multiply
  split
  · rename_i h
    refine ⟨hp, ?_⟩
    simp [value, h.1, h.2]
  · obtain ⟨m1, m2⟩ := cancel_mem p.num o.den
    obtain ⟨m3, m4⟩ := cancel_mem p.den o.num
    have q1 : ∀ x ∈ (cancel p.num o.den).1, 0 < x := fun x hx => hp.1 x (m1 x hx)
    have q2 : ∀ x ∈ (cancel p.num o.den).2, 0 < x := fun x hx => ho.2 x (m2 x hx)
    have q3 : ∀ x ∈ (cancel p.den o.num).1, 0 < x := fun x hx => hp.2 x (m3 x hx)
    have q4 : ∀ x ∈ (cancel p.den o.num).2, 0 < x := fun x hx => ho.1 x (m4 x hx)
    refine ⟨⟨?_, ?_⟩, ?_⟩
    · intro x hx
      have := (merge_perm _ _).mem_iff.1 hx
      rcases List.mem_append.1 this with h | h
      · exact q1 x h
      · exact q4 x h
    · intro x hx
      have := (merge_perm _ _).mem_iff.1 hx
      rcases List.mem_append.1 this with h | h
      · exact q3 x h
      · exact q2 x h
    · simp only [value, (merge_perm _ _).prod_eq, List.prod_append, Nat.cast_mul]
      have e1 : (((cancel p.num o.den).1.prod : ℕ) : ℚ) * o.den.prod =
          p.num.prod * (cancel p.num o.den).2.prod := by exact_mod_cast cancel_prod p.num o.den
      have e2 : (((cancel p.den o.num).1.prod : ℕ) : ℚ) * o.num.prod =
          p.den.prod * (cancel p.den o.num).2.prod := by exact_mod_cast cancel_prod p.den o.num
      have p2 : (0 : ℚ) < (cancel p.num o.den).2.prod := by exact_mod_cast prod_pos q2
      have p3 : (0 : ℚ) < (cancel p.den o.num).1.prod := by exact_mod_cast prod_pos q3
      have hpd := hp.den_pos
      have hod := ho.den_pos
      rw [div_mul_div_comm, div_eq_div_iff (by positivity) (by positivity)]
      calc (((cancel p.num o.den).1.prod : ℕ) : ℚ) * ((cancel p.den o.num).2.prod : ℕ) * (p.den.prod * o.den.prod)
          = (((cancel p.num o.den).1.prod : ℕ) * (o.den.prod : ℚ)) * (p.den.prod * (cancel p.den o.num).2.prod) := by ring
        _ = _ := by rw [e1, ← e2]; ring

/-- Value kept by the extraction loop: what remains times the `d`-th power of what is extracted. -/
theorem extractLoop_ok (d : ℕ) (hd : 0 < d) : ∀ xs pre prime n,
    (∃ rest, pre = List.replicate n prime ++ rest) → n < d ∨ d = 1 →
    (extractLoop d pre prime n xs).1.prod * (extractLoop d pre prime n xs).2.prod ^ d =
      pre.prod * xs.prod ∧
    (∀ z ∈ (extractLoop d pre prime n xs).1, z ∈ pre ∨ z ∈ xs) ∧
    (∀ z ∈ (extractLoop d pre prime n xs).2, z ∈ xs) := by
  intro xs
  induction xs with
  | nil =>
    intro pre prime n _ _
    simp only [extractLoop, List.prod_nil, one_pow, mul_one]
    refine ⟨?_, ?_, by simp⟩
    · exact (List.reverse_perm pre).prod_eq
    · intro z hz; left; exact List.mem_reverse.1 hz
  | cons x xs ih =>
    intro pre prime n hpre hn
    unfold extractLoop
    by_cases h1 : prime ≠ x
    · simp only [h1, if_true, ne_eq, not_false_eq_true]
      obtain ⟨a, b, c⟩ := ih (x :: pre) x 1 ⟨pre, by simp⟩ (by omega)
      refine ⟨?_, ?_, fun z hz => List.mem_cons_of_mem _ (c z hz)⟩
      · rw [a]; simp only [List.prod_cons]; ring
      · intro z hz
        rcases b z hz with h | h
        · rcases List.mem_cons.1 h with h | h
          · right; rw [h]; exact List.mem_cons_self
          · left; exact h
        · right; exact List.mem_cons_of_mem _ h
    · rw [if_neg h1]
      have hx : prime = x := not_not.1 h1
      subst hx
      obtain ⟨rest, rfl⟩ := hpre
      by_cases h2 : n + 1 = d
      · rw [if_pos h2]
        have hdrop : (List.replicate n prime ++ rest).drop (d - 1) = rest := by
          have : d - 1 = (List.replicate n prime).length := by simp; omega
          rw [this, List.drop_left]
        rw [hdrop]
        obtain ⟨a, b, c⟩ := ih rest prime 0 ⟨rest, by simp⟩ (by omega)
        refine ⟨?_, ?_, ?_⟩
        · simp only [List.prod_cons, List.prod_append, List.prod_replicate, mul_pow]
          calc (extractLoop d rest prime 0 xs).1.prod * (prime ^ d * (extractLoop d rest prime 0 xs).2.prod ^ d)
              = prime ^ d * ((extractLoop d rest prime 0 xs).1.prod * (extractLoop d rest prime 0 xs).2.prod ^ d) := by ring
            _ = _ := by rw [a, ← h2]; ring
        · intro z hz
          rcases b z hz with h | h
          · left; exact List.mem_append_right _ h
          · right; exact List.mem_cons_of_mem _ h
        · intro z hz
          simp only [List.mem_cons] at hz ⊢
          rcases hz with h | h
          · exact Or.inl h
          · exact Or.inr (c z h)
      · rw [if_neg h2]
        obtain ⟨a, b, c⟩ := ih (prime :: (List.replicate n prime ++ rest)) prime (n + 1)
          ⟨rest, by simp [List.replicate_succ]⟩ (by omega)
        refine ⟨?_, ?_, fun z hz => List.mem_cons_of_mem _ (c z hz)⟩
        · rw [a]; simp only [List.prod_cons]; ring
        · intro z hz
          rcases b z hz with h | h
          · rcases List.mem_cons.1 h with h | h
            · right; rw [h]; exact List.mem_cons_self
            · left; exact h
          · right; exact List.mem_cons_of_mem _ h

theorem extract_ok {D : Type} [Flt D] {p e r : PrimeFac} {q : ℚ}
    (h : p.extract (.rat q : Number D) = .ok (e, r)) (hp : p.Pos) :
    e.Pos ∧ r.Pos ∧ ∃ c : PrimeFac, c.Pos ∧ e.value = c.value ^ q.num ∧
      p.value = r.value * c.value ^ q.den := by
  unfold extract at h
  simp only [Number.denominator, Number.numerator, Int.toNat_natCast, bind, Except.bind] at h
  obtain ⟨a1, a2, a3⟩ := extractLoop_ok q.den q.den_pos p.num [] 0 0 ⟨[], by simp⟩ (Or.inl q.den_pos)
  obtain ⟨b1, b2, b3⟩ := extractLoop_ok q.den q.den_pos p.den [] 0 0 ⟨[], by simp⟩ (Or.inl q.den_pos)
  set A := extractLoop q.den [] 0 0 p.num
  set B := extractLoop q.den [] 0 0 p.den
  have hc : (⟨A.2, B.2⟩ : PrimeFac).Pos :=
    ⟨fun x hx => hp.1 x (a3 x hx), fun x hx => hp.2 x (b3 x hx)⟩
  have hr : (⟨A.1, B.1⟩ : PrimeFac).Pos := by
    refine ⟨fun x hx => ?_, fun x hx => ?_⟩
    · rcases a2 x hx with h | h
      · simp at h
      · exact hp.1 x h
    · rcases b2 x hx with h | h
      · simp at h
      · exact hp.2 x h
  cases ht : toThe ⟨A.2, B.2⟩ q.num with
  | error e => simp [ht] at h
  | ok e' =>
    simp only [ht, pure, Except.pure, Except.ok.injEq, Prod.mk.injEq] at h
    obtain ⟨rfl, rfl⟩ := h
    obtain ⟨c1, c2⟩ := toThe_ok ht hc
    refine ⟨c1, hr, ⟨A.2, B.2⟩, hc, c2, ?_⟩
    simp only [List.prod_nil, one_mul] at a1 b1
    have e1 : (p.num.prod : ℚ) = A.1.prod * A.2.prod ^ q.den := by exact_mod_cast a1.symm
    have e2 : (p.den.prod : ℚ) = B.1.prod * B.2.prod ^ q.den := by exact_mod_cast b1.symm
    simp only [value, e1, e2, div_pow]
    rw [div_mul_div_comm]

theorem unique_mem : ∀ l z, z ∈ unique l → z ∈ l := by
  intro l
  induction l with
  | nil => intro z h; simp [unique] at h
  | cons x xs ih =>
    intro z h
    cases xs with
    | nil => simpa [unique] using h
    | cons y ys =>
      unfold unique at h
      split at h
      · exact List.mem_cons_of_mem _ (ih _ h)
      · rcases List.mem_cons.1 h with h | h
        · rw [h]; exact List.mem_cons_self
        · exact List.mem_cons_of_mem _ (ih _ h)

theorem unique_pos {p : PrimeFac} (hp : p.Pos) : (⟨unique p.num, unique p.den⟩ : PrimeFac).Pos :=
  ⟨fun x hx => hp.1 x (unique_mem _ _ hx), fun x hx => hp.2 x (unique_mem _ _ hx)⟩

/-- If the count applies to all primes then dropping duplicates is taking the root. -/
theorem unique_value {p : PrimeFac} (hp : p.Pos) (c : ℕ)
    (h1 : dup c c (unique p.num) = p.num) (h2 : dup c c (unique p.den) = p.den) :
    p.value = (⟨unique p.num, unique p.den⟩ : PrimeFac).value ^ c := by
  have q := unique_pos hp
  have e1 := dup_prod c _ q.1
  have e2 := dup_prod c _ q.2
  simp only [] at e1 e2
  rw [h1] at e1
  rw [h2] at e2
  simp only [value, e1, e2, Nat.cast_pow, div_pow]

theorem eval_ok {D : Type} [Flt D] {p : PrimeFac} {r : Number D} (h : p.eval = .ok r) :
    r = .rat p.value := by
  obtain ⟨_, rfl⟩ := Number.ofInts_ok h
  simp only [value, Int.cast_natCast]

theorem ofNumber_ok {D : Type} [Flt D] [LawfulFlt D] {q : ℚ} {p : PrimeFac} (hq : 0 < q)
    (h : ofNumber (.rat q : Number D) = .ok p) : p.Pos ∧ p.value = q := by
  unfold ofNumber at h
  have hlt : (Number.rat q : Number D).lt 0 = false := by
    rw [Number.lt_false]; simp; exact_mod_cast hq.le
  simp only [Number.isDouble, hlt, Bool.or_self, Bool.false_eq_true, if_false, Number.numerator,
    Number.denominator, computeAndStoreInt] at h
  have hn : 0 < q.num := Rat.num_pos.2 hq
  have hnn : ¬ q.num < 0 := by omega
  have hdd : ¬ (q.den : ℤ) < 0 := by omega
  obtain ⟨a, ha, ha1, _, ha3⟩ := computeAndStore_spec q.num.natAbs (by omega)
  obtain ⟨b, hb, hb1, _, hb3⟩ := computeAndStore_spec q.den q.den_pos
  simp only [hnn, hdd, if_false, Int.natAbs_natCast, ha, hb, bind, Except.bind, pure, Except.pure,
    Except.ok.injEq] at h
  subst h
  refine ⟨⟨fun x hx => (ha1 x hx).pos, fun x hx => (hb1 x hx).pos⟩, ?_⟩
  simp only [value, ha3, hb3]
  have : ((q.num.natAbs : ℕ) : ℚ) = q.num := by
    have : (q.num.natAbs : ℤ) = q.num := by omega
    rw [← Int.cast_natCast, this]
  rw [this, Rat.num_div_den]

end PrimeFac

end Tsym
