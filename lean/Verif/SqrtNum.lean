import Mathlib.Data.Nat.Squarefree
import Verif.NumPow

set_option autoImplicit false
set_option linter.unusedSectionVars false
set_option linter.unusedSimpArgs false
set_option linter.unusedVariables false

/-!
# Helper lemmas: square roots of rational numbers

The prime lists of a product are again those of a number in lowest terms, and after the extraction of
pairs each prime occurs once. So NumPowerSimpl splits a rational number into a square and a fraction
without square factors.
-/

namespace Tsym

/-- The positive number `c` is the square of `s` times `r`, in lowest terms, and the numerator and the
denominator of `r` have no square factors. -/
structure SqSplit (c s r : ℚ) : Prop where
  spos : 0 < s
  rpos : 0 < r
  num : c.num = s.num ^ 2 * r.num
  den : c.den = s.den ^ 2 * r.den
  sfn : Squarefree r.num.natAbs
  sfd : Squarefree r.den

namespace PrimeFac

theorem sq_unique {a b r s : ℕ} (ha : 0 < a) (hb : 0 < b) (hr : Squarefree r) (hs : Squarefree s)
    (h : a ^ 2 * r = b ^ 2 * s) : a = b ∧ r = s := by
  have r0 : r ≠ 0 := hr.ne_zero
  have s0 : s ≠ 0 := hs.ne_zero
  have key : ∀ p, a.factorization p = b.factorization p ∧ r.factorization p = s.factorization p := by
    intro p
    have h1 := congrArg (fun n => n.factorization p) h
    simp only [Nat.factorization_mul (pow_ne_zero 2 ha.ne') r0, Nat.factorization_mul (pow_ne_zero 2 hb.ne') s0,
      Nat.factorization_pow, Finsupp.add_apply, Finsupp.smul_apply, smul_eq_mul] at h1
    have h2 := hr.natFactorization_le_one p
    have h3 := hs.natFactorization_le_one p
    omega
  exact ⟨Nat.eq_of_factorization_eq ha.ne' hb.ne' (fun p => (key p).1), Nat.eq_of_factorization_eq r0 s0 (fun p => (key p).2)⟩

/-- The lists are the sorted prime lists of the numerator and the denominator of `q`. -/
structure Canon (P : PrimeFac) (q : ℚ) : Prop where
  pn : ∀ x ∈ P.num, x.Prime
  pd : ∀ x ∈ P.den, x.Prime
  sn : P.num.Pairwise (· ≤ ·)
  sd : P.den.Pairwise (· ≤ ·)
  dis : ∀ x ∈ P.num, x ∉ P.den
  val : P.value = q

theorem Canon.pos {P : PrimeFac} {q : ℚ} (h : Canon P q) : P.Pos :=
  ⟨fun x hx => (h.pn x hx).pos, fun x hx => (h.pd x hx).pos⟩

theorem coprime_prod {A B : List ℕ} (hA : ∀ x ∈ A, x.Prime) (hB : ∀ x ∈ B, x.Prime) (h : ∀ x ∈ A, x ∉ B) :
    A.prod.Coprime B.prod := by
  refine Nat.coprime_of_dvd ?_
  intro k hk h1 h2
  obtain ⟨a, ha, hka⟩ := (Prime.dvd_prod_iff hk.prime).1 h1
  obtain ⟨b, hb, hkb⟩ := (Prime.dvd_prod_iff hk.prime).1 h2
  have e1 := (Nat.prime_dvd_prime_iff_eq hk (hA a ha)).1 hka
  have e2 := (Nat.prime_dvd_prime_iff_eq hk (hB b hb)).1 hkb
  exact h a ha (by rw [← e1, e2]; exact hb)

theorem Canon.nums {P : PrimeFac} {q : ℚ} (h : Canon P q) : (P.num.prod : ℤ) = q.num ∧ P.den.prod = q.den := by
  have hc := coprime_prod h.pn h.pd h.dis
  have hd : 0 < P.den.prod := prod_pos h.pos.2
  have hv := h.val
  have h1 := Rat.num_div_eq_of_coprime (a := (P.num.prod : ℤ)) (b := (P.den.prod : ℤ)) (by exact_mod_cast hd) (by rw [Int.natAbs_natCast, Int.natAbs_natCast]; exact hc)
  have h2 := Rat.den_div_eq_of_coprime (a := (P.num.prod : ℤ)) (b := (P.den.prod : ℤ)) (by exact_mod_cast hd) (by rw [Int.natAbs_natCast, Int.natAbs_natCast]; exact hc)
  have e : ((P.num.prod : ℤ) : ℚ) / ((P.den.prod : ℤ) : ℚ) = q := by rw [← hv, Int.cast_natCast, Int.cast_natCast]; rfl
  rw [e] at h1 h2
  exact ⟨h1.symm, by exact_mod_cast h2.symm⟩

theorem canon_ofNumber {D : Type} [Flt D] [ExactLt D] {q : ℚ} (hq : 0 < q) :
    ∃ P, ofNumber (.rat q : Number D) = .ok P ∧ Canon P q := by
  obtain ⟨A, B, h1, hA, hB, pA, pB, hv⟩ := ofNumber_eq (D := D) hq
  have hn : 0 < q.num := Rat.num_pos.2 hq
  obtain ⟨A', hA', _, sA, eA⟩ := computeAndStore_spec q.num.natAbs (by omega)
  obtain ⟨B', hB', _, sB, eB⟩ := computeAndStore_spec q.den q.den_pos
  rw [hA] at hA'; cases hA'
  rw [hB] at hB'; cases hB'
  refine ⟨⟨A, B⟩, h1, pA, pB, sA, sB, ?_, hv⟩
  intro x hx hx'
  have d1 : x ∣ q.num.natAbs := by rw [← eA]; exact List.dvd_prod hx
  have d2 : x ∣ q.den := by rw [← eB]; exact List.dvd_prod hx'
  have := Nat.dvd_gcd d1 d2
  rw [q.reduced] at this
  exact (pA x hx).one_lt.ne' (Nat.dvd_one.1 this)

theorem cancel_count (p q : List ℕ) (hp : p.Pairwise (· ≤ ·)) (hq : q.Pairwise (· ≤ ·)) (z : ℕ) :
    (cancel p q).1.count z = p.count z - q.count z ∧ (cancel p q).2.count z = q.count z - p.count z := by
  fun_induction cancel p q with
  | case1 q => simp
  | case2 p h => simp
  | case3 x xs y ys h r ih =>
    rw [List.pairwise_cons] at hp
    have := ih hp.2 hq
    have h0 : (y :: ys).count x = 0 := List.count_eq_zero.2 (fun hm => by
      rcases List.mem_cons.1 hm with e | e
      · omega
      · have := (List.pairwise_cons.1 hq).1 x e; omega)
    by_cases hz : x = z
    · subst hz
      rw [h0] at this
      rw [List.count_cons_self, List.count_cons_self, h0, this.1, this.2]
      omega
    · rw [List.count_cons_of_ne hz, List.count_cons_of_ne hz]; exact this
  | case4 x xs y ys h h' r ih =>
    rw [List.pairwise_cons] at hq
    have := ih hp hq.2
    have h0 : (x :: xs).count y = 0 := List.count_eq_zero.2 (fun hm => by
      rcases List.mem_cons.1 hm with e | e
      · omega
      · have := (List.pairwise_cons.1 hp).1 y e; omega)
    by_cases hz : y = z
    · subst hz
      rw [h0] at this
      rw [List.count_cons_self, List.count_cons_self, h0, this.1, this.2]
      omega
    · rw [List.count_cons_of_ne hz, List.count_cons_of_ne hz]; exact this
  | case5 x xs y ys h h' ih =>
    have : x = y := by omega
    subst this
    have := ih (List.pairwise_cons.1 hp).2 (List.pairwise_cons.1 hq).2
    by_cases hz : x = z
    · subst hz
      rw [List.count_cons_self, List.count_cons_self, this.1, this.2]; omega
    · rw [List.count_cons_of_ne hz, List.count_cons_of_ne hz]; exact this

theorem canon_multiply {P O : PrimeFac} {p q : ℚ} (hP : Canon P p) (hO : Canon O q) : Canon (P.multiply O) (p * q) := by
  have hval : (P.multiply O).value = p * q := by rw [(multiply_ok hP.pos hO.pos).2, hP.val, hO.val]
  have hsort := multiply_sorted (o := O) (p := P) ⟨hP.sn, hP.sd⟩
  by_cases h : O.num = [] ∧ O.den = []
  · have e : P.multiply O = P := by unfold multiply; rw [if_pos h]
    rw [e] at hval ⊢
    exact ⟨hP.pn, hP.pd, hP.sn, hP.sd, hP.dis, hval⟩
  have e : P.multiply O = ⟨merge (cancel P.num O.den).1 (cancel P.den O.num).2, merge (cancel P.den O.num).1 (cancel P.num O.den).2⟩ := by
    unfold multiply; rw [if_neg h]
  rw [e] at hval hsort ⊢
  have m1 : ∀ {x}, x ∈ merge (cancel P.num O.den).1 (cancel P.den O.num).2 → x ∈ (cancel P.num O.den).1 ∨ x ∈ (cancel P.den O.num).2 :=
    fun hx => List.mem_append.1 ((merge_perm _ _).mem_iff.1 hx)
  have m2 : ∀ {x}, x ∈ merge (cancel P.den O.num).1 (cancel P.num O.den).2 → x ∈ (cancel P.den O.num).1 ∨ x ∈ (cancel P.num O.den).2 :=
    fun hx => List.mem_append.1 ((merge_perm _ _).mem_iff.1 hx)
  refine ⟨?_, ?_, hsort.1, hsort.2, ?_, hval⟩
  · intro x hx
    rcases m1 hx with h | h
    · exact hP.pn x ((cancel_mem _ _).1 x h)
    · exact hO.pn x ((cancel_mem _ _).2 x h)
  · intro x hx
    rcases m2 hx with h | h
    · exact hP.pd x ((cancel_mem _ _).1 x h)
    · exact hO.pd x ((cancel_mem _ _).2 x h)
  · intro x hx hx'
    have c1 := cancel_count P.num O.den hP.sn hO.sd x
    have c2 := cancel_count P.den O.num hP.sd hO.sn x
    have d1 : 0 < P.num.count x → P.den.count x = 0 := fun h => List.count_eq_zero.2 (hP.dis x (List.count_pos_iff.1 h))
    have d2 : 0 < O.num.count x → O.den.count x = 0 := fun h => List.count_eq_zero.2 (hO.dis x (List.count_pos_iff.1 h))
    rcases m1 hx with a | a <;> rcases m2 hx' with b | b <;>
      (have a' := List.count_pos_iff.2 a; have b' := List.count_pos_iff.2 b; omega)

theorem dup_sorted (n : ℕ) : ∀ l ins, l.Pairwise (· ≤ ·) → (dup n ins l).Pairwise (· ≤ ·) := by
  intro l
  induction l with
  | nil => intro ins _; simp [dup]
  | cons x xs ih =>
    intro ins h
    cases xs with
    | nil => simp only [dup]; exact List.pairwise_replicate.2 (Or.inr le_rfl)
    | cons y ys =>
      simp only [dup]
      have h' := (List.pairwise_cons.1 h)
      split
      · exact ih _ h'.2
      · rw [List.pairwise_append]
        refine ⟨List.pairwise_replicate.2 (Or.inr le_rfl), ih _ h'.2, ?_⟩
        intro a ha b hb
        rw [(List.mem_replicate.1 ha).2]
        exact h'.1 b (dup_mem _ _ _ _ hb)

theorem canon_toThe {P : PrimeFac} {q : ℚ} (hP : Canon P q) {n : ℕ} (hn : 0 < n) (hn2 : (n : ℤ) < Number.unsignedMax) :
    ∃ R, P.toThe (n : ℤ) = .ok R ∧ Canon R (q ^ n) := by
  have e : P.toThe (n : ℤ) = .ok ⟨dup n n P.num, dup n n P.den⟩ := by
    unfold toThe duplicate
    have a1 : ¬ (n : ℤ) = 0 := by omega
    have a2 : 0 < (n : ℤ) ∧ (n : ℤ) < Number.unsignedMax := ⟨by omega, hn2⟩
    have a3 : ¬ (n : ℤ) < 0 := by omega
    simp only [a1, a3, if_false, Int.natAbs_natCast, a2, and_self, if_true, bind, Except.bind, pure, Except.pure, Int.toNat_natCast]
  refine ⟨_, e, fun x hx => hP.pn x (dup_mem _ _ _ _ hx), fun x hx => hP.pd x (dup_mem _ _ _ _ hx), dup_sorted _ _ _ hP.sn,
    dup_sorted _ _ _ hP.sd, fun x hx hx' => hP.dis x (dup_mem _ _ _ _ hx) (dup_mem _ _ _ _ hx'), ?_⟩
  have := (toThe_ok e hP.pos).2
  rw [this, hP.val]; simp

/-- Extraction of pairs from one list. -/
theorem extractLoop_two {A : List ℕ} (pA : ∀ x ∈ A, x.Prime) (sA : A.Pairwise (· ≤ ·)) :
    (extractLoop 2 [] 0 0 A).2.prod ^ 2 * (extractLoop 2 [] 0 0 A).1.prod = A.prod ∧
    (extractLoop 2 [] 0 0 A).1.Nodup ∧ (extractLoop 2 [] 0 0 A).1.Pairwise (· ≤ ·) ∧ (∀ x ∈ (extractLoop 2 [] 0 0 A).1, x ∈ A) ∧
    (∀ x ∈ (extractLoop 2 [] 0 0 A).2, x ∈ A) ∧ Squarefree (extractLoop 2 [] 0 0 A).1.prod := by
  obtain ⟨a1, a2, a3⟩ := extractLoop_ok 2 (by omega) A [] 0 0 ⟨[], by simp⟩ (Or.inl (by omega))
  have b := extractLoop_count 2 le_rfl A [] 0 0 (by simp) (by simp) (by simp) sA (by simp) (by omega)
  simp only [List.replicate_zero, List.nil_append] at b
  have nd : (extractLoop 2 [] 0 0 A).1.Nodup := List.nodup_iff_count_le_one.2 (fun z => by have := b.2 z; omega)
  have pr : ∀ x ∈ (extractLoop 2 [] 0 0 A).1, x.Prime := fun x hx => by
    rcases a2 x hx with h | h
    · simp at h
    · exact pA x h
  refine ⟨by rw [mul_comm, a1]; simp, nd, b.1, fun x hx => by simpa using a2 x hx, a3, ?_⟩
  have h0 : (extractLoop 2 [] 0 0 A).1.prod ≠ 0 := (prod_pos (fun x hx => (pr x hx).pos)).ne'
  rw [Nat.squarefree_iff_nodup_primeFactorsList h0]
  exact (Nat.primeFactorsList_unique rfl pr).nodup_iff.1 nd

theorem equalCountOf_nodup {l : List ℕ} (h : l.Nodup) (hl : l ≠ []) : ∃ c, equalCountOf l = .ok c ∧ c ≤ 1 := by
  have hok : ∃ c, equalCountOf l = .ok c := by
    match l, hl with
    | x :: xs, _ =>
      unfold equalCountOf
      simp only
      split
      · exact ⟨_, rfl⟩
      · split <;> exact ⟨_, rfl⟩
  obtain ⟨c, hc⟩ := hok
  obtain ⟨z, hz⟩ := equalCountOf_le hc
  have := List.nodup_iff_count_le_one.1 h z
  exact ⟨c, hc, by omega⟩

theorem equalCount_nodup {A B : List ℕ} (hA : A.Nodup) (hB : B.Nodup) : ∃ c, equalCount ⟨A, B⟩ = .ok c ∧ c ≤ 1 := by
  unfold equalCount
  by_cases h1 : A = []
  · by_cases h2 : B = []
    · exact ⟨0, by simp [h1, h2], by omega⟩
    · obtain ⟨c, hc, hc2⟩ := equalCountOf_nodup hB h2
      exact ⟨c, by simp [h1, h2, hc], hc2⟩
  · obtain ⟨a, ha, ha2⟩ := equalCountOf_nodup hA h1
    by_cases h2 : B = []
    · exact ⟨a, by simp [h1, h2, ha], ha2⟩
    · obtain ⟨b, hb, hb2⟩ := equalCountOf_nodup hB h2
      by_cases e : a = b
      · subst e
        exact ⟨a, by simp [h1, h2, ha, hb, bind, Except.bind, pure, Except.pure], ha2⟩
      · exact ⟨0, by simp [h1, h2, ha, hb, bind, Except.bind, pure, Except.pure, e], by omega⟩

end PrimeFac

namespace SqSplit

theorem snum {c s r : ℚ} (h : SqSplit c s r) : 0 < s.num := Rat.num_pos.2 h.spos
theorem rnum {c s r : ℚ} (h : SqSplit c s r) : 0 < r.num := Rat.num_pos.2 h.rpos

theorem unique {c s r s' r' : ℚ} (h : SqSplit c s r) (h' : SqSplit c s' r') : s = s' ∧ r = r' := by
  have n1 := h.snum; have n2 := h'.snum; have n3 := h.rnum; have n4 := h'.rnum
  have hn : s.num.natAbs ^ 2 * r.num.natAbs = s'.num.natAbs ^ 2 * r'.num.natAbs := by
    have := h.num.symm.trans h'.num
    have := congrArg Int.natAbs this
    simpa [Int.natAbs_mul, Int.natAbs_pow] using this
  obtain ⟨e1, e2⟩ := PrimeFac.sq_unique (by omega) (by omega) h.sfn h'.sfn hn
  obtain ⟨e3, e4⟩ := PrimeFac.sq_unique s.den_pos s'.den_pos h.sfd h'.sfd (h.den.symm.trans h'.den)
  exact ⟨Rat.ext (by omega) e3, Rat.ext (by omega) e4⟩

theorem value {c s r : ℚ} (h : SqSplit c s r) : c = s ^ 2 * r := by
  have h1 : c = (c.num : ℚ) / c.den := (Rat.num_div_den c).symm
  have h2 : s = (s.num : ℚ) / s.den := (Rat.num_div_den s).symm
  have h3 : r = (r.num : ℚ) / r.den := (Rat.num_div_den r).symm
  rw [h1, h.num, h.den]
  conv_rhs => rw [h2, h3]
  push_cast
  rw [div_pow, div_mul_div_comm]

theorem pos {c s r : ℚ} (h : SqSplit c s r) : 0 < c := by rw [h.value]; have := h.spos; have := h.rpos; positivity

theorem of_coprime {c : ℚ} {a b d e : ℕ} (ha : 0 < a) (hd : 0 < d) (hb : Squarefree b) (he : Squarefree e)
    (hn : c.num = (a : ℤ) ^ 2 * b) (hden : c.den = d ^ 2 * e) : SqSplit c ((a : ℚ) / d) ((b : ℚ) / e) := by
  have hcop : (a ^ 2 * b).Coprime (d ^ 2 * e) := by
    have := c.reduced
    rw [hn, hden] at this
    have e1 : ((a : ℤ) ^ 2 * b).natAbs = a ^ 2 * b := by
      rw [Int.natAbs_mul, Int.natAbs_pow]; simp
    rwa [e1] at this
  have c1 : a.Coprime d := (Nat.Coprime.coprime_mul_right_right (Nat.Coprime.coprime_mul_right hcop)).of_dvd (dvd_pow_self a two_ne_zero) (dvd_pow_self d two_ne_zero)
  have c2 : b.Coprime e := Nat.Coprime.coprime_mul_left_right (Nat.Coprime.coprime_mul_left hcop)
  have b0 : 0 < b := Nat.pos_of_ne_zero hb.ne_zero
  have e0 : 0 < e := Nat.pos_of_ne_zero he.ne_zero
  have s1 := Rat.num_div_eq_of_coprime (a := (a : ℤ)) (b := (d : ℤ)) (by exact_mod_cast hd) (by simpa using c1)
  have s2 := Rat.den_div_eq_of_coprime (a := (a : ℤ)) (b := (d : ℤ)) (by exact_mod_cast hd) (by simpa using c1)
  have r1 := Rat.num_div_eq_of_coprime (a := (b : ℤ)) (b := (e : ℤ)) (by exact_mod_cast e0) (by simpa using c2)
  have r2 := Rat.den_div_eq_of_coprime (a := (b : ℤ)) (b := (e : ℤ)) (by exact_mod_cast e0) (by simpa using c2)
  simp only [Int.cast_natCast] at s1 s2 r1 r2
  have s2' : ((a : ℚ) / d).den = d := by exact_mod_cast s2
  have r2' : ((b : ℚ) / e).den = e := by exact_mod_cast r2
  refine ⟨by positivity, by positivity, ?_, ?_, ?_, ?_⟩
  · rw [s1, r1, hn]
  · rw [s2', r2', hden]
  · rw [r1]; simpa using hb
  · rw [r2']; exact he

theorem exists_split {c : ℚ} (hc : 0 < c) : ∃ s r, SqSplit c s r := by
  have hn : 0 < c.num := Rat.num_pos.2 hc
  obtain ⟨b, a, b0, a0, h1, h2⟩ := Nat.sq_mul_squarefree_of_pos (n := c.num.natAbs) (by omega)
  obtain ⟨e, d, e0, d0, h3, h4⟩ := Nat.sq_mul_squarefree_of_pos c.den_pos
  refine ⟨_, _, of_coprime a0 d0 h2 h4 ?_ h3.symm⟩
  have : c.num = (c.num.natAbs : ℤ) := by omega
  rw [this, ← h1]; push_cast; rfl

/-- The parts are not larger than the number. -/
theorem le {c s r : ℚ} (h : SqSplit c s r) : s.num ≤ c.num ∧ s.den ≤ c.den ∧ r.num ≤ c.num ∧ r.den ≤ c.den := by
  have n1 := h.snum; have n3 := h.rnum
  have d1 := s.den_pos; have d2 := r.den_pos
  have k1 : s.num ^ 2 = s.num * s.num := sq _
  have k2 : s.den ^ 2 = s.den * s.den := sq _
  rw [h.num, h.den, k1, k2]
  refine ⟨?_, ?_, ?_, ?_⟩ <;> nlinarith [mul_pos n1 n1, mul_pos d1 d1, mul_pos n1 n3, mul_pos d1 d2]

theorem inv {c s r : ℚ} (h : SqSplit c s r) : SqSplit c⁻¹ s⁻¹ r⁻¹ := by
  have hi : ∀ {q : ℚ}, 0 < q → q⁻¹.num = q.den ∧ (q⁻¹.den : ℤ) = q.num := by
    intro q hq
    have hn := Rat.num_pos.2 hq
    refine ⟨?_, ?_⟩
    · rw [Rat.num_inv, Int.sign_eq_one_of_pos hn]; simp
    · rw [Rat.den_inv, if_neg (Rat.num_ne_zero.2 hq.ne')]
      omega
  obtain ⟨a1, a2⟩ := hi h.pos
  obtain ⟨b1, b2⟩ := hi h.spos
  obtain ⟨c1, c2⟩ := hi h.rpos
  refine ⟨inv_pos.2 h.spos, inv_pos.2 h.rpos, ?_, ?_, ?_, ?_⟩
  · rw [a1, b1, c1, h.den]; push_cast; rfl
  · have : (c⁻¹.den : ℤ) = (s⁻¹.den : ℤ) ^ 2 * r⁻¹.den := by rw [a2, b2, c2, h.num]
    exact_mod_cast this
  · rw [c1]; simpa using h.sfd
  · have : r⁻¹.den = r.num.natAbs := by have := h.rnum; omega
    rw [this]; exact h.sfn

end SqSplit


namespace NumPowerSimpl

open Number

variable {D : Type} [Flt D] [ExactLt D]

theorem half_num : ((1 / 2 : ℚ)).num = 1 := by decide +kernel
theorem half_den : ((1 / 2 : ℚ)).den = 2 := by decide +kernel

theorem one_num_den {r : ℚ} (h1 : r.num = 1) (h2 : r.den = 1) : r = 1 := Rat.ext h1 h2

theorem one_lt_rat (x : ℚ) : Number.lt 1 (.rat x : Number D) = decide (1 < x) := by rw [one_def, lt_rat]
theorem rat_lt_negone (x : ℚ) : Number.lt (.rat x : Number D) (neg 1) = decide (x < -1) := by rw [neg_one_def, lt_rat]
theorem rat_lt_zero (x : ℚ) : Number.lt (.rat x : Number D) 0 = decide (x < 0) := by rw [zero_def, lt_rat]
theorem rat_eqv_one (x : ℚ) : (.rat x : Number D).eqv 1 = decide (x = 1) := by rw [one_def, rat_eqv]
theorem rat_eqv_zero (x : ℚ) : (.rat x : Number D).eqv 0 = decide (x = 0) := by rw [zero_def, rat_eqv]

/-- Prefactor and base are small enough to be factorised. -/
def SmallQ (max : ℤ) (q : ℚ) : Prop := (q.num.natAbs : ℤ) ≤ max ∧ (q.den : ℤ) ≤ max

/-- The payload of the root of `c` with its sign, before the last step. -/
def rootPay (s r : ℚ) : Payload D := if r = 1 then ⟨.rat s, .rat 1, .rat 1⟩ else ⟨.rat r, .rat (1 / 2), .rat s⟩

theorem cancel_half {b pf s r : ℚ} (hb : 0 < b) (hpf : 0 < pf) (hs : SqSplit (b * pf ^ 2) s r) :
    cancel (⟨.rat b, .rat (1 / 2), .rat pf⟩ : Payload D) = .ok (rootPay s r, true) := by
  obtain ⟨P, hP, cP⟩ := PrimeFac.canon_ofNumber (D := D) hb
  obtain ⟨F, hF, cF⟩ := PrimeFac.canon_ofNumber (D := D) hpf
  obtain ⟨G, hG, cG⟩ := PrimeFac.canon_toThe cF (n := 2) (by omega) (by unfold unsignedMax; omega)
  have cM := PrimeFac.canon_multiply cP cG
  obtain ⟨n1, n2⟩ := cM.nums
  set M := P.multiply G with hM
  obtain ⟨a1, a2, a3, a4, a5, a6⟩ := PrimeFac.extractLoop_two cM.pn cM.sn
  obtain ⟨b1, b2, b3, b4, b5, b6⟩ := PrimeFac.extractLoop_two cM.pd cM.sd
  set A := PrimeFac.extractLoop 2 [] 0 0 M.num with hA
  set B := PrimeFac.extractLoop 2 [] 0 0 M.den with hB
  have hA2 : 0 < A.2.prod := PrimeFac.prod_pos (fun x hx => (cM.pn x (a5 x hx)).pos)
  have hB2 : 0 < B.2.prod := PrimeFac.prod_pos (fun x hx => (cM.pd x (b5 x hx)).pos)
  obtain ⟨es, er⟩ := SqSplit.unique (SqSplit.of_coprime hA2 hB2 a6 b6 (by rw [← n1, ← a1]; push_cast; rfl) (by rw [← n2, ← b1])) hs
  have hE : ∃ R, PrimeFac.toThe ⟨A.2, B.2⟩ 1 = .ok R := ⟨_, rfl⟩
  obtain ⟨R, hR⟩ := hE
  obtain ⟨R1, R2⟩ := PrimeFac.toThe_ok hR ⟨fun x hx => (cM.pn x (a5 x hx)).pos, fun x hx => (cM.pd x (b5 x hx)).pos⟩
  have R3 : R.value = s := by rw [R2, zpow_one]; exact es
  have hN : (⟨A.1, B.1⟩ : PrimeFac).Pos := ⟨fun x hx => (cM.pn x (a4 x hx)).pos, fun x hx => (cM.pd x (b4 x hx)).pos⟩
  have hNv : (⟨A.1, B.1⟩ : PrimeFac).value = r := er
  obtain ⟨c, hc, hc1⟩ := PrimeFac.equalCount_nodup a2 b2
  have hpfp : Number.toThe (.rat pf : Number D) (.rat ((1 : ℤ) / (1 : ℤ) : ℚ)) = .ok (.rat pf) := by
    have := toThe_eq (D := D) hpf.ne' (n := 1) (by unfold unsignedMax; simp)
    simpa using this
  have hdef : defPreFacPrimesInPower (⟨.rat b, .rat (1 / 2), .rat pf⟩ : Payload D) = .ok (G, ⟨.rat b, .rat (1 / 2), .rat 1⟩) := by
    unfold defPreFacPrimesInPower
    simp only [numerator, denominator, half_num, half_den, ofInts_eq (D := D) (n := 1) (d := 1) (by omega), bind, Except.bind,
      hpfp, isDouble, Bool.false_eq_true, if_false, hF, hG]
    rfl
  have hext : M.extract (.rat (1 / 2) : Number D) = .ok (R, ⟨A.1, B.1⟩) := by
    unfold PrimeFac.extract
    simp only [numerator, denominator, half_num, half_den, bind, Except.bind]
    have : ((2 : ℕ) : ℤ).toNat = 2 := rfl
    rw [this, ← hA, ← hB, hR]
    rfl
  have hghost : collectExact ⟨A.1, B.1⟩ = true := by
    unfold collectExact
    rw [hc]; simp; omega
  have hnil : (A.1 = [] ∧ B.1 = []) ↔ r = 1 := by
    constructor
    · rintro ⟨e1, e2⟩; rw [← hNv]; simp [PrimeFac.value, e1, e2]
    · intro e
      subst e
      have hcop := PrimeFac.coprime_prod (A := A.1) (B := B.1) (fun x hx => cM.pn x (a4 x hx)) (fun x hx => cM.pd x (b4 x hx))
        (fun x hx hx' => cM.dis x (a4 x hx) (b4 x hx'))
      have e' : A.1.prod = B.1.prod := by
        have hB1 : (B.1.prod : ℚ) ≠ 0 := hN.den_pos.ne'
        have := (div_eq_one_iff_eq hB1).1 hNv
        exact_mod_cast this
      rw [e', Nat.coprime_self] at hcop
      have key : ∀ l : List ℕ, (∀ x ∈ l, x.Prime) → l.prod = 1 → l = [] := by
        intro l hl h1
        cases l with
        | nil => rfl
        | cons x xs =>
          rw [List.prod_cons] at h1
          exact absurd (Nat.eq_one_of_mul_eq_one_right h1) (hl x List.mem_cons_self).one_lt.ne'
      exact ⟨key _ (fun x hx => cM.pn x (a4 x hx)) (e'.trans hcop), key _ (fun x hx => cM.pd x (b4 x hx)) hcop⟩
  have hcoll : PrimeFac.collectToNewExp ⟨A.1, B.1⟩ (.rat (1 / 2) : Number D) = .ok (⟨A.1, B.1⟩, if r = 1 then .rat 1 else .rat (1 / 2)) := by
    unfold PrimeFac.collectToNewExp
    have : ¬ 1 < c := by omega
    simp only [hc, bind, Except.bind, this, if_false, hnil]
    split <;> rfl
  have hprim : primesToComponents ⟨A.1, B.1⟩ (⟨.rat b, if r = 1 then .rat 1 else .rat (1 / 2), .rat s⟩ : Payload D) = .ok (rootPay s r) := by
    unfold primesToComponents rootPay
    simp only [eval_eq hN, hNv, bind, Except.bind, one_def, rat_eqv]
    by_cases e : r = 1
    · simp only [e, decide_true, if_true, rat_eqv]; rfl
    · simp only [e, decide_false, if_false, Bool.false_eq_true]; rfl
  have hadj : adjustExpGreaterThanOne (rootPay s r : Payload D) = .ok (rootPay s r) := by
    unfold adjustExpGreaterThanOne rootPay
    by_cases e : r = 1
    · simp only [e, if_true, one_lt_rat, rat_lt_negone]
      norm_num; rfl
    · simp only [e, if_false, one_lt_rat, rat_lt_negone]
      norm_num; rfl
  unfold cancel
  simp only [hP, bind, Except.bind, hdef]
  simp only [← hM, hext, eval_eq R1, R3, hghost, hcoll, Number.mul, one_mul, hprim, hadj]
  rfl

theorem rootPay_sign (neg : Bool) (s r : ℚ) :
    shiftPreFacSignBack neg (rootPay s r : Payload D) = rootPay (if neg then -s else s) r := by
  unfold shiftPreFacSignBack rootPay
  cases neg
  · simp
  · by_cases e : r = 1
    · simp only [e, if_true, rat_eqv_one, decide_true, Bool.not_true, Bool.false_eq_true, if_false, neg_one_def, Number.mul]
      norm_num
    · simp only [e, if_false, rat_eqv_one, Bool.not_true, Bool.false_eq_true, neg_one_def, Number.mul]
      norm_num

theorem small_iff {max : ℤ} {b e pf : ℚ} : areValuesSmallEnough max (⟨.rat b, .rat e, .rat pf⟩ : Payload D) = true ↔
    SmallQ max b ∧ SmallQ max pf := by
  unfold SmallQ
  change (if (b.num.natAbs : ℤ) > max ∨ (b.den : ℤ) > max then false
    else if (pf.num.natAbs : ℤ) > max ∨ (pf.den : ℤ) > max then false else true) = true ↔ _
  by_cases h : (b.num.natAbs : ℤ) > max ∨ (b.den : ℤ) > max
  · rw [if_pos h]
    exact ⟨fun h => (by cases h), fun h => (by omega)⟩
  · rw [if_neg h]
    by_cases h' : (pf.num.natAbs : ℤ) > max ∨ (pf.den : ℤ) > max
    · rw [if_pos h']
      exact ⟨fun h => (by cases h), fun h => (by omega)⟩
    · rw [if_neg h']
      exact ⟨fun _ => by omega, fun _ => rfl⟩

theorem SmallQ.neg {max : ℤ} {q : ℚ} (h : SmallQ max q) : SmallQ max (-q) := by
  unfold SmallQ at *; simpa using h

theorem SmallQ.inv {max : ℤ} {q : ℚ} (h : SmallQ max q) (hq : q ≠ 0) : SmallQ max q⁻¹ := by
  unfold SmallQ at *
  have hn : q.num ≠ 0 := by simpa using hq
  rw [Rat.num_inv, Rat.den_inv, if_neg hn]
  refine ⟨?_, by omega⟩
  rw [Int.natAbs_mul, Int.natAbs_sign_of_ne_zero hn]
  simpa using h.2

/-- The square root with a prefactor of any sign. -/
theorem computePos_half {max : ℤ} {b pf s r : ℚ} (hb : 0 < b) (hpf : pf ≠ 0) (hs : SqSplit (b * pf ^ 2) s r)
    (h1 : SmallQ max b) (h2 : SmallQ max pf) :
    computePosExp max (⟨.rat b, .rat (1 / 2), .rat pf⟩ : Payload D) = .ok (rootPay (if pf < 0 then -s else s) r, true) := by
  have hb' : ¬ b < 0 := not_lt.2 hb.le
  unfold computePosExp computePosExpPosBase
  simp only [rat_lt_zero, hb', decide_false, Bool.false_eq_true, if_false, bind, Except.bind, pure, Except.pure, decide_eq_true_eq]
  by_cases h : pf < 0
  · have hsm : areValuesSmallEnough max (⟨.rat b, .rat (1 / 2), .rat (-pf)⟩ : Payload D) = true := small_iff.2 ⟨h1, h2.neg⟩
    have hm : (Number.rat pf : Number D).mul (neg 1) = .rat (-pf) := by rw [neg_one_def]; simp [Number.mul]
    have hcan := cancel_half (D := D) hb (neg_pos.2 h) (s := s) (r := r) (by simpa using hs)
    simp only [h, if_true, computeAllPos, hm, hsm, hcan, bind, Except.bind, rootPay_sign, pure, Except.pure]
  · have hsm : areValuesSmallEnough max (⟨.rat b, .rat (1 / 2), .rat pf⟩ : Payload D) = true := small_iff.2 ⟨h1, h2⟩
    have hcan := cancel_half (D := D) hb (lt_of_le_of_ne (not_lt.1 h) hpf.symm) hs
    simp only [h, if_false, computeAllPos, hsm, if_true, hcan, bind, Except.bind, rootPay_sign, pure, Except.pure, Bool.false_eq_true]

/-- The payload of the root, after the last step: no fraction with the numerator one below the root. -/
def rootOut (s r : ℚ) : Payload D :=
  if r = 1 then ⟨.rat s, .rat 1, .rat 1⟩
  else if r.num = 1 then ⟨.rat r⁻¹, .rat (-(1 / 2)), .rat s⟩
  else ⟨.rat r, .rat (1 / 2), .rat s⟩

theorem toThe_negone {q : ℚ} (hq : q ≠ 0) : Number.toThe (.rat q : Number D) (neg 1) = .ok (.rat q⁻¹) := by
  have := toThe_eq (D := D) hq (n := -1) (by unfold unsignedMax; simp)
  rw [neg_one_def]
  simpa using this

theorem isFraction_rat (q : ℚ) : (Number.rat q : Number D).isFraction = decide (q.den ≠ 1) := by
  simp only [Number.isFraction, Number.isInt, Number.isDouble, denominator]
  by_cases h : q.den = 1
  · simp [h]
  · simp [h]

theorem compute_half {max : ℤ} {b pf s r : ℚ} (hb : 0 < b) (hpf : pf ≠ 0) (hs : SqSplit (b * pf ^ 2) s r)
    (h1 : SmallQ max b) (h2 : SmallQ max pf) :
    compute max (⟨.rat b, .rat (1 / 2), .rat pf⟩ : Payload D) = .ok (rootOut (if pf < 0 then -s else s) r, true) := by
  have hb' : ¬ b < 0 := not_lt.2 hb.le
  have hv : isInputValid (⟨.rat b, .rat (1 / 2), .rat pf⟩ : Payload D) = true := by
    simp [isInputValid, rat_lt_zero, hb']
  have hh : ¬ ((1 : ℚ) / 2 < 0) := by norm_num
  unfold compute computeRational
  simp only [hv, Bool.not_true, Bool.false_eq_true, if_false, isDouble, Bool.or_self, rat_lt_zero, hh, decide_false,
    computePos_half hb hpf hs h1 h2, bind, Except.bind]
  unfold adjustExpSignAndBase rootPay rootOut
  by_cases e : r = 1
  · have h10 : ¬ ((1 : ℚ) < 0) := by norm_num
    simp only [e, if_true, rat_eqv_one, decide_true, Bool.not_true, Bool.and_false, rat_lt_zero, h10, decide_false, Bool.false_and, Bool.or_self,
      Bool.false_eq_true, if_false, pure, Except.pure]
  · by_cases e2 : r.num = 1
    · have e3 : ((Number.rat r : Number D).numerator == 1) = true := by simpa [numerator] using e2
      have hm' : (Number.rat (1 / 2) : Number D).mul (neg 1) = .rat (-(1 / 2)) := by rw [neg_one_def]; simp [Number.mul]
      have hhalf : ¬ ((1 : ℚ) / 2 = 1) := by norm_num
      simp only [e, if_false, e2, if_true, e3, rat_eqv_one, toThe_negone hs.rpos.ne', bind, Except.bind, pure, Except.pure, hm', hhalf, decide_false,
        Bool.not_false, Bool.and_true, Bool.true_or]
    · have e3 : ((Number.rat r : Number D).numerator == 1) = false := by simpa [numerator] using e2
      simp only [e, if_false, e2, e3, rat_eqv_one, rat_lt_zero, hh, decide_false, Bool.false_and, Bool.or_self, Bool.false_eq_true, pure, Except.pure]

theorem compute_neghalf {max : ℤ} {b pf s r : ℚ} (hb : 0 < b) (hpf : pf ≠ 0) (hs : SqSplit (b⁻¹ * pf ^ 2) s r)
    (h1 : SmallQ max b) (h2 : SmallQ max pf) :
    compute max (⟨.rat b, .rat (-(1 / 2)), .rat pf⟩ : Payload D) = .ok (rootOut (if pf < 0 then -s else s) r, true) := by
  have hb' : ¬ b < 0 := not_lt.2 hb.le
  have hv : isInputValid (⟨.rat b, .rat (-(1 / 2)), .rat pf⟩ : Payload D) = true := by
    simp [isInputValid, rat_lt_zero, hb']
  have hh : -((1 : ℚ) / 2) < 0 := by norm_num
  have hs' : SqSplit (b * pf⁻¹ ^ 2) s⁻¹ r⁻¹ := by
    have := hs.inv
    rwa [mul_inv, inv_inv, ← inv_pow] at this
  have hm : (Number.rat (-(1 / 2)) : Number D).mul (neg 1) = .rat (1 / 2) := by rw [neg_one_def]; simp [Number.mul]
  have hsg : (if pf⁻¹ < 0 then -s⁻¹ else s⁻¹) = (if pf < 0 then -s else s)⁻¹ := by
    simp only [inv_lt_zero]
    split
    · rw [inv_neg]
    · rfl
  have hsg0 : (if pf < 0 then -s else s) ≠ 0 := by
    have := hs.spos
    split <;> linarith
  unfold compute computeRational computeNegExp
  simp only [hv, Bool.not_true, Bool.false_eq_true, if_false, isDouble, Bool.or_self, rat_lt_zero, hh, decide_true, if_true,
    bind, Except.bind, toThe_negone hpf, hm, computePos_half hb (inv_ne_zero hpf) hs' h1 (h2.inv hpf), hsg]
  generalize (if pf < 0 then -s else s) = t at *
  have r0 := hs.rpos
  have r1 := hs.rnum
  have hone : toThe (.rat 1 : Number D) (neg 1) = .ok (.rat 1) := by simpa using toThe_negone (D := D) (q := 1) one_ne_zero
  unfold rootPay rootOut
  by_cases e : r = 1
  · subst e
    simp only [inv_one, if_true, hone, rat_eqv_zero, inv_eq_zero, hsg0, decide_false, Bool.false_eq_true, if_false, rat_eqv_one, decide_true,
      toThe_negone (inv_ne_zero hsg0), inv_inv, pure, Except.pure, adjustExpSignAndBase, Bool.not_true, Bool.and_false, rat_lt_zero]
    norm_num
  · have e' : ¬ r⁻¹ = 1 := by simpa using e
    have hn1 : r⁻¹.num = r.den := by rw [Rat.num_inv, Int.sign_eq_one_of_pos r1]; simp
    have hd1 : (r⁻¹.den : ℤ) = r.num := by rw [Rat.den_inv, if_neg (by omega)]; omega
    have hd2 : (r⁻¹.den = 1) ↔ r.num = 1 := by omega
    simp only [e', e, if_false, toThe_negone (inv_ne_zero hsg0), inv_inv, rat_eqv_zero, inv_eq_zero, r0.ne', decide_false, Bool.false_eq_true,
      rat_eqv_one, pure, Except.pure, adjustExpSignAndBase]
    have hm' : (Number.rat (1 / 2) : Number D).mul (neg 1) = .rat (-(1 / 2)) := by rw [neg_one_def]; simp [Number.mul]
    have hhalf : ¬ ((1 : ℚ) / 2 = 1) := by norm_num
    have hhalf' : ¬ (-((1 : ℚ) / 2) = 1) := by norm_num
    simp only [hhalf, decide_false, Bool.false_eq_true, if_false, hm', hhalf', Bool.not_false, Bool.and_true, rat_lt_zero, hh, decide_true,
      Bool.true_and, isFraction_rat, numerator, toThe_negone (inv_ne_zero r0.ne'), inv_inv, hm, bind, Except.bind]
    by_cases e2 : r.num = 1
    · have e3 : r⁻¹.den = 1 := hd2.2 e2
      have e4 : ¬ r⁻¹.num = 1 := by
        intro h4
        exact e' (one_num_den h4 e3)
      simp only [e2, e3, if_true, ne_eq, not_true_eq_false, decide_false, Bool.or_false, Bool.and_eq_true, beq_iff_eq, e4, false_and, if_false]
    · have e3 : ¬ r⁻¹.den = 1 := fun h => e2 (hd2.1 h)
      simp only [e2, e3, if_false, ne_eq, not_false_eq_true, decide_true, Bool.or_true, if_true]

end NumPowerSimpl

end Tsym
