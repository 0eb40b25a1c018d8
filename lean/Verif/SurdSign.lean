import Verif.Props.SurdMul

set_option autoImplicit false
set_option linter.unusedSectionVars false
set_option linter.unusedSimpArgs false
set_option linter.unusedVariables false

/-!
# Helper lemmas: powers of sums of integer multiples of square roots

Changing the sign of all roots of multiples of a prime number goes through products. So a power of a sum with at least two summands has at
least two.
-/

namespace Tsym.Sd

open Expr NumPowerSimpl

variable {D : Type} [Flt D] [LawfulFlt D] {cfg : Cfg D}

/-- The sign of a number below a root. -/
def sg (p n : ℕ) : ℚ := if p ∣ n then -1 else 1

theorem sg_cases (p n : ℕ) : sg p n = 1 ∨ sg p n = -1 := by unfold sg; split <;> simp

theorem sg_ne (p n : ℕ) : sg p n ≠ 0 := by rcases sg_cases p n with h | h <;> rw [h] <;> norm_num

theorem sg_below {p : ℕ} (hp : p.Prime) {a b : ℕ} (ha : Squarefree a) (hb : Squarefree b) : sg p (below a b) = sg p a * sg p b := by
  have e1 := Nat.div_mul_cancel (Nat.gcd_dvd_left a b)
  have e2 := Nat.div_mul_cancel (Nat.gcd_dvd_right a b)
  have hg := Nat.dvd_gcd_iff (k := p) (m := a) (n := b)
  have np : ∀ {x g : ℕ}, Squarefree (x * g) → p ∣ g → ¬ p ∣ x := fun {x g} h h1 h2 => by
    have := h p (mul_dvd_mul h2 h1)
    exact hp.one_lt.ne' (Nat.isUnit_iff.1 this)
  have na := np (x := a / a.gcd b) (g := a.gcd b) (by rw [e1]; exact ha)
  have nb := np (x := b / a.gcd b) (g := a.gcd b) (by rw [e2]; exact hb)
  have da : p ∣ a ↔ p ∣ a / a.gcd b ∨ p ∣ a.gcd b := by rw [← hp.dvd_mul, e1]
  have db : p ∣ b ↔ p ∣ b / a.gcd b ∨ p ∣ a.gcd b := by rw [← hp.dvd_mul, e2]
  have dd : p ∣ below a b ↔ p ∣ a / a.gcd b ∨ p ∣ b / a.gcd b := hp.dvd_mul
  unfold sg
  by_cases h1 : p ∣ a / a.gcd b <;> by_cases h2 : p ∣ b / a.gcd b <;> by_cases h3 : p ∣ a.gcd b <;> simp only [h1, h2, h3, true_or, or_true, or_self, iff_true, iff_false, true_and, and_true, not_true, not_false_iff, imp_false, false_imp_iff, forall_const] at na nb da db dd hg
  all_goals try simp only [da, db, dd, if_true, if_false]
  all_goals norm_num
  all_goals exact (hg.2 ⟨da, db⟩).elim

/-- The signs changed. -/
def flip (p : ℕ) (L : List Mo) : List Mo := L.map fun m => (sg p m.2 * m.1, m.2)

theorem sg_den (p n : ℕ) : (sg p n).den = 1 := by rcases sg_cases p n with h | h <;> rw [h] <;> rfl

theorem SL.flip {p : ℕ} {L : List Mo} (h : SL L) : SL (flip p L) := by
  refine ⟨fun m hm => ?_, ?_⟩
  · obtain ⟨n, hn, rfl⟩ := List.mem_map.1 hm
    exact SM.mul (sg_ne p n.2) (by rw [sg_den]; simp) (h.sm n hn)
  · unfold Sd.flip; rw [List.pairwise_map]; exact h.sorted

theorem co_flip (p : ℕ) (L : List Mo) (n : ℕ) : co (flip p L) n = sg p n * co L n := by
  induction L with
  | nil => simp [flip]
  | cons m L ih =>
    have : flip p (m :: L) = (sg p m.2 * m.1, m.2) :: flip p L := rfl
    rw [this, co_cons, co_cons, Finsupp.add_apply, Finsupp.add_apply, ih, mul_add, Finsupp.single_apply, Finsupp.single_apply]
    split
    · rename_i h; simp only at h; rw [h]
    · simp

theorem list_apply (l : List (ℕ →₀ ℚ)) (n : ℕ) : l.sum n = (l.map fun f => f n).sum := by
  induction l with
  | nil => rfl
  | cons f l ih => rw [List.sum_cons, Finsupp.add_apply, ih, List.map_cons, List.sum_cons]

theorem coMul_flip {p : ℕ} (hp : p.Prime) {L M : List Mo} (hL : ∀ m ∈ L, Squarefree m.2) (hM : ∀ m ∈ M, Squarefree m.2) (n : ℕ) :
    coMul (flip p L) (flip p M) n = sg p n * coMul L M n := by
  unfold coMul flip
  rw [list_apply, list_apply, List.map_map, List.map_map, List.map_map]
  rw [← List.sum_map_mul_left]
  congr 1
  refine List.map_congr_left fun a ha => ?_
  simp only [Function.comp_apply]
  rw [list_apply, list_apply, List.map_map, List.map_map, List.map_map, ← List.sum_map_mul_left]
  congr 1
  refine List.map_congr_left fun b hb => ?_
  simp only [Function.comp_apply, mulM, co_cons, co_nil, add_zero, Finsupp.single_apply]
  split
  · rename_i h
    rw [← h, sg_below hp (hL a ha) (hM b hb)]; ring
  · simp

/-- The powers of a list of summands. -/
inductive Pw (L : List Mo) : ℕ → List Mo → Prop
  | one : Pw L 1 L
  | succ {k : ℕ} {R R' : List Mo} (h : Pw L k R) (hm : Mul R L R') : Pw L (k + 1) R'

theorem Pw.sl {L R : List Mo} {k : ℕ} (hL : SL L) (h : Pw L k R) : SL R := by
  cases h with
  | one => exact hL
  | succ h hm => exact hm.sl

theorem Pw.pos {L R : List Mo} {k : ℕ} (h : Pw L k R) : k ≠ 0 := by cases h <;> simp

theorem Pw.flip {L R : List Mo} {k p : ℕ} (hp : p.Prime) (hL : SL L) (h : Pw L k R) : Pw (flip p L) k (flip p R) := by
  induction h with
  | one => exact .one
  | @succ k R R' h hm ih =>
    refine .succ ih ⟨hm.sl.flip, ?_⟩
    ext n
    rw [co_flip, hm.co, coMul_flip hp (fun m hx => ((h.sl hL).sm m hx).sf) fun m hx => (hL.sm m hx).sf]

theorem Pw.value {L R : List Mo} {k : ℕ} (hL : SL L) (h : Pw L k R) : Surds.value R = Surds.value L ^ k := by
  induction h with
  | one => simp
  | @succ k R R' h hm ih => rw [Surds.value_mul (Surds.ok_of (h.sl hL)) (Surds.ok_of hL) hm, ih, pow_succ]

/-- A power of a sum of at least two summands has at least two. -/
theorem Pw.two {L R : List Mo} {k : ℕ} (hL : SL L) (h2 : 2 ≤ L.length) (h : Pw L k R) : 2 ≤ R.length := by
  by_contra hlt
  have hR := h.sl hL
  -- a prime that divides one of two numbers
  obtain ⟨m, n, L', rfl⟩ : ∃ m n L', L = m :: n :: L' := by
    match L, h2 with
    | m :: n :: L', _ => exact ⟨m, n, L', rfl⟩
  have hmn : m.2 ≠ n.2 := (hL.cons.2.2 n (by simp)).ne
  have sm := (hL.sm m (by simp)).sf
  have sn := (hL.sm n (by simp)).sf
  obtain ⟨p, hp, hpd⟩ : ∃ p : ℕ, p.Prime ∧ ¬ (p ∣ m.2 ↔ p ∣ n.2) := by
    by_contra hno
    push Not at hno
    exact hmn ((Nat.Squarefree.ext_iff sm sn).2 fun p hp => hno p hp)
  have hsg : sg p m.2 ≠ sg p n.2 := by
    unfold sg
    by_cases h1 : p ∣ m.2 <;> by_cases h2 : p ∣ n.2
    · exact absurd (by simp [h1, h2]) hpd
    · simp only [h1, h2, if_true, if_false]; norm_num
    · simp only [h1, h2, if_true, if_false]; norm_num
    · exact absurd (by simp [h1, h2]) hpd
  have hv := h.value hL
  have hv' := (h.flip hp hL).value hL.flip
  have habs : |Surds.value (Sd.flip p R)| = |Surds.value R| := by
    match R, hlt with
    | [], _ => rfl
    | [x], _ =>
      simp only [Sd.flip, List.map_cons, List.map_nil, Surds.value, List.sum_cons, List.sum_nil, add_zero]
      rcases sg_cases p x.2 with e | e <;> rw [e] <;> simp
    | _ :: _ :: _, hlt => exact absurd (by simp) hlt
  rw [hv, hv', abs_pow, abs_pow] at habs
  have he : |Surds.value (Sd.flip p (m :: n :: L'))| = |Surds.value (m :: n :: L')| := (pow_left_inj₀ (abs_nonneg _) (abs_nonneg _) h.pos).1 habs
  have hm0 : co (m :: n :: L') m.2 = m.1 ∧ m.1 ≠ 0 := (hL.mem_iff m).1 (by simp)
  have hn0 : co (m :: n :: L') n.2 = n.1 ∧ n.1 ≠ 0 := (hL.mem_iff n).1 (by simp)
  have okL := Surds.ok_of hL
  have okF := Surds.ok_of (hL.flip (p := p))
  rcases abs_eq_abs.1 he with e | e
  · have := ((C89_equal (D := Hyb) _ _ okF okL).2).1 (((C89_equal (D := Hyb) _ _ okF okL).1).2 e)
    have h1 := this m.2
    have h2 := this n.2
    rw [Surds.coeff_eq, Surds.coeff_eq, co_flip, hm0.1] at h1
    rw [Surds.coeff_eq, Surds.coeff_eq, co_flip, hn0.1] at h2
    exact hsg (by rw [(mul_eq_right₀ hm0.2).1 h1, (mul_eq_right₀ hn0.2).1 h2])
  · have hs := hL.scale (p := -1) (by norm_num) (fun m _ => by simp)
    have okS := Surds.ok_of hs
    have hsv : Surds.value (Sd.scale (-1) (m :: n :: L')) = -Surds.value (m :: n :: L') := by
      generalize m :: n :: L' = K
      induction K with
      | nil => simp [Surds.value, Sd.scale]
      | cons x K ih =>
        simp only [Surds.value, Sd.scale, List.map_cons, List.sum_cons] at ih ⊢
        rw [ih]; push_cast; ring
    have := ((C89_equal (D := Hyb) _ _ okF okS).2).1 (((C89_equal (D := Hyb) _ _ okF okS).1).2 (by rw [e, hsv]))
    have h1 := this m.2
    have h2 := this n.2
    rw [Surds.coeff_eq, Surds.coeff_eq, co_flip, co_scale, hm0.1] at h1
    rw [Surds.coeff_eq, Surds.coeff_eq, co_flip, co_scale, hn0.1] at h2
    exact hsg (by rw [mul_right_cancel₀ hm0.2 h1, mul_right_cancel₀ hn0.2 h2])

theorem below_dvd {a b P : ℕ} (ha : a ∣ P) (hb : b ∣ P) : below a b ∣ P := by
  refine Dvd.dvd.trans ?_ (Nat.lcm_dvd ha hb)
  refine ⟨a.gcd b, ?_⟩
  unfold below Nat.lcm
  have e2 := Nat.div_mul_cancel (Nat.gcd_dvd_right a b)
  rw [mul_assoc, e2, Nat.div_mul_right_comm (Nat.gcd_dvd_left a b)]

theorem Mul.dvd {L M R : List Mo} {P : ℕ} (h : Mul L M R) (hL : ∀ m ∈ L, m.2 ∣ P) (hM : ∀ m ∈ M, m.2 ∣ P) : ∀ m ∈ R, m.2 ∣ P := by
  intro m hm
  have h0 := (h.sl.mem_iff m).1 hm
  by_contra hn
  refine h0.2 ?_
  rw [← h0.1, h.co]
  unfold coMul
  rw [list_apply, List.map_map]
  refine List.sum_eq_zero fun x hx => ?_
  obtain ⟨a, ha, rfl⟩ := List.mem_map.1 hx
  simp only [Function.comp_apply]
  rw [list_apply, List.map_map]
  refine List.sum_eq_zero fun x hx => ?_
  obtain ⟨b, hb, rfl⟩ := List.mem_map.1 hx
  simp only [Function.comp_apply, mulM, co_cons, co_nil, add_zero, Finsupp.single_apply]
  rw [if_neg]
  intro e
  exact hn (e ▸ below_dvd (hL a ha) (hM b hb))

theorem Pw.zm {L R : List Mo} {k : ℕ} (hZ : ∀ m ∈ L, ZM m) (h : Pw L k R) : ∀ m ∈ R, ZM m := by
  induction h with
  | one => exact hZ
  | succ h hm ih => exact zm_of hm ih hZ

theorem Pw.dvd {L R : List Mo} {k P : ℕ} (hP : ∀ m ∈ L, m.2 ∣ P) (h : Pw L k R) : ∀ m ∈ R, m.2 ∣ P := by
  induction h with
  | one => exact hP
  | succ h hm ih => exact hm.dvd ih hP

variable {L : List Mo}

/-- Expanding a power of a sum. -/
theorem tot_expandSums_pw (hc : cfg.Ok) (hub : cfg.strictUb = false) (h1 : 1 ≤ cfg.maxPrime) (hL : SL L) (h2 : 2 ≤ L.length)
    (hZ : ∀ n ∈ L, ZM n) {P : ℕ} (hP : ∀ m ∈ L, m.2 ∣ P) (hP0 : 0 < P) (hmax : ∀ m ∈ L, ((P * m.2 : ℕ) : ℤ) ≤ cfg.maxPrime) (j : ℕ) :
    ∀ {k : ℕ} {R : List Mo}, Pw L k R →
    ∃ R', Tot cfg (fun E => expandSums E (.sum (R.map (em (D := D)))) (List.replicate j (.sum (L.map em)))) (.sum (R'.map em)) ∧ Pw L (k + j) R' := by
  induction j with
  | zero => intro k R h; exact ⟨R, by simp only [List.replicate_zero, expandSums]; exact tot_pure _, h⟩
  | succ j ih =>
    intro k R h
    have hR := h.sl hL
    have hR2 := h.two hL h2
    obtain ⟨R1, hR1, A⟩ := tot_expandTwo (D := D) hc hub h1 hR hL (by rintro rfl; simp at hR2) h2 (h.zm hZ) hZ (fun m hm n hn => by
      refine le_trans ?_ (hmax n hn)
      have := Nat.le_of_dvd hP0 (h.dvd hP m hm)
      exact_mod_cast Nat.mul_le_mul_right _ this)
    have h' := h.succ A
    obtain ⟨R', hR', hp⟩ := ih h'
    refine ⟨R', ?_, by rw [show k + (j + 1) = k + 1 + j by omega]; exact hp⟩
    rw [sumOf_two (h'.two hL h2)] at hR1
    simp only [List.replicate_succ, expandSums, bind_pure] at hR1 ⊢
    have key := tot_bind (g := fun E s => expandSums E s (List.replicate j (.sum (L.map (em (D := D)))))) hR1 hR'
    simpa only [bind_assoc] using key

theorem tot_expand_power (hc : cfg.Ok) (hub : cfg.strictUb = false) (h1 : 1 ≤ cfg.maxPrime) (hL : SL L) (h2 : 2 ≤ L.length)
    (hZ : ∀ n ∈ L, ZM n) {P : ℕ} (hP : ∀ m ∈ L, m.2 ∣ P) (hP0 : 0 < P) (hmax : ∀ m ∈ L, ((P * m.2 : ℕ) : ℤ) ≤ cfg.maxPrime) (j : ℕ) :
    ∃ R, Tot cfg (fun E => E.expand (.pow (.sum (L.map (em (D := D)))) (num (.rat ((j + 1 : ℕ) : ℚ))))) (.sum (R.map em)) ∧ Pw L (j + 1) R := by
  obtain ⟨R, hR, hp⟩ := tot_expandSums_pw (D := D) hc hub h1 hL h2 hZ hP hP0 hmax j .one
  rw [add_comm] at hp
  refine ⟨R, ?_, hp⟩
  have hd : ∀ i, Tot cfg (fun E => defScalarAndSums E (List.replicate i (.sum (L.map (em (D := D)))))) ([], List.replicate i (.sum (L.map em))) := by
    intro i
    induction i with
    | zero => exact tot_pure _
    | succ i ih =>
      simp only [List.replicate_succ, defScalarAndSums]
      refine tot_bind (expand_sum hL h2) (tot_bind ih ?_)
      simp only [show (Expr.sum (L.map (em (D := D)))).isSum = true from rfl, if_true]; exact tot_pure _
  refine tot_expand ?_
  simp only [expand]
  refine tot_bind (tot_lift (Qf.isInteger_rat _)) ?_
  simp only [Rat.den_natCast, decide_true, if_true, expandSumBaseIntExp]
  refine tot_bind (a := .rat ((j + 1 : ℕ) : ℚ)) (tot_pure _) ?_
  have e : (Number.rat ((j + 1 : ℕ) : ℚ) : Number D).numerator = ((j + 1 : ℕ) : ℤ) := Rat.num_natCast _
  rw [e]
  refine tot_bind (a := .sum (R.map em)) (tot_expandAsProduct ?_) ?_
  · rw [Int.natAbs_natCast]
    refine tot_expandAsProduct_cons (hd (j + 1)) (scalar := one) ?_ hR (tot_oneSum hc (hp.sl hL) (hp.two hL h2))
    simp only [List.isEmpty_nil, if_true]; exact tot_pure _
  · have : ¬ ((j + 1 : ℕ) : ℤ) < 0 := by omega
    simp only [this, if_false]; exact tot_pure _

end Tsym.Sd
