import Verif.PseudoDiv
import Verif.Props.Values

set_option autoImplicit false
set_option linter.unusedSectionVars false

/-!
# C41: pseudo-division; C42: greatest common divisors of integers
-/

namespace Tsym

open Expr

/-! ## C42 -/

section

variable {D : Type} [Flt D]

theorem integerGcdAux_eq (n : Nat) : ∀ u v : ℤ, v.natAbs < n → (integerGcdAux n u v).natAbs = Int.gcd u v := by
  induction n with
  | zero => intro u v h; omega
  | succ n ih =>
    intro u v h
    unfold integerGcdAux
    split
    · rename_i h0; subst h0; simp
    · rename_i h0
      rw [ih v (u.tmod v) (by
        have : (u.tmod v).natAbs < v.natAbs := by
          rw [Int.natAbs_tmod]
          exact Nat.mod_lt _ (by omega)
        omega)]
      rw [Int.gcd_def, Int.gcd_def, Int.natAbs_tmod, Nat.gcd_comm, Nat.gcd_comm u.natAbs, ← Nat.gcd_rec]

/-- C42: the greatest common divisor, up to its sign: it divides both numbers, and every common divisor
divides it. -/
theorem C42_integer_gcd (u v : ℤ) : integerGcd u v ∣ u ∧ integerGcd u v ∣ v ∧
    ∀ d : ℤ, d ∣ u → d ∣ v → d ∣ integerGcd u v := by
  have h : (integerGcd u v).natAbs = Int.gcd u v := integerGcdAux_eq _ u v (by omega)
  refine ⟨?_, ?_, fun d hu hv => ?_⟩
  · rw [← Int.natAbs_dvd, h]; exact Int.gcd_dvd_left ..
  · rw [← Int.natAbs_dvd, h]; exact Int.gcd_dvd_right ..
  · rw [← Int.dvd_natAbs, h]; exact Int.dvd_coe_gcd hu hv

example : integerGcd 84 (-36) = 12 ∧ integerGcd (-84) 36 = -12 := by decide

mutual
/-- Specification: the numeric coefficients of the terms of a polynomial. -/
def numCoeffs : Expr D → List (Number D)
  | .sum l => numCoeffsList l
  | .num n => [n]
  | .prod (.num n :: _) => [n]
  | _ => [1]
/-- The coefficients of several polynomials. -/
def numCoeffsList : List (Expr D) → List (Number D)
  | [] => []
  | a :: l => numCoeffs a ++ numCoeffsList l
end

/-- Does the integer `k` divide all integers in the list, and is it the greatest such number if there are
integers only? -/
def IsContent (l : List (Number D)) (k : ℤ) : Prop :=
  (∀ z : ℤ, Number.rat z ∈ l → k ∣ z) ∧
  ∀ d : ℤ, (∀ n ∈ l, ∃ z : ℤ, n = .rat z ∧ d ∣ z) → d ∣ k

theorem isContent_single {n : Number D} {c : Number D} (hc : c = if n.abs.isInt then n.abs else 1) :
    ∃ k : ℤ, c = .rat k ∧ IsContent [n] k := by
  have habs : n.abs = n ∨ n.abs = n.neg := by unfold Number.abs; split <;> simp
  by_cases hi : n.abs.isInt = true
  · rw [if_pos hi] at hc
    by_cases hd : ∃ d, n = .dbl d
    · obtain ⟨d, rfl⟩ := hd
      rw [← hc] at hi
      cases c with
      | dbl d => simp [Number.isInt, Number.isRational] at hi
      | rat q =>
        have hq : q.den = 1 := by simpa [Number.isInt, Number.isRational, Number.denominator] using hi
        refine ⟨q.num, by rw [(Rat.den_eq_one_iff q).1 hq], by simp, fun k hk => ?_⟩
        obtain ⟨z, hz, -⟩ := hk _ (List.mem_singleton.2 rfl)
        cases hz
    obtain ⟨z, hz, hzn⟩ : ∃ z : ℤ, n = .rat z ∧ (c = .rat z ∨ c = .rat (-z : ℤ)) := by
      cases n with
      | dbl d => exact absurd ⟨d, rfl⟩ hd
      | rat q =>
        have hq : q.den = 1 := by
          rcases habs with h | h <;> rw [h] at hi <;>
            simpa [Number.isInt, Number.isRational, Number.neg, Number.denominator] using hi
        have hq' : q = (q.num : ℚ) := (Rat.den_eq_one_iff q).1 hq |>.symm
        refine ⟨q.num, by rw [← hq'], ?_⟩
        rw [hc]
        rcases habs with h | h <;> rw [h]
        · left; rw [← hq']
        · right; simp only [Number.neg]; push_cast; rw [← hq']
    have hk : ∀ k : ℤ, k = z ∨ k = -z → IsContent [n] k := by
      intro k hk
      subst hz
      refine ⟨fun w hw => ?_, fun d hd => ?_⟩
      · simp only [List.mem_singleton, Number.rat.injEq, Int.cast_inj] at hw
        subst hw
        rcases hk with rfl | rfl <;> simp
      · obtain ⟨w, hw, hdw⟩ := hd _ (List.mem_singleton.2 rfl)
        simp only [Number.rat.injEq, Int.cast_inj] at hw
        subst hw
        rcases hk with rfl | rfl
        · exact hdw
        · exact (dvd_neg).2 hdw
    rcases hzn with h | h
    · exact ⟨z, h, hk _ (.inl rfl)⟩
    · exact ⟨-z, h, hk _ (.inr rfl)⟩
  · rw [if_neg hi] at hc
    refine ⟨1, by rw [hc, Int.cast_one]; rfl, fun z _ => one_dvd z, fun d hd => ?_⟩
    obtain ⟨z, rfl, -⟩ := hd _ (List.mem_singleton.2 rfl)
    refine absurd ?_ hi
    rcases habs with h | h <;> rw [h]
    · simp [Number.isInt, Number.isRational, Number.denominator]
    · simp [Number.isInt, Number.isRational, Number.denominator, Number.neg]

theorem numericFactor_coeffs {e : Expr D} {n : Number D} (hs : ∀ l, e ≠ .sum l) (h : numericFactor e = .ok n) :
    numCoeffs e = [n] := by
  unfold numericFactor at h
  split at h
  · cases h; simp [numCoeffs]
  · cases h; simp [numCoeffs]
  · cases h
  · cases h
    rename_i h1 h2 h3
    unfold numCoeffs
    split
    · rename_i l; exact absurd rfl (hs l)
    · rename_i m; exact absurd rfl (h1 m)
    · rename_i m l; exact absurd rfl (h2 m l)
    · rfl

theorem isContent_append {l m : List (Number D)} {j k : ℤ} (hj : IsContent l j) (hk : IsContent m k) :
    IsContent (l ++ m) (integerGcd j k) := by
  obtain ⟨h1, h2, h3⟩ := C42_integer_gcd j k
  refine ⟨fun z hz => ?_, fun d hd => ?_⟩
  · rcases List.mem_append.1 hz with hz | hz
    · exact h1.trans (hj.1 z hz)
    · exact h2.trans (hk.1 z hz)
  · exact h3 d (hj.2 d fun n hn => hd n (List.mem_append_left _ hn))
      (hk.2 d fun n hn => hd n (List.mem_append_right _ hn))

mutual
theorem integerContent_spec : ∀ (e : Expr D) (c : Number D), integerContent e = .ok c →
    ∃ k : ℤ, c = .rat k ∧ IsContent (numCoeffs e) k
  | .sum l, c, h => by
    unfold integerContent at h
    cases hl : integerContentOfSum 0 l with
    | error x => rw [hl] at h; cases h
    | ok k =>
      rw [hl] at h
      cases h
      have h1 := integerContentOfSum_spec l 0 k [] hl ⟨by simp, by simp⟩
      refine ⟨k, rfl, ?_⟩
      unfold numCoeffs
      simpa using h1
  | .num n, c, h => by
    rw [integerContent] at h
    cases h
    simpa [numCoeffs] using isContent_single (D := D) (n := n) rfl
    intro _ h; cases h
  | .sym s, c, h => by
    rw [integerContent] at h
    cases h
    simpa [numCoeffs] using isContent_single (D := D) (n := 1) rfl
    intro _ h; cases h
  | .cst s, c, h => by
    rw [integerContent] at h
    cases h
    simpa [numCoeffs] using isContent_single (D := D) (n := 1) rfl
    intro _ h; cases h
  | .undef, c, h => by
    rw [integerContent] at h
    cases h
    simpa [numCoeffs] using isContent_single (D := D) (n := 1) rfl
    intro _ h; cases h
  | .prod l, c, h => by
    rw [integerContent] at h
    · cases hn : numericFactor (.prod l) with
      | error x => rw [hn] at h; cases h
      | ok n =>
        rw [hn] at h
        cases h
        rw [numericFactor_coeffs (by simp) hn]
        exact isContent_single rfl
    · intro _ h; cases h
  | .pow a b, c, h => by
    rw [integerContent] at h
    cases h
    simpa [numCoeffs] using isContent_single (D := D) (n := 1) rfl
    intro _ h; cases h
  | .fn f a, c, h => by
    rw [integerContent] at h
    cases h
    simpa [numCoeffs] using isContent_single (D := D) (n := 1) rfl
    intro _ h; cases h
  | .atan2 a b, c, h => by
    rw [integerContent] at h
    cases h
    simpa [numCoeffs] using isContent_single (D := D) (n := 1) rfl
    intro _ h; cases h
theorem integerContentOfSum_spec : ∀ (l : List (Expr D)) (acc k : ℤ) (m : List (Number D)),
    integerContentOfSum acc l = .ok k → IsContent m acc → IsContent (m ++ numCoeffsList l) k
  | [], acc, k, m, h, hm => by
    unfold integerContentOfSum at h
    cases h
    unfold numCoeffsList
    simpa using hm
  | a :: l, acc, k, m, h, hm => by
    unfold integerContentOfSum at h
    cases ha : integerContent a with
    | error x => rw [ha] at h; cases h
    | ok c =>
      rw [ha] at h
      obtain ⟨j, rfl, hj⟩ := integerContent_spec a c ha
      have hi : (Number.rat (j : ℚ) : Number D).isInt = true := by simp [Number.isInt, Number.isRational, Number.denominator]
      change (if (!(Number.rat (j : ℚ) : Number D).isInt) = true then Except.error Err.assert
        else integerContentOfSum (integerGcd acc (Number.rat (j : ℚ) : Number D).numerator) l) = Except.ok k at h
      rw [hi] at h
      have hnum : (Number.rat (j : ℚ) : Number D).numerator = j := by simp [Number.numerator]
      rw [hnum] at h
      have := integerContentOfSum_spec l _ k (m ++ numCoeffs a) h (isContent_append hm hj)
      unfold numCoeffsList
      rwa [List.append_assoc] at this
end

/-- C42: the integer content divides all integer coefficients, and it is the greatest such number if there
are no other coefficients. -/
theorem C42_content (e : Expr D) (c : Number D) (h : integerContent e = .ok c) :
    ∃ k : ℤ, c = .rat k ∧ (∀ z : ℤ, Number.rat z ∈ numCoeffs e → k ∣ z) ∧
      ∀ d : ℤ, (∀ n ∈ numCoeffs e, ∃ z : ℤ, n = .rat z ∧ d ∣ z) → d ∣ k :=
  integerContent_spec e c h

/-- C42 for two polynomials. -/
theorem C42_content_of_two (u v r : Expr D) (cs : List (Cond D)) (h : integerContent2 u v = .ok (r, cs)) :
    ∃ k : ℤ, r = .int k ∧ (∀ z : ℤ, Number.rat z ∈ numCoeffs u ++ numCoeffs v → k ∣ z) ∧
      ∀ d : ℤ, (∀ n ∈ numCoeffs u ++ numCoeffs v, ∃ z : ℤ, n = .rat z ∧ d ∣ z) → d ∣ k := by
  unfold integerContent2 at h
  obtain ⟨a, c1, c2, h1, h2, rfl⟩ := M.bind_ok.1 h
  obtain ⟨b, c3, c4, h3, h4, rfl⟩ := M.bind_ok.1 h2
  have lift : ∀ {x : Except Err (Number D)} {a : Number D} {cs : List (Cond D)}, M.lift x = .ok (a, cs) → x = .ok a := by
    intro x a cs h
    unfold M.lift at h
    split at h
    · cases h
    · cases h; rfl
  obtain ⟨j, rfl, hj⟩ := integerContent_spec u a (lift h1)
  obtain ⟨k, rfl, hk⟩ := integerContent_spec v b (lift h3)
  have hi : ∀ z : ℤ, (Number.rat (z : ℚ) : Number D).isInt = true := fun z => by
    simp [Number.isInt, Number.isRational, Number.denominator]
  rw [hi, hi] at h4
  cases h4
  refine ⟨integerGcd j k, by simp [Number.numerator], isContent_append hj hk⟩

mutual
theorem integerContent_returns : ∀ e : Expr D, (∀ l, Occurs (.prod l) e → l ≠ []) → ∃ c, integerContent e = .ok c
  | .sum l, h => by
    obtain ⟨k, hk⟩ := integerContentOfSum_returns l 0 fun o ho m hm => h m (.op ho hm)
    exact ⟨.rat k, by rw [integerContent, hk]; rfl⟩
  | .prod [], h => absurd rfl (h [] .refl)
  | .prod (a :: l), _ => by
    have : ∃ n, numericFactor (.prod (a :: l)) = .ok n := by
      unfold numericFactor
      split
      · exact ⟨_, rfl⟩
      · exact ⟨_, rfl⟩
      · rename_i h; cases h
      · exact ⟨_, rfl⟩
    obtain ⟨n, hn⟩ := this
    exact ⟨if n.abs.isInt then n.abs else 1, by rw [integerContent, hn]; rfl; intro _ h; cases h⟩
  | .num n, _ => ⟨_, by rw [integerContent]; rfl; intro _ h; cases h⟩
  | .sym _, _ => ⟨_, by rw [integerContent]; rfl; intro _ h; cases h⟩
  | .cst _, _ => ⟨_, by rw [integerContent]; rfl; intro _ h; cases h⟩
  | .undef, _ => ⟨_, by rw [integerContent]; rfl; intro _ h; cases h⟩
  | .pow _ _, _ => ⟨_, by rw [integerContent]; rfl; intro _ h; cases h⟩
  | .fn _ _, _ => ⟨_, by rw [integerContent]; rfl; intro _ h; cases h⟩
  | .atan2 _ _, _ => ⟨_, by rw [integerContent]; rfl; intro _ h; cases h⟩
theorem integerContentOfSum_returns : ∀ (l : List (Expr D)) (acc : ℤ),
    (∀ o ∈ l, ∀ m, Occurs (.prod m) o → m ≠ []) → ∃ k, integerContentOfSum acc l = .ok k
  | [], acc, _ => ⟨acc, rfl⟩
  | a :: l, acc, h => by
    obtain ⟨c, hc⟩ := integerContent_returns a (h a (by simp))
    obtain ⟨j, rfl, -⟩ := integerContent_spec a c hc
    have hi : (Number.rat (j : ℚ) : Number D).isInt = true := by simp [Number.isInt, Number.isRational, Number.denominator]
    obtain ⟨k, hk⟩ := integerContentOfSum_returns l (integerGcd acc (Number.rat (j : ℚ) : Number D).numerator)
      fun o ho => h o (by simp [ho])
    refine ⟨k, ?_⟩
    rw [integerContentOfSum, hc]
    change (if (!(Number.rat (j : ℚ) : Number D).isInt) = true then Except.error Err.assert
      else integerContentOfSum (integerGcd acc (Number.rat (j : ℚ) : Number D).numerator) l) = Except.ok k
    rw [hi]
    exact hk
end

/-- C42: there is a content whenever no product is empty. -/
theorem C42_content_returns (e : Expr D) (h : ∀ l, Occurs (.prod l) e → l ≠ []) : ∃ c, integerContent e = .ok c :=
  integerContent_returns e h

open ExprEx in
/-- The content of 84*a*b - 36*a + 12. -/
example : integerContent (sum [prod [int 84, a, b], prod [int (-36), a], int 12]) = .ok (.rat 12) := by krfl

end

/-! ## C41: pseudo-division -/

section

variable {D : Type} [Flt D] [LawfulFlt D] {cfg : Cfg D} {n : Nat} {σ : Asg}

/-- C41 for pseudo-division, where the leading coefficient is not zero: the usual power of the leading
coefficient has the exponent deg u - deg v + 1; if the remainder is zero, the quotient may have one
factor more. -/
theorem C41_pseudo_partial (hcfg : cfg.Ok) (hσ : σ.Respects) (u v x : Expr D) (hx : x.isSymbol = true) (a b : ℝ)
    (hu : den σ u = some a) (hv : den σ v = some b) (du dv : ℤ) (hdu : degree x u = .ok du)
    (hdv : degree x v = .ok dv) (lv q r : Expr D) (cs ds : List (Cond D))
    (hlv : leadingCoeff (eng cfg n) x v = .ok (lv, cs))
    (hr : pseudoDivideImpl (eng cfg n) u v x true = .ok ((q, r), ds)) (hc : ∀ c ∈ cs ++ ds, c.holds σ)
    (l : ℝ) (hl : den σ lv = some l) (h0 : l ≠ 0) (hdef : r ≠ .undef) :
    ∃ p y, den σ q = some p ∧ den σ r = some y ∧ ∃ k : ℤ, (k = max (du - dv + 1) 0 ∨
      y = 0 ∧ k = max (du - dv + 1) 0 + 1) ∧ l ^ k * a = p * b + y := by
  unfold pseudoDivideImpl at hr
  obtain ⟨ok, c1, c2, h1, h2, rfl⟩ := M.bind_ok.1 hr
  split at h2
  · have h3 := pseudoDivideChecked_wp (quo := true) (sound_eng hcfg n) hσ hx hu hv hdu hdv (lv, (q, r)) (cs ++ c2)
      (M.bind_ok.2 ⟨lv, cs, c2, hlv, M.bind_ok.2 ⟨(q, r), c2, [], h2, rfl, by simp⟩, rfl⟩)
      (fun c h => hc c (by
        rcases List.mem_append.1 h with h | h
        · exact List.mem_append_left _ h
        · exact List.mem_append_right _ (List.mem_append_right _ h))) l hl h0
    rcases h3 with ⟨p, y, hp, hy, he⟩ | ⟨hz, p, y, hp, hy, he⟩
    · exact ⟨p, y, hp rfl, hy, _, .inl rfl, he⟩
    · exact ⟨p, y, hp rfl, hy, _, .inr ⟨Option.some.inj (hy.symm.trans hz), rfl⟩, he⟩
  · cases h2
    exact absurd rfl hdef

/-- C41 for the pseudo-remainder: the difference to the multiple of u is a multiple of v. -/
theorem C41_remainder_partial (hcfg : cfg.Ok) (hσ : σ.Respects) (u v x : Expr D) (hx : x.isSymbol = true) (a b : ℝ)
    (hu : den σ u = some a) (hv : den σ v = some b) (du dv : ℤ) (hdu : degree x u = .ok du)
    (hdv : degree x v = .ok dv) (lv r : Expr D) (cs ds : List (Cond D))
    (hlv : leadingCoeff (eng cfg n) x v = .ok (lv, cs))
    (hr : pseudoRemainder (eng cfg n) u v x = .ok (r, ds)) (hc : ∀ c ∈ cs ++ ds, c.holds σ)
    (l : ℝ) (hl : den σ lv = some l) (h0 : l ≠ 0) (hdef : r ≠ .undef) :
    ∃ y, den σ r = some y ∧ ∃ k : ℤ, (k = max (du - dv + 1) 0 ∨
      y = 0 ∧ k = max (du - dv + 1) 0 + 1) ∧ ∃ p, l ^ k * a = p * b + y := by
  unfold pseudoRemainder at hr
  obtain ⟨qr, c3, c4, h5, h6, rfl⟩ := M.bind_ok.1 hr
  cases h6
  obtain ⟨q, r⟩ := qr
  unfold pseudoDivideImpl at h5
  obtain ⟨ok, c1, c2, h1, h2, rfl⟩ := M.bind_ok.1 h5
  split at h2
  · have h3 := pseudoDivideChecked_wp (quo := false) (sound_eng hcfg n) hσ hx hu hv hdu hdv (lv, (q, r)) (cs ++ c2)
      (M.bind_ok.2 ⟨lv, cs, c2, hlv, M.bind_ok.2 ⟨(q, r), c2, [], h2, rfl, by simp⟩, rfl⟩)
      (fun c h => hc c (by
        rcases List.mem_append.1 h with h | h
        · exact List.mem_append_left _ h
        · exact List.mem_append_right _ (List.mem_append_left _ (List.mem_append_right _ h)))) l hl h0
    rcases h3 with ⟨p, y, hp, hy, he⟩ | ⟨hz, p, y, hp, hy, he⟩
    · exact ⟨y, hy, _, .inl rfl, p, he⟩
    · exact ⟨y, hy, _, .inr ⟨Option.some.inj (hy.symm.trans hz), rfl⟩, p, he⟩
  · cases h2
    exact absurd rfl hdef

namespace PolyEx

open ExprEx SymEx ValueEx

/-- 5*a^3 + 2*b divided by 3*a + 1. -/
example : (∃ cs, pseudoDivideImpl lib (sum [prod [int 2, b], prod [int 5, pow a (int 3)]]) (sum [int 1, prod [int 3, a]])
    a true = .ok ((sum [int 5, prod [int (-15), a], prod [int 45, pow a (int 2)]], sum [int (-5), prod [int 54, b]]), cs)) ∧
    degree a (sum [prod [int 2, b], prod [int 5, pow a (int 3)]]) = .ok 3 ∧
    degree a (sum [int 1, prod [int 3, a]]) = .ok 1 ∧
    ∃ cs, leadingCoeff lib a (sum [int 1, prod [int 3, a]]) = .ok (int 3, cs) :=
  ⟨M.val_some (by krfl), by krfl, by krfl, M.val_some (by krfl)⟩

/-- The identity with the usual power of the leading coefficient is false if the remainder is zero: 4*a
divided by 2*a gives 8, and 2*4*a is not 8*2*a. -/
theorem C41_false : (∃ cs, pseudoDivideImpl lib (prod [int 4, a]) (prod [int 2, a]) a true = .ok ((int 8, int 0), cs)) ∧
    (∃ cs, leadingCoeff lib a (prod [int 2, a]) = .ok (int 2, cs)) ∧
    degree a (prod [int 4, a]) = .ok 1 ∧ degree a (prod [int 2, a]) = .ok 1 ∧
    den (all 3) (prod [int 4, a]) = some 12 ∧ den (all 3) (prod [int 2, a]) = some 6 ∧
    (2 : ℝ) ^ (max (1 - 1 + 1) 0 : ℤ) * 12 ≠ 8 * 6 + 0 := by
  refine ⟨M.val_some (by krfl), M.val_some (by krfl), by krfl, by krfl, ?_, ?_, by norm_num⟩
  · simp [denProd, all]; norm_num
  · simp [denProd, all]; norm_num

end PolyEx

end

end Tsym
