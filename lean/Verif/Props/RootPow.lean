import Verif.RootPow
import Verif.Props.PowExact

set_option autoImplicit false
set_option linter.unusedSectionVars false
set_option linter.unusedSimpArgs false

/-!
# C86: the results of powers of rational numbers

A positive rational number to a rational power that is no integer gives a number, a root, or a number times a root.
The root is reduced: its exponent is between 0 and 1, no prime can be taken out of it, and its primes have no common
exponent. Such a root, and a number times it that shares no prime with it crosswise, stay as they are.
-/

namespace Tsym

open Expr NumPowerSimpl PowExact

/-! ## Specification -/

namespace RootPow

/-- The root of `r` with the exponent `f` is reduced: nothing can be taken out, and the primes have no common exponent. -/
structure Reduced (r f : ℚ) : Prop where
  pos : 0 < r
  ne_one : r ≠ 1
  exp_pos : 0 < f
  exp_lt : f < 1
  low_num : ∀ p, p.Prime → ¬ p ^ f.den ∣ r.num.natAbs
  low_den : ∀ p, p.Prime → ¬ p ^ f.den ∣ r.den
  single : ∀ c, 2 ≤ c → ¬ ((Nothing f.den r.num.natAbs ∨ Common f.den r.num.natAbs c) ∧ (Nothing f.den r.den ∨ Common f.den r.den c))

/-- No prime can be cancelled between `q` and what is below the root. -/
def Apart (q r : ℚ) : Prop := Nat.Coprime q.num.natAbs r.den ∧ Nat.Coprime q.den r.num.natAbs

/-- The results: a number, a root, a number times a root. -/
inductive Normal {D : Type} : Expr D → Prop
  | num (q : ℚ) (hq : 0 < q) : Normal (.num (.rat q))
  | root (r f : ℚ) (h : Reduced r f) : Normal (RootsN.root r f)
  | prod (q r f : ℚ) (hq : 0 < q) (hq1 : q ≠ 1) (h : Reduced r f) (ha : Apart q r) : Normal (.prod [.num (.rat q), RootsN.root r f])

end RootPow

open RootPow

/-! ## Proofs -/

theorem PrimeFac.exists_canon {r : ℚ} (hr : 0 < r) : ∃ P : PrimeFac, P.Canon r := by
  have hn := Rat.num_pos.2 hr
  have h0 : r.num.natAbs ≠ 0 := by omega
  refine ⟨⟨r.num.natAbs.primeFactorsList, r.den.primeFactorsList⟩, fun x hx => Nat.prime_of_mem_primeFactorsList hx,
    fun x hx => Nat.prime_of_mem_primeFactorsList hx, (Nat.primeFactorsList_sorted _).pairwise, (Nat.primeFactorsList_sorted _).pairwise, fun x h1 h2 => ?_, ?_⟩
  · exact Nat.not_coprime_of_dvd_of_dvd (Nat.prime_of_mem_primeFactorsList h1).one_lt (Nat.dvd_of_mem_primeFactorsList h1)
      (Nat.dvd_of_mem_primeFactorsList h2) r.reduced
  · unfold PrimeFac.value
    simp only [Nat.prod_primeFactorsList h0, Nat.prod_primeFactorsList r.den_nz]
    conv_rhs => rw [← Rat.num_div_den r]
    congr 1
    rw [← Int.cast_natCast, Int.natAbs_of_nonneg hn.le]

theorem low_iff {d N : ℕ} (hd : d ≠ 0) (h0 : N ≠ 0) : (∀ p, p.Prime → ¬ p ^ d ∣ N) ↔ ∀ p, N.factorization p < d := by
  constructor
  · intro h p
    by_cases hp : p.Prime
    · by_contra hc
      exact h p hp ((hp.pow_dvd_iff_le_factorization h0).2 (not_lt.1 hc))
    · rw [Nat.factorization_eq_zero_of_not_prime N hp]; omega
  · intro h p hp hc
    have := (hp.pow_dvd_iff_le_factorization h0).1 hc
    have := h p
    omega

section

variable {D : Type} [Flt D] [LawfulFlt D] {cfg : Cfg D}

theorem RootPow.canon_iff {r f : ℚ} (h0 : 0 < r) (h1 : r ≠ 1) (hf : 0 < f) (hf1 : f < 1) {P : PrimeFac} (hP : P.Canon r) :
    ((∀ z, P.num.count z < f.den) ∧ (∀ z, P.den.count z < f.den) ∧ ∃ c, P.equalCount = .ok c ∧ c ≤ 1) ↔ Reduced r f := by
  obtain ⟨k0, k1, k2⟩ := exp_parts hf hf1
  have hn := Rat.num_pos.2 h0
  obtain ⟨n1, n2⟩ := hP.nums
  have n1' : P.num.prod = r.num.natAbs := by rw [← n1, Int.natAbs_natCast]
  have c1 : ∀ z, P.num.count z = r.num.natAbs.factorization z := PrimeFac.count_fact hP.pn n1'
  have c2 : ∀ z, P.den.count z = r.den.factorization z := PrimeFac.count_fact hP.pd n2
  have l1 := low_iff (d := f.den) f.den_nz (N := r.num.natAbs) (by omega)
  have l2 := low_iff (d := f.den) f.den_nz (N := r.den) r.den_nz
  have hl : ∀ {N : ℕ}, (∀ p, N.factorization p < f.den) → ∀ z, left f.den N z = N.factorization z := fun h z => by
    rw [left, if_neg (by omega), Nat.mod_eq_of_lt (h z)]
  obtain ⟨c, hc, hc'⟩ := PrimeFac.equalCount_shared hP.sn hP.sd (canon_nil hP h1)
  constructor
  · rintro ⟨a1, a2, c', e1, e2⟩
    rw [hc] at e1
    obtain rfl := Except.ok.inj e1
    have b1 : ∀ p, r.num.natAbs.factorization p < f.den := fun p => by rw [← c1]; exact a1 p
    have b2 : ∀ p, r.den.factorization p < f.den := fun p => by rw [← c2]; exact a2 p
    refine ⟨h0, h1, hf, hf1, l1.2 b1, l2.2 b2, fun k hk hh => ?_⟩
    have := (hc' k hk).2 ⟨(shared_iff hk hP.pn hP.sn (fun z => by rw [hl b1, c1])).2 hh.1, (shared_iff hk hP.pd hP.sd (fun z => by rw [hl b2, c2])).2 hh.2⟩
    omega
  · intro h
    have b1 := l1.1 h.low_num
    have b2 := l2.1 h.low_den
    refine ⟨fun z => by rw [c1]; exact b1 z, fun z => by rw [c2]; exact b2 z, c, hc, ?_⟩
    by_contra hk
    have hk2 : 2 ≤ c := by omega
    obtain ⟨s1, s2⟩ := (hc' c hk2).1 rfl
    exact h.single c hk2 ⟨(shared_iff hk2 hP.pn hP.sn (fun z => by rw [hl b1, c1])).1 s1, (shared_iff hk2 hP.pd hP.sd (fun z => by rw [hl b2, c2])).1 s2⟩

theorem RootPow.Reduced.stable {max : ℤ} {r f : ℚ} (hd : (f.den : ℤ) < 4294967295) (h : Roots.Within max r → Reduced r f) (h0 : 0 < r) (h1 : r ≠ 1) (hf : 0 < f) (hf1 : f < 1) :
    Stable max r f := by
  obtain ⟨k0, k1, k2⟩ := exp_parts hf hf1
  have hu : Number.unsignedMax = 4294967295 := by decide +kernel
  exact ⟨h0, h1, hf, hf1, by rw [hu]; omega, fun hs P hP => (canon_iff h0 h1 hf hf1 hP).2 (h (Roots.within_iff.2 hs))⟩

theorem RootPow.reduced_of_stable {r f : ℚ} (h : ∀ max, Stable max r f) : Reduced r f := by
  have h0 := (h 0).pos
  obtain ⟨P, hP⟩ := PrimeFac.exists_canon h0
  have hs : SmallQ (max |r.num| r.den) r := Roots.within_iff.1 ⟨le_max_left _ _, le_max_right _ _⟩
  exact (canon_iff h0 (h 0).ne (h 0).epos (h 0).elt hP).1 ((h _).keep hs P hP)

theorem RootPow.numRootN_normal {q r f : ℚ} (hq : 0 < q) (h : ∀ max, Stable max r f) (ha : Cross r q) : Normal (numRootN q r f : Expr D) := by
  have hr := reduced_of_stable h
  unfold numRootN
  split
  · rw [← RootsN.root_eq]; exact .root r f hr
  · rename_i hq1
    rw [← RootsN.root_eq]; exact .prod q r f hq hq1 hr ha

theorem RootPow.numRootN_den (σ : Asg) {q r f : ℚ} (hr : 0 < r) : den σ (numRootN q r f : Expr D) = some ((q : ℝ) * (r : ℝ) ^ (f : ℝ)) := by
  have h := (C84_value (D := D) σ r f hr).2
  rw [RootsN.root_eq] at h
  unfold numRootN
  split
  · rename_i hq
    rw [h, hq]; simp
  · rw [den_prod]
    exact denProd_two (by simp [den, Number.val]) h

theorem RootPow.pow_cases {b x : ℚ} (hb : 0 < b) (hb1 : b ≠ 1) (hx : 0 < x) (hd : 2 ≤ x.den) (hk : x.num < 4294967295)
    (hdm : (x.den : ℤ) < 4294967295) (hw : Roots.Within cfg.maxPrime b) :
    ∃ (v w : Expr D) (g : Bool), Normal v ∧ Normal w ∧
      TotC cfg (if g then [] else [.fail]) (fun E => powCreate E (num (.rat b)) (num (.rat x))) v ∧
      TotC cfg (if g then [] else [.fail]) (fun E => powCreate E (num (.rat b)) (num (.rat (-x)))) w ∧
      (∃ y : ℝ, 0 < y ∧ (∀ σ, den σ v = some y ∧ den σ w = some y⁻¹) ∧ (y = (b : ℝ) ^ (x : ℝ) ↔ g = true)) ∧
      (g = true ↔ ¬ Mistaken x.den b) := by
  have hu : Number.unsignedMax = 4294967295 := by decide +kernel
  obtain ⟨B, X, Q, g, hpos, hB, hQ, hg, hcase⟩ := totC_pow_small (D := D) (cfg := cfg) hb hb1 hx hd (by rw [hu]; exact hk) (by rw [hu]; exact hdm) (Roots.within_iff.1 hw)
  obtain ⟨B', X', Q', g', hpos', -, -, hg'⟩ := computePos_run (D := D) (max := cfg.maxPrime) hb hx (by rw [hu]; exact hk) (by rw [hu]; exact hdm) (fun h => by omega)
  rw [hpos] at hpos'
  simp only [Except.ok.injEq, Prod.mk.injEq, Payload.mk.injEq, Number.rat.injEq] at hpos'
  obtain ⟨⟨rfl, rfl, rfl⟩, rfl⟩ := hpos'
  have hm : g = true ↔ ¬ Mistaken x.den b := by
    rw [← hg, hg']
    exact ⟨fun h hm => h ⟨hw, hm⟩, fun h hm => h hm.2⟩
  have hBr : (0 : ℝ) < B := by exact_mod_cast hB
  have hQr : (0 : ℝ) < Q := by exact_mod_cast hQ
  rcases hcase with ⟨rfl, rfl, t1, t2⟩ | ⟨hS, hc, t1, t2⟩
  · refine ⟨_, _, g, .num _ hB, .num _ (inv_pos.2 hB), t1, t2, ⟨(B : ℝ), hBr, fun σ => ?_, ?_⟩, hm⟩
    · simp [den, Number.val]
    · rw [← hg]; simp
  · refine ⟨_, _, g, numRootN_normal hQ hS hc, numRootN_normal (inv_pos.2 hQ) (fun max => (hS max).inv) (hc.inv hB hQ), t1, t2,
      ⟨(Q : ℝ) * (B : ℝ) ^ (X : ℝ), by positivity, fun σ => ⟨numRootN_den σ hB, ?_⟩, hg⟩, hm⟩
    rw [numRootN_den σ (inv_pos.2 hB)]
    push_cast
    rw [Real.inv_rpow hBr.le, mul_inv]

/-- Both signs of the exponent. -/
theorem RootPow.pow_all {b e : ℚ} (hb : 0 < b) (hb1 : b ≠ 1) (hd : e.den ≠ 1) (hk : |e.num| < 4294967295)
    (hdm : (e.den : ℤ) < 4294967295) (hw : Roots.Within cfg.maxPrime b) :
    ∃ (v : Expr D) (g : Bool), Normal v ∧
      TotC cfg (if g then [] else [.fail]) (fun E => powCreate E (num (.rat b)) (num (.rat e))) v ∧
      (∃ y : ℝ, (∀ σ, den σ v = some y) ∧ (y = (b : ℝ) ^ (e : ℝ) ↔ g = true)) ∧
      (g = true ↔ ¬ Mistaken e.den b) := by
  have hdp := e.den_pos
  have he0 : e ≠ 0 := by rintro rfl; simp at hd
  have hbr : (0 : ℝ) < b := by exact_mod_cast hb
  rcases lt_or_gt_of_ne he0 with hn | hp
  · have hnum : (-e).num = |e.num| := by rw [Rat.neg_num, abs_of_neg (Rat.num_neg.2 hn)]
    obtain ⟨v, w, g, -, nw, -, t, ⟨y, hy, hv, hg⟩, hm⟩ := pow_cases (D := D) (cfg := cfg) (x := -e) hb hb1 (by linarith) (by rw [Rat.neg_den]; omega)
      (by rw [hnum]; exact hk) (by rw [Rat.neg_den]; exact hdm) hw
    rw [neg_neg] at t
    rw [Rat.neg_den] at hm
    refine ⟨w, g, nw, t, ⟨y⁻¹, fun σ => (hv σ).2, ?_⟩, hm⟩
    rw [← hg]
    push_cast
    rw [Real.rpow_neg hbr.le]
    exact ⟨fun h => by rw [← h, inv_inv], fun h => by rw [h, inv_inv]⟩
  · obtain ⟨v, w, g, nv, -, t, -, ⟨y, hy, hv, hg⟩, hm⟩ := pow_cases (D := D) (cfg := cfg) (x := e) hb hb1 hp (by omega)
      (by rw [← abs_of_pos (Rat.num_pos.2 hp)]; exact hk) hdm hw
    exact ⟨v, g, nv, t, ⟨y, fun σ => (hv σ).1, hg⟩, hm⟩

/-! ## C86 -/

/-- C86. A power within the limit for primes, with an exponent that is no integer and no mistaken common exponent: the result is a
number, a reduced root, or a number times one, its value is the power, and there are no conditions. -/
theorem C86_pow (b e : ℚ) (hb : 0 < b) (hb1 : b ≠ 1) (hd : e.den ≠ 1) (hk : |e.num| < 4294967295) (hdm : (e.den : ℤ) < 4294967295)
    (hw : Roots.Within cfg.maxPrime b) (hm : ¬ Mistaken e.den b) :
    ∃ v : Expr D, Normal v ∧ Gives cfg (fun E => Api.pow E (.num (.rat b) : Expr D) (.num (.rat e))) v ∧
      ∀ σ, den σ v = some ((b : ℝ) ^ (e : ℝ)) := by
  obtain ⟨v, g, nv, t, ⟨y, hv, hg⟩, hgm⟩ := pow_all (D := D) (cfg := cfg) hb hb1 hd hk hdm hw
  have h1 := hgm.2 hm
  subst h1
  exact ⟨v, nv, pow_gives t, fun σ => by rw [hv, hg.2 rfl]⟩

/-- C86. With a mistaken common exponent the result has the same form, but another value: the model records that the value is lost. -/
theorem C86_wrong (b e : ℚ) (hb : 0 < b) (hb1 : b ≠ 1) (hd : e.den ≠ 1) (hk : |e.num| < 4294967295) (hdm : (e.den : ℤ) < 4294967295)
    (hw : Roots.Within cfg.maxPrime b) (hm : Mistaken e.den b) :
    ∃ v : Expr D, Normal v ∧ (∃ N, ∀ n, N ≤ n → Api.pow (eng cfg n) (.num (.rat b) : Expr D) (.num (.rat e)) = .ok (v, [.fail])) ∧
      ∀ σ, ∃ y, den σ v = some y ∧ y ≠ (b : ℝ) ^ (e : ℝ) := by
  obtain ⟨v, g, nv, t, ⟨y, hv, hg⟩, hgm⟩ := pow_all (D := D) (cfg := cfg) hb hb1 hd hk hdm hw
  have h1 : g = false := by
    cases g
    · rfl
    · exact absurd hm (hgm.1 rfl)
  subst h1
  exact ⟨v, nv, totC_succ (g := fun E => E.powCreate (num (.rat b)) (num (.rat e))) (fun _ => rfl) t, fun σ => ⟨y, hv σ, fun h => by simpa using hg.1 h⟩⟩

/-- C86. Above the limit for primes a power stays as it is, only with a positive exponent unless the numerator would be one. -/
theorem C86_large (b e : ℚ) (hb : 0 < b) (hb1 : b ≠ 1) (hd : e.den ≠ 1) (hw : ¬ Roots.Within cfg.maxPrime b) :
    Gives cfg (fun E => Api.pow E (.num (.rat b) : Expr D) (.num (.rat e))) (if 0 < e then RootsN.root b e else RootsN.root (1 / b) (-e)) ∧
    ∀ σ, den σ (if 0 < e then RootsN.root b e else RootsN.root (1 / b) (-e) : Expr D) = some ((b : ℝ) ^ (e : ℝ)) := by
  have hdp := e.den_pos
  have he0 : e ≠ 0 := by rintro rfl; simp at hd
  have hbr : (0 : ℝ) < b := by exact_mod_cast hb
  have hs : ¬ SmallQ cfg.maxPrime b := fun h => hw (Roots.within_iff.2 h)
  rcases lt_or_gt_of_ne he0 with hn | hp
  · simp only [if_neg (not_lt.2 hn.le)]
    have := (tot_pow_large (D := D) hb hb1 (x := -e) (by linarith) (by rw [Rat.neg_den]; omega) hs).2
    rw [neg_neg, ← one_div] at this
    refine ⟨by rw [RootsN.root_eq]; exact pow_gives this, fun σ => ?_⟩
    rw [(C84_value σ (1 / b) (-e) (by positivity)).2]
    push_cast
    rw [one_div, Real.inv_rpow hbr.le, ← Real.rpow_neg hbr.le, neg_neg]
  · simp only [if_pos hp]
    have := (tot_pow_large (D := D) hb hb1 (x := e) hp (by omega) hs).1
    exact ⟨by rw [RootsN.root_eq]; exact pow_gives this, fun σ => (C84_value σ b e hb).2⟩

/-- C86. Reduced roots stay as they are, and so do those above the limit with exponents between 0 and 1. -/
theorem C86_fixed (r f : ℚ) (hr : 0 < r) (hr1 : r ≠ 1) (hf : 0 < f) (hf1 : f < 1) (hd : (f.den : ℤ) < 4294967295)
    (h : Roots.Within cfg.maxPrime r → Reduced r f) :
    Gives cfg (fun E => Api.pow E (.num (.rat r) : Expr D) (.num (.rat f))) (RootsN.root r f) ∧
    Gives cfg (fun E => Api.pow E (.num (.rat r) : Expr D) (.num (.rat (-f)))) (RootsN.root (1 / r) f) := by
  have hS := Reduced.stable hd h hr hr1 hf hf1
  rw [RootsN.root_eq, RootsN.root_eq, one_div]
  exact ⟨pow_gives (tot_powN hS), pow_gives (tot_powN_neg hS)⟩

/-- C86. Only reduced roots stay as they are within the limit. -/
theorem C86_only (r f : ℚ) (hr : 0 < r) (hr1 : r ≠ 1) (hf : 0 < f) (hf1 : f < 1) (hd : (f.den : ℤ) < 4294967295) (hw : Roots.Within cfg.maxPrime r)
    (h : Gives cfg (fun E => Api.pow E (.num (.rat r) : Expr D) (.num (.rat f))) (RootsN.root r f)) : Reduced r f := by
  obtain ⟨k0, k1, k2⟩ := exp_parts hf hf1
  obtain ⟨v, g, nv, ⟨N, t⟩, -⟩ := pow_all (D := D) (cfg := cfg) (e := f) hr hr1 (by omega) (by rw [abs_of_pos k0]; omega) hd hw
  obtain ⟨⟨K, hK⟩, -⟩ := h
  have e1 := hK (max N K + 1) (by omega)
  have e2 := t (max N K) (by omega)
  have e3 : Api.pow (eng cfg (max N K + 1)) (.num (.rat r) : Expr D) (.num (.rat f)) = powCreate (eng cfg (max N K)) (num (.rat r)) (num (.rat f)) := rfl
  have e4 := (e3.symm.trans e1).symm.trans e2
  have hv := congrArg Prod.fst (Except.ok.inj e4)
  dsimp only at hv
  rw [← hv] at nv
  generalize hw' : (RootsN.root r f : Expr D) = w at nv
  have hinv : 0 < r⁻¹ := inv_pos.2 hr
  cases nv with
  | num q hq => unfold RootsN.root RootsN.power at hw'; split at hw' <;> cases hw'
  | prod q r' f' hq hq1 h ha => unfold RootsN.root RootsN.power at hw'; split at hw' <;> cases hw'
  | root r' f' h =>
    have hex := h.exp_pos
    have key : r = r' ∧ f = f' := by
      unfold RootsN.root RootsN.power at hw'
      split at hw' <;> split at hw' <;> simp only [Expr.pow.injEq, Expr.num.injEq, Number.rat.injEq] at hw' <;> obtain ⟨a1, a2⟩ := hw'
      · exact ⟨by simpa using a1, by linarith⟩
      · linarith
      · linarith
      · exact ⟨a1, a2⟩
    rw [key.1, key.2]
    exact h

/-- C86. A number other than zero and one times a reduced root, sharing no prime with it crosswise, stays a product, in both orders. -/
theorem C86_number_root (q r f : ℚ) (hq : q ≠ 0) (hq1 : q ≠ 1) (hr : 0 < r) (hr1 : r ≠ 1) (hf : 0 < f) (hf1 : f < 1)
    (hd : (f.den : ℤ) < 4294967295) (h : Roots.Within cfg.maxPrime r → Reduced r f)
    (ha : Roots.Within cfg.maxPrime r → Roots.Within cfg.maxPrime q → Apart q r) :
    Gives cfg (fun E => Api.mul E (.num (.rat q) : Expr D) (RootsN.root r f)) (.prod [.num (.rat q), RootsN.root r f]) ∧
    Gives cfg (fun E => Api.mul E (RootsN.root r f : Expr D) (.num (.rat q))) (.prod [.num (.rat q), RootsN.root r f]) := by
  have hS := Reduced.stable hd h hr hr1 hf hf1
  obtain ⟨t1, t2⟩ := tot_prod_numRootN (D := D) hS hq hq1 (fun a b => ha (Roots.within_iff.2 a) (Roots.within_iff.2 b))
  rw [RootsN.root_eq]
  exact ⟨mul_gives t1, mul_gives t2⟩

end

/-! ## Examples -/

/-- The fourth root of 4/27 is reduced although the primes have exponents above one. -/
theorem reduced_fourth : Reduced (4 / 27) (1 / 4) := by
  have h1 : (4 / 27 : ℚ).num.natAbs = 2 ^ 2 * 3 ^ 0 := by decide +kernel
  have h2 : (4 / 27 : ℚ).den = 2 ^ 0 * 3 ^ 3 := by decide +kernel
  have hd : (1 / 4 : ℚ).den = 4 := by decide +kernel
  have k1 := left_two (d := 4) (i := 2) (j := 0) Nat.prime_two Nat.prime_three (by norm_num) (.inr (by norm_num))
  have k2 := left_two (d := 4) (i := 0) (j := 3) Nat.prime_two Nat.prime_three (by norm_num) (.inr (by norm_num))
  have low : ∀ {i j : ℕ}, i < 4 → j < 4 → ∀ p, p.Prime → ¬ p ^ 4 ∣ 2 ^ i * 3 ^ j := by
    intro i j hi hj
    refine (low_iff (by norm_num) (by positivity)).2 fun p => ?_
    have := left_two (d := 1) (i := i) (j := j) Nat.prime_two Nat.prime_three (by norm_num) (.inl rfl) p
    rw [left, if_pos rfl] at this
    rw [this]
    split_ifs <;> omega
  refine ⟨by norm_num, by norm_num, by norm_num, by norm_num, ?_, ?_, ?_⟩
  · rw [h1, hd]; exact low (by norm_num) (by norm_num)
  · rw [h2, hd]; exact low (by norm_num) (by norm_num)
  · rw [h1, h2, hd]
    rintro c hc ⟨m1, m2⟩
    have e1 : c = 2 := by
      rcases m1 with m | m
      · have := m 2
        rw [k1] at this
        simp at this
      · obtain ⟨p, -, hp, -⟩ := m.smallest
        rw [k1] at hp
        split_ifs at hp <;> omega
    have e2 : c = 3 := by
      rcases m2 with m | m
      · have := m 3
        rw [k2] at this
        simp at this
      · obtain ⟨p, -, hp, -⟩ := m.smallest
        rw [k2] at hp
        split_ifs at hp <;> omega
    omega

/-- `C86_fixed` for it, and `C86_number_root` with 10/7 in front. -/
example : Gives (Cfg.std 1000 : Cfg Hyb) (fun E => Api.pow E (.num (.rat (4 / 27))) (.num (.rat (1 / 4)))) (RootsN.root (4 / 27) (1 / 4)) ∧
    Gives (Cfg.std 1000 : Cfg Hyb) (fun E => Api.mul E (.num (.rat (10 / 7))) (RootsN.root (4 / 27) (1 / 4)))
      (.prod [.num (.rat (10 / 7)), RootsN.root (4 / 27) (1 / 4)]) := by
  have hd : ((1 / 4 : ℚ).den : ℤ) < 4294967295 := by decide +kernel
  have hr := reduced_fourth
  exact ⟨(C86_fixed _ _ hr.pos hr.ne_one hr.exp_pos hr.exp_lt hd fun _ => hr).1,
    (C86_number_root _ _ _ (by norm_num) (by norm_num) hr.pos hr.ne_one hr.exp_pos hr.exp_lt hd (fun _ => hr) fun _ _ => by
      unfold Apart; decide +kernel).1⟩

/-- `C86_pow` for the cube root of 72 to the power of -5, whose result is 1/864 times the cube root of 1/3. -/
example : ∃ v : Expr Hyb, Normal v ∧ Gives (Cfg.std 1000) (fun E => Api.pow E (.num (.rat 72)) (.num (.rat (-5 / 3)))) v ∧
    ∀ σ, den σ v = some (((72 : ℚ) : ℝ) ^ ((-5 / 3 : ℚ) : ℝ)) := by
  have hd : (-5 / 3 : ℚ).den = 3 := by decide +kernel
  refine C86_pow (cfg := Cfg.std 1000) 72 (-5 / 3) (by norm_num) (by norm_num) (by rw [hd]; decide) (by decide +kernel) (by rw [hd]; decide)
    (by unfold Roots.Within; decide +kernel) ?_
  rw [hd]
  exact C85_right 3 72 0 (.inl (by norm_num))

/-- The result itself. -/
example : ∃ cs, Api.pow (eng (Cfg.std 1000) 30 : Eng Hyb) (.num (.rat 72)) (.num (.rat (-5 / 3))) =
    .ok (.prod [.num (.rat (1 / 864)), RootsN.root (1 / 3) (1 / 3)], cs) :=
  M.val_some (by krfl)

/-- `C86_wrong` for the fifth root of 324. -/
example : ∃ v : Expr Hyb, Normal v ∧
    (∃ N, ∀ n, N ≤ n → Api.pow (eng (Cfg.std 1000) n) (.num (.rat 324)) (.num (.rat (1 / 5))) = .ok (v, [.fail])) ∧
    ∀ σ, ∃ y, den σ v = some y ∧ y ≠ ((324 : ℚ) : ℝ) ^ ((1 / 5 : ℚ) : ℝ) := by
  have hd : (1 / 5 : ℚ).den = 5 := by decide +kernel
  refine C86_wrong (cfg := Cfg.std 1000) 324 (1 / 5) (by norm_num) (by norm_num) (by rw [hd]; decide) (by decide +kernel) (by rw [hd]; decide)
    (by unfold Roots.Within; decide +kernel) ?_
  rw [hd]
  have := C85_wrong 5 2 3 2 2 Nat.prime_two Nat.prime_three (by norm_num) le_rfl le_rfl (.inr (by norm_num))
  norm_num at this
  exact this

/-- `C86_large` for the square root of 1024 to the power of 3, which is a number for larger limits. -/
example : Gives (Cfg.std 1000 : Cfg Hyb) (fun E => Api.pow E (.num (.rat 1024)) (.num (.rat (3 / 2)))) (RootsN.root 1024 (3 / 2)) := by
  have := (C86_large (D := Hyb) (cfg := Cfg.std 1000) 1024 (3 / 2) (by norm_num) (by norm_num) (by decide +kernel) (by unfold Roots.Within; decide +kernel)).1
  rwa [if_pos (by norm_num)] at this

/-- `C86_only`: the square root of 8 does not stay as it is. -/
example : ¬ Gives (Cfg.std 1000 : Cfg Hyb) (fun E => Api.pow E (.num (.rat 8)) (.num (.rat (1 / 2)))) (RootsN.root 8 (1 / 2)) := by
  intro h
  have hd : (1 / 2 : ℚ).den = 2 := by decide +kernel
  have h8 : (8 : ℚ).num.natAbs = 8 := by decide +kernel
  have := (C86_only (D := Hyb) (cfg := Cfg.std 1000) 8 (1 / 2) (by norm_num) (by norm_num) (by norm_num) (by norm_num) (by rw [hd]; decide)
    (by unfold Roots.Within; decide +kernel) h).low_num 2 Nat.prime_two
  rw [hd, h8] at this
  exact this (by decide)

end Tsym
