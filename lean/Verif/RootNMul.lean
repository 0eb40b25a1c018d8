import Verif.RootN
import Verif.TrigTable

set_option autoImplicit false
set_option linter.unusedSectionVars false
set_option linter.unusedSimpArgs false
set_option linter.unusedVariables false

/-!
# Helper lemmas: products of two roots of any degree
-/

namespace Tsym

open Expr NumPowerSimpl

variable {D : Type} [Flt D] [ExactLt D] {cfg : Cfg D}

/-- A power of two numbers. -/
abbrev npow (b e : ℚ) : Expr D := .pow (.num (.rat b)) (.num (.rat e))

theorem tot_maxPrimeE {α : Type} {f : ℤ → Eng D → M D α} {a : α} (h : Tot cfg (f cfg.maxPrime) a) :
    Tot cfg (fun E => f E.cfg.maxPrime E) a := by
  obtain ⟨N, h⟩ := h
  refine ⟨N, fun n hn => ?_⟩
  simp only [eng_cfg]
  exact h n hn

theorem PrimeFac.Canon.inv {P : PrimeFac} {b : ℚ} (h : P.Canon b) : (⟨P.den, P.num⟩ : PrimeFac).Canon b⁻¹ := by
  refine ⟨h.pd, h.pn, h.sd, h.sn, fun x hx hx' => h.dis x hx' hx, ?_⟩
  rw [← h.val]; simp [PrimeFac.value]

theorem PrimeFac.equalCount_swap (A B : List ℕ) : PrimeFac.equalCount ⟨A, B⟩ = PrimeFac.equalCount ⟨B, A⟩ := by
  unfold PrimeFac.equalCount
  by_cases h1 : A = []
  · by_cases h2 : B = [] <;> simp [h1, h2]
  · by_cases h2 : B = []
    · simp [h1, h2]
    · simp only [h1, h2, false_and, if_false]
      have hok : ∀ l : List ℕ, l ≠ [] → ∃ c, PrimeFac.equalCountOf l = .ok c := by
        intro l hl
        match l, hl with
        | x :: xs, _ =>
          unfold PrimeFac.equalCountOf
          simp only
          split
          · exact ⟨_, rfl⟩
          · split <;> exact ⟨_, rfl⟩
      obtain ⟨a, ha⟩ := hok A h1
      obtain ⟨b, hb⟩ := hok B h2
      simp only [ha, hb, bind, Except.bind, pure, Except.pure]
      by_cases e : a = b
      · simp [e]
      · simp [e, Ne.symm e]

theorem Stable.inv {max : ℤ} {b e : ℚ} (h : Stable max b e) : Stable max b⁻¹ e := by
  refine ⟨inv_pos.2 h.pos, by simpa using h.ne, h.epos, h.elt, h.small, fun hs P hP => ?_⟩
  have hq := hP.inv
  rw [inv_inv] at hq
  obtain ⟨h1, h2, c, hc, hc1⟩ := h.keep ((SmallQ.inv_iff h.pos.ne').1 hs) _ hq
  exact ⟨h2, h1, c, by rw [PrimeFac.equalCount_swap] at hc; exact hc, hc1⟩

/-- The product of two powers of numbers, from the list of factors. -/
theorem tot_prod_npow {a e b f : ℚ} {L : List (Expr D)} {v : Expr D}
    (h : Tot cfg (fun E => simplTwoConst E (npow a e : Expr D) (npow b f)) L)
    (hv : (L = [] ∧ v = one) ∨ L = [v] ∨ ∃ x y : ℚ × ℚ, L = [npow x.1 x.2, npow y.1 y.2] ∧ v = .prod [npow x.1 x.2, npow y.1 y.2]) :
    Tot cfg (fun E => prodCreate E [(npow a e : Expr D), npow b f]) v := by
  have u : ∀ x y : ℚ, (npow x y : Expr D).isUndefined = false ∧ (npow x y : Expr D).isZero = false ∧ (npow x y : Expr D).isProduct = false ∧
      (npow x y : Expr D).isOne = false ∧ (npow x y : Expr D).isConst = true := fun x y => ⟨rfl, rfl, rfl, rfl, by simp [isConst]⟩
  simp only [prodCreate, List.any_cons, List.any_nil, (u _ _).1, (u _ _).2.1, Bool.or_self, Bool.false_eq_true, if_false]
  have t1 : Tot cfg (fun E => extractProducts E [npow a e, npow b f]) [(npow a e : Expr D), npow b f] := by
    have h := tot_extract (cfg := cfg) (u := [(npow a e : Expr D), npow b f]) (by
      intro l hl
      simp only [List.mem_cons, List.not_mem_nil, or_false] at hl
      rcases hl with e | e <;> cases e)
    exact h
  have t2 : Tot cfg (fun E => contractTrigonometrics E [npow a e, npow b f]) [(npow a e : Expr D), npow b f] := by
    refine tot_contract (simpl := fun E => contractTrigFctPowers E) fun x hx y hy => ?_
    unfold areContractableTrigFctPowers
    simp only [List.mem_cons, List.not_mem_nil, or_false] at hx
    rcases hx with rfl | rfl <;> rfl
  refine tot_bind (a := L) (tot_prodSimplify ?_) ?_
  · unfold simplProd
    refine tot_bind t1 (tot_bind t2 ?_)
    simp only [simplTwoFactors, (u _ _).2.2.1, Bool.or_self, Bool.false_eq_true, if_false, simplTwoFactorsWithoutProduct, (u _ _).2.2.2.1,
      (u _ _).2.2.2.2, Bool.and_self, if_true]
    exact h
  · rcases hv with ⟨rfl, rfl⟩ | rfl | ⟨x, y, rfl, rfl⟩
    · exact tot_pure _
    · exact tot_pure _
    · have hne : needsExpansion [(npow x.1 x.2 : Expr D), npow y.1 y.2] = false := by
        simp [needsExpansion, constElements, nonConstElements, isConst, isSum]
      simp only [hne, Bool.false_eq_true, if_false]
      exact tot_pure _

theorem npow_bases (a e b f : ℚ) : haveEqualBases (npow a e : Expr D) (npow b f) = decide (a = b) := by
  simp only [haveEqualBases, Expr.base, isEqual]
  exact Number.rat_eqv (D := D) _ _

theorem npow_exps (a e b f : ℚ) : areNumPowersWithEqualExp (npow a e : Expr D) (npow b f) = decide (e = f) := by
  simp only [areNumPowersWithEqualExp, isNumericPower, Expr.exp, isEqual, Bool.true_and]
  exact Number.rat_eqv (D := D) _ _

theorem tot_zeroSum (a e b f : ℚ) : Tot cfg (fun E => M.whenTrue (areNumPowersWithZeroSumExp E (npow a e : Expr D) (npow b f))) (decide (e + f = 0)) := by
  refine tot_whenTrue ?_
  simp only [areNumPowersWithZeroSumExp, isNumericPower, Bool.and_self, if_true, Expr.exp]
  refine tot_bind (tot_sum_num (cfg := cfg) e f) ?_
  rw [isZero_ratE]
  exact tot_pure _

/-- Equal bases: the exponents are added. -/
theorem tot_equalBases {a e f : ℚ} (ha : 0 < a) {v : Expr D} (h : Tot cfg (fun E => powCreate E (num (.rat a)) (num (.rat (e + f)))) v) :
    Tot cfg (fun E => prodCreate E [(npow a e : Expr D), npow a f]) v := by
  refine tot_prod_npow (L := [v]) ?_ (.inr (.inl rfl))
  simp only [simplTwoConst, npow_bases, decide_true, if_true]
  unfold simplTwoEqualBases
  refine tot_bind (tot_sum_num (cfg := cfg) e f) ?_
  have hpos : Tot cfg (fun E => M.silent (E.isPos (num (.rat a) : Expr D))) true := by
    have : Tot cfg (fun E => E.isPos (num (.rat a) : Expr D)) true := by
      refine tot_isPos ?_
      simp only [isPos]
      have : Number.lt 0 (.rat a : Number D) = true := by rw [Number.zero_def, lt_rat]; simpa using ha
      rw [this]; exact tot_pure _
    obtain ⟨n, hn⟩ := this
    exact ⟨n, fun m hm => by
      have := hn m hm
      simp only at this
      simp only [M.silent, this]; rfl⟩
  refine tot_bind hpos ?_
  simp only [if_true]
  refine tot_bind (tot_pure _) (tot_bind (tot_pure _) ?_)
  simp only [Bool.false_eq_true, if_false]
  exact tot_bind (tot_pow h) (tot_pure _)

/-- Equal exponents: the bases are multiplied. -/
theorem tot_equalExp {a b e : ℚ} (ha : 0 < a) (hb : 0 < b) (he : e ≠ 0) (hab : a ≠ b) {B X : ℚ} {v : Expr D}
    (hr : compute cfg.maxPrime (⟨.rat (a * b), .rat e, .rat 1⟩ : Payload D) = .ok (⟨.rat B, .rat X, .rat 1⟩, true))
    (h : Tot cfg (fun E => powCreate E (num (.rat B)) (num (.rat X))) v) :
    Tot cfg (fun E => prodCreate E [(npow a e : Expr D), npow b e]) v := by
  refine tot_prod_npow (L := [v]) ?_ (.inr (.inl rfl))
  simp only [simplTwoConst, npow_bases, npow_exps, hab, decide_false, decide_true, Bool.false_eq_true, if_false, if_true, simplTwoEqualExp, Number.mul]
  unfold simplNumAndNumPowN
  refine tot_bind (a := ((⟨.rat B, .rat X, .rat 1⟩ : Payload D), true))
    (tot_maxPrime (f := fun k => M.lift (NumPowerSimpl.compute k ⟨.rat (a * b), .rat e, 1⟩)) (tot_lift hr)) ?_
  have h10 : (1 : ℚ) ≠ 0 := one_ne_zero
  simp only [Bool.not_true, Number.one_def, rat_eqv_zero, (mul_pos ha hb).ne', he, h10, decide_false, Bool.or_self]
  refine tot_bind (tot_logIf rfl) (tot_bind (tot_pow h) ?_)
  simp only [isOne_ratE, decide_true, if_true]
  exact tot_pure _

/-- Opposite exponents: the bases are divided. -/
theorem tot_oppositeExp {a b e : ℚ} (hb : 0 < b) (he : e ≠ 0) (hab : a ≠ b) {v : Expr D}
    (h : Tot cfg (fun E => powCreate E (num (.rat (a * b⁻¹))) (num (.rat e))) v) :
    Tot cfg (fun E => prodCreate E [(npow a e : Expr D), npow b (-e)]) v := by
  refine tot_prod_npow (L := [v]) ?_ (.inr (.inl rfl))
  have hne : ¬ e = -e := fun h => he (by linarith)
  have hz := tot_zeroSum (cfg := cfg) (D := D) a e b (-e)
  rw [add_neg_cancel, decide_eq_true rfl] at hz
  simp only [simplTwoConst, npow_bases, npow_exps, hab, hne, decide_false, Bool.false_eq_true, if_false]
  refine tot_bind hz ?_
  simp only [if_true, simplTwoZeroSumExp]
  refine tot_bind (tot_lift (toThe_negone hb.ne')) ?_
  simp only [Number.mul]
  exact tot_bind (tot_pow h) (tot_pure _)

theorem npow_dens (a e b f : ℚ) : areNumPowersWithEqualExpDenom (npow a e : Expr D) (npow b f) = decide (e.den = f.den) := by
  simp only [areNumPowersWithEqualExpDenom, Number.denominator]
  rw [Bool.eq_iff_iff, beq_iff_eq, decide_eq_true_eq, Int.natCast_inj]

/-- The numerator of the new base from one factor. -/
def expNum (a : ℚ) (k : ℤ) : ℤ := (if 0 < k then a.num else a.den) ^ k.natAbs

theorem evalExp_eq {a : ℚ} {k : ℤ} (hk : (k.natAbs : ℤ) < Number.unsignedMax) : evalExpNumerator (.rat a : Number D) k = .ok (expNum a k) := by
  unfold evalExpNumerator expNum
  rw [if_neg (by omega)]
  rfl

theorem expNum_pos {a : ℚ} (ha : 0 < a) (k : ℤ) : 0 < expNum a k := by
  unfold expNum
  have h1 : 0 < a.num := Rat.num_pos.2 ha
  have h2 : 0 < (a.den : ℤ) := by exact_mod_cast a.pos
  split <;> positivity

theorem expNum_div {a : ℚ} (ha : 0 < a) (k : ℤ) : (expNum a k : ℚ) / (expNum a⁻¹ k : ℚ) = a ^ k := by
  have h1 : 0 < a.num := Rat.num_pos.2 ha
  have hi : a⁻¹.num = a.den ∧ (a⁻¹.den : ℤ) = a.num := by
    rw [Rat.num_inv, Rat.den_inv, Int.sign_eq_one_of_pos h1, one_mul]
    refine ⟨rfl, ?_⟩
    rw [if_neg h1.ne', Int.natCast_natAbs, abs_of_pos h1]
  have hq : (a.num : ℚ) / (a.den : ℚ) = a := Rat.num_div_den a
  unfold expNum
  rcases lt_or_ge 0 k with hk | hk
  · simp only [hk, if_true, hi.1]
    push_cast
    rw [← div_pow, hq]
    conv_rhs => rw [← Int.natAbs_of_nonneg hk.le]
    rw [zpow_natCast]
  · simp only [not_lt.2 hk, if_false, hi.2]
    push_cast
    rw [← div_pow, ← inv_div, hq]
    conv_rhs => rw [← neg_neg k, zpow_neg, ← Int.natAbs_of_nonneg (neg_nonneg.2 hk), zpow_natCast, Int.natAbs_neg]
    rw [inv_pow]

/-- Equal denominators of the exponents: the numerators are moved into the bases, if the new base is within the limit. -/
theorem tot_equalDen {a b e f : ℚ} (ha : 0 < a) (hb : 0 < b) (hab : a ≠ b) (hef : e ≠ f) (hz : e + f ≠ 0) (hd : e.den = f.den)
    (he : (e.num.natAbs : ℤ) < Number.unsignedMax) (hf : (f.num.natAbs : ℤ) < Number.unsignedMax) :
    (SmallQ cfg.maxPrime (a ^ e.num * b ^ f.num) → ∀ {v : Expr D},
      Tot cfg (fun E => powCreate E (num (.rat (a ^ e.num * b ^ f.num))) (num (.rat (1 / e.den)))) v →
      Tot cfg (fun E => prodCreate E [(npow a e : Expr D), npow b f]) v) ∧
    (¬ SmallQ cfg.maxPrime (a ^ e.num * b ^ f.num) →
      Tot cfg (fun E => prodCreate E [(npow a e : Expr D), npow b f]) (.prod [npow a e, npow b f])) := by
  have hn : 0 < a ^ e.num * b ^ f.num := by positivity
  have hnum : ((a ^ e.num * b ^ f.num).num.natAbs : ℤ) = (a ^ e.num * b ^ f.num).num := Int.natAbs_of_nonneg (Rat.num_pos.2 hn).le
  have hx : ((expNum a e.num * expNum b f.num : ℤ) : ℚ) / ((expNum a⁻¹ e.num * expNum b⁻¹ f.num : ℤ) : ℚ) = a ^ e.num * b ^ f.num := by
    push_cast
    rw [mul_div_mul_comm, expNum_div ha, expNum_div hb]
  have hdn : expNum a⁻¹ e.num * expNum b⁻¹ f.num ≠ 0 := (mul_pos (expNum_pos (inv_pos.2 ha) _) (expNum_pos (inv_pos.2 hb) _)).ne'
  have hed : (e.den : ℤ) ≠ 0 := by exact_mod_cast e.pos.ne'
  have t0 := tot_zeroSum (cfg := cfg) (D := D) a e b f
  rw [decide_eq_false hz] at t0
  have hpre : ∀ (L : List (Expr D)), Tot cfg (fun E => if E.cfg.maxPrime < (a ^ e.num * b ^ f.num).num ∨ E.cfg.maxPrime < ((a ^ e.num * b ^ f.num).den : ℤ) then
        pure [npow a e, npow b f]
      else do
        M.logIf (!(isNnRat (.rat a : Number D) && isNnRat (.rat b : Number D) && (.rat e : Number D).isRational && (.rat f : Number D).isRational)) .fail
        let p ← E.powCreate (.num (.rat (a ^ e.num * b ^ f.num))) (.num (.rat (1 / e.den)))
        pure [p]) L → Tot cfg (fun E => simplTwoConst E (npow a e : Expr D) (npow b f)) L := by
    intro L hL
    simp only [simplTwoConst, npow_bases, npow_exps, hab, hef, decide_false, Bool.false_eq_true, if_false]
    refine tot_bind t0 ?_
    simp only [Bool.false_eq_true, if_false, npow_dens, hd, decide_true, if_true]
    unfold simplTwoEqualExpDenom
    simp only [Number.denominator]
    refine tot_bind (tot_lift (Number.ofInts_eq (D := D) hed)) ?_
    refine tot_bind (a := expNum a⁻¹ e.num) (tot_lift ?_) ?_
    · simp only [evalDenomExpNumerator, toThe_negone ha.ne', bind, Except.bind, Number.numerator]; exact evalExp_eq he
    refine tot_bind (a := expNum b⁻¹ f.num) (tot_lift ?_) ?_
    · simp only [evalDenomExpNumerator, toThe_negone hb.ne', bind, Except.bind, Number.numerator]; exact evalExp_eq hf
    refine tot_bind (a := expNum a e.num) (tot_lift ?_) ?_
    · simp only [evalNumExpNumerator, Number.numerator]; exact evalExp_eq he
    refine tot_bind (a := expNum b f.num) (tot_lift ?_) ?_
    · simp only [evalNumExpNumerator, Number.numerator]; exact evalExp_eq hf
    refine tot_bind (tot_lift (Number.ofInts_eq (D := D) hdn)) ?_
    rw [hx]
    simp only [Number.numerator, Number.denominator, Int.cast_one, Int.cast_natCast]
    exact hL
  constructor
  · intro hs v hv
    refine tot_prod_npow (L := [v]) (hpre _ ?_) (.inr (.inl rfl))
    have hs' : ¬ (cfg.maxPrime < (a ^ e.num * b ^ f.num).num ∨ cfg.maxPrime < ((a ^ e.num * b ^ f.num).den : ℤ)) := by
      obtain ⟨h1, h2⟩ := hs
      rw [hnum] at h1
      exact not_or.2 ⟨not_lt.2 h1, not_lt.2 h2⟩
    refine tot_maxPrimeE (f := fun k E => if k < (a ^ e.num * b ^ f.num).num ∨ k < ((a ^ e.num * b ^ f.num).den : ℤ) then
        pure [npow a e, npow b f]
      else do
        M.logIf (!(isNnRat (.rat a : Number D) && isNnRat (.rat b : Number D) && (.rat e : Number D).isRational && (.rat f : Number D).isRational)) .fail
        let p ← E.powCreate (.num (.rat (a ^ e.num * b ^ f.num))) (.num (.rat (1 / e.den)))
        pure [p]) ?_
    simp only [hs', if_false]
    refine tot_bind (tot_logIf ?_) (tot_bind (tot_pow hv) (tot_pure _))
    simp [isNnRat, ha.le, hb.le, Number.isRational]
  · intro hs
    refine tot_prod_npow (L := [npow a e, npow b f]) (hpre _ ?_) (.inr (.inr ⟨(a, e), (b, f), rfl, rfl⟩))
    have hs' : cfg.maxPrime < (a ^ e.num * b ^ f.num).num ∨ cfg.maxPrime < ((a ^ e.num * b ^ f.num).den : ℤ) := by
      by_contra hc
      obtain ⟨h1, h2⟩ := not_or.1 hc
      exact hs ⟨by rw [hnum]; exact not_lt.1 h1, not_lt.1 h2⟩
    refine tot_maxPrimeE (f := fun k E => if k < (a ^ e.num * b ^ f.num).num ∨ k < ((a ^ e.num * b ^ f.num).den : ℤ) then
        pure [npow a e, npow b f]
      else do
        M.logIf (!(isNnRat (.rat a : Number D) && isNnRat (.rat b : Number D) && (.rat e : Number D).isRational && (.rat f : Number D).isRational)) .fail
        let p ← E.powCreate (.num (.rat (a ^ e.num * b ^ f.num))) (.num (.rat (1 / e.den)))
        pure [p]) ?_
    simp only [hs', if_true]
    exact tot_pure _

/-- Different denominators: the factors are put in the order of their bases. -/
theorem tot_otherDen [LawfulFlt D] {a b e f : ℚ} (hab : a ≠ b) (hef : e ≠ f) (hz : e + f ≠ 0) (hd : e.den ≠ f.den) :
    Tot cfg (fun E => prodCreate E [(npow a e : Expr D), npow b f]) (if a < b then .prod [npow a e, npow b f] else .prod [npow b f, npow a e]) := by
  have t0 := tot_zeroSum (cfg := cfg) (D := D) a e b f
  rw [decide_eq_false hz] at t0
  refine tot_prod_npow (L := if a < b then [npow a e, npow b f] else [npow b f, npow a e]) ?_ (.inr (.inr ?_))
  · simp only [simplTwoConst, npow_bases, npow_exps, hab, hef, decide_false, Bool.false_eq_true, if_false]
    refine tot_bind t0 ?_
    simp only [Bool.false_eq_true, if_false, npow_dens, hd, decide_false]
    have : ordered (npow a e : Expr D) (npow b f) = if a < b then [npow a e, npow b f] else [npow b f, npow a e] := by
      unfold ordered
      rw [perm_pow hab]
      rcases lt_or_gt_of_ne hab with h | h
      · simp [h, h.le]
      · simp [h, not_lt.2 h.le]
    rw [this]
    exact tot_pure _
  · split
    · exact ⟨(a, e), (b, f), rfl, rfl⟩
    · exact ⟨(b, f), (a, e), rfl, rfl⟩

end Tsym
