import Verif.ArcBase

set_option autoImplicit false
set_option linter.unusedSectionVars false
set_option linter.unusedSimpArgs false
set_option linter.unusedVariables false

/-!
# Normal forms of a symbol over a root, helpers for C78
-/

namespace Tsym

namespace Arc

open Expr TrigProd

variable {D : Type} [Flt D] [LawfulFlt D] {cfg : Cfg D}

/-- No condition on the values of the symbols. -/
abbrev Tt : Asg → Prop := fun _ => True

theorem GW.of_ep (hc : cfg.Ok) {W : Expr D} (he : EP W) (hs : W.isSum = true) (hd : Dv 1 (poly W))
    (hn : ¬ ∀ d ∈ (poly W).support, (poly W).coeff d < 0 ∧ evenOrPos d) :
    ∃ p, GW cfg W p ∧ (p = true ↔ ∀ d ∈ (poly W).support, 0 < (poly W).coeff d ∧ evenOrPos d) := by
  obtain ⟨v, hv, h1, h2⟩ := he.signs (cfg := cfg)
  have h0 : poly W ≠ 0 := by
    intro h; exact hn (by rw [h]; simp)
  have hv2 : v ≠ -1 := fun h => hn (h2.1 h).2
  refine ⟨decide (v = 1), ⟨he, ?_, hd, ?_, ?_, hv.pos, ?_⟩, ?_⟩
  · cases W <;> first | exact ⟨_, rfl⟩ | cases hs
  · rcases he.cases with rfl | ⟨m, K, hm, hK, rfl⟩ | ⟨L, hL, hl, rfl⟩
    · cases hs
    · rw [Bool.eq_false_iff] 
      intro _
      exact absurd hs (by
        rw [he.isSum]
        intro hh
        exact hh (by rw [hK.poly]; exact ⟨_, _, rfl⟩))
    · exact (pbase_sum (cfg := cfg) (hL.sl (B := fun _ => True) (by simp)) hl).const
  · have := hv.neg
    rwa [decide_eq_false hv2] at this
  · intro k b r hk
    refine subst_ep hc he (fun ho => hk ?_) r
    exact mem_tmpIds W ⟨.tmp k, b⟩ ho k (by simp [Sym.tmpId])
  · rw [decide_eq_true_eq, h1]
    exact ⟨fun h => h.2, fun h => ⟨h0, h⟩⟩

/-! ## Two different symbols have no common divisor -/

theorem poly_symE (s : Sym) : poly (.sym s : Expr D) = MvPolynomial.X s := by simp [poly]

theorem dv_sym (s : Sym) : Dv 1 (poly (.sym s : Expr D)) := by
  rw [poly_symE]
  intro f
  rw [MvPolynomial.coeff_X]
  split
  · exact ⟨1, by simp⟩
  · exact ⟨0, by simp⟩

theorem content_sym (s : Sym) : integerContent (.sym s : Expr D) = .ok (.rat 1) := by
  have : (Number.rat 1 : Number D).abs = .rat 1 := by
    unfold Number.abs; rw [show (Number.rat 1 : Number D).lt 0 = false by rw [Number.zero_def, lt_rat]; decide +kernel]; rfl
  have hi : (Number.rat 1 : Number D).isInt = true := by simpa using Number.rat_isInt (D := D) 1
  show (do let n ← numericFactor (.sym s : Expr D); pure (if n.abs.isInt then n.abs else 1)) = _
  show Except.ok (if (Number.rat 1 : Number D).abs.isInt then (Number.rat 1 : Number D).abs else 1) = _
  rw [this, hi]; rfl

theorem deg_sym (s t : Sym) : ((poly (.sym s : Expr D)).degreeOf t : ℤ) < intMax := by
  rw [poly_symE, MvPolynomial.degreeOf_X]
  split <;> decide

theorem tot_gcd_syms (hc : cfg.Ok) {s t : Sym} (hs : s.id.Ok) (ht : t.id.Ok) (hne : s ≠ t) :
    Tot cfg (fun E => E.gcd (.sym s) (.sym t)) (one : Expr D) := by
  have es := EP.sym (D := D) hs
  have et := EP.sym (D := D) ht
  have pt : poly (.sym t : Expr D) ≠ 0 := by rw [poly_symE]; exact MvPolynomial.X_ne_zero _
  obtain ⟨L, l1, l2, l3, l4⟩ := tot_listOfSymbols hc es et (deg_sym s) (deg_sym t)
  have hok := isPolyInputValid_ep es et pt (fun x => (deg_sym (D := D) s x).le) fun x => (deg_sym (D := D) t x).le
  refine tot_succ (fun _ => rfl) (f := fun E => polyGcd E (.sym s) (.sym t)) ?_
  unfold polyGcd
  refine tot_bind (tot_lift hok) ?_
  simp only [if_true]
  refine tot_bind l1 (tot_succ (fun _ => rfl) (f := fun E => gcdL E (.sym s) (.sym t) (L.map .sym)) ?_)
  unfold gcdL
  refine tot_bind (tot_expand (tot_expand_ep hc es)) (tot_bind (tot_expand (tot_expand_ep hc et)) ?_)
  have hL : ((L.map .sym : List (Expr D)).isEmpty && !((.sym s : Expr D).isNumeric && (.sym t : Expr D).isNumeric)) = false := by
    rw [Bool.and_eq_false_iff]
    left
    by_cases hl : L = []
    · have := (l3 s (by simp [hl])).1
      rw [poly_symE, MvPolynomial.degreeOf_X] at this
      simp at this
    · simpa using hl
  simp only [hL, Bool.false_eq_true, if_false]
  refine tot_bind (a := some (.int 1)) ?_ (by
    have := tot_normalizeGcd_int hc (D := D) (cfg := cfg) L (z := 1) one_ne_zero
    rw [← int_one]; exact this)
  unfold gcdRaw
  have hq : isEqual (.sym s) (.sym t : Expr D) = false := by simpa [isEqual] using hne
  have hcs : haveCommonSymbol (.sym s) (.sym t : Expr D) (L.map .sym) = false := by
    unfold haveCommonSymbol
    rw [List.any_map, List.any_eq_false]
    intro x _
    simp only [Function.comp, Bool.and_eq_true, not_and]
    intro h1 h2
    have a1 : x = s := by simpa [has, isEqual, eq_comm] using h1
    have a2 : x = t := by simpa [has, isEqual, eq_comm] using h2
    exact hne (a1.symm.trans a2)
  simp only [show (Expr.sym s : Expr D).isOne = false from rfl, show (Expr.sym t : Expr D).isOne = false from rfl, Bool.or_self, Bool.false_eq_true, if_false,
    show (Expr.sym s : Expr D).isZero = false from rfl, show (Expr.sym t : Expr D).isZero = false from rfl, Bool.and_self, hq, hcs, Bool.not_false, if_true]
  refine tot_bind (a := (.int 1 : Expr D)) ?_ (tot_pure _)
  unfold integerContent2
  refine tot_bind (tot_lift (content_sym s)) (tot_bind (tot_lift (content_sym t)) ?_)
  have : (Number.rat 1 : Number D).isInt = true := by simpa using Number.rat_isInt (D := D) 1
  simp only [this, Bool.not_true, Bool.or_self, Bool.false_eq_true, if_false, Number.numerator]
  exact tot_pure _

theorem rs_divide_one (hc : cfg.Ok) {s : Sym} (hs : s.id.Ok) : Rs cfg Tt (fun E => E.divide (.sym s) (one : Expr D)) (.sym s, zero) := by
  have es := EP.sym (D := D) hs
  obtain ⟨q, q1, q2, q3⟩ := rts_divide_int hc (cfg := cfg) es (by rw [poly_symE]; exact MvPolynomial.X_ne_zero _) (deg_sym s) one_ne_zero numOk_one
  have : q = .sym s := q2.unique es (by rw [q3]; simp)
  rw [this, int_one] at q1
  exact q1.rs

theorem rs_cancel_syms (hc : cfg.Ok) {s t : Sym} (hs : s.id.Ok) (ht : t.id.Ok) (hne : s ≠ t) :
    Rs cfg Tt (fun E => cancel E ⟨.sym s, .sym t⟩) (⟨.sym s, .sym t⟩ : Frac D) := by
  have et := EP.sym (D := D) ht
  unfold cancel
  simp only [show (Expr.sym s : Expr D).isZero = false from rfl, show (Expr.sym t : Expr D).isOne = false from rfl, Bool.false_eq_true, if_false]
  refine rs_bind (a := false) (Tot.rs ?_) ?_
  · unfold expandsToZero
    exact tot_whenTrue (tot_bind (tot_expand (tot_expand_ep hc et)) (tot_pure _))
  · simp only [Bool.false_eq_true, if_false, cancelNonTrivial]
    refine rs_bind (tot_silent (tot_gcd_syms hc hs ht hne)).rs (rs_bind (rs_divide_one hc ht) (rs_bind (rs_divide_one hc hs) (rs_bind (a := ()) ?_ ?_)))
    · exact rs_log fun σ _ => ⟨1, by rw [one_eq]; simp [den], by norm_num⟩
    · have hz : (zero : Expr D).isZero = true := by rw [zero_eq, isZero_ratE]; decide
      simp only [hz, Bool.and_self, Bool.not_true]
      exact rs_bind (a := ()) (tot_logIf rfl).rs (tot_pure _).rs

/-! ## The normal form of the root -/

theorem numOk_two {max : ℤ} : NumOk max ((2 : ℤ) : ℚ) := by
  right
  refine ⟨fun p hp h => ?_, fun p hp h => ?_⟩
  · have h1 : p ^ 4 ≤ 2 := Nat.le_of_dvd (by decide) (by simpa using h)
    have := Nat.pow_le_pow_left hp.two_le 4
    omega
  · have h1 : p ^ 4 ≤ 1 := Nat.le_of_dvd (by decide) (by simpa using h)
    have := Nat.pow_le_pow_left hp.two_le 4
    omega

variable {W : Expr D} {p : Bool}

theorem GW.rootPos (h : GW cfg W p) : Tot cfg (fun E => isPos E (rt W (1 / 2))) p := by
  simp only [isPos]
  refine tot_bind (tot_whenTrue (tot_isPos h.pos)) ?_
  cases p
  · simp only [Bool.false_eq_true, if_false, numEval_rat]
    refine tot_bind (tot_lift rfl) ?_
    have : ((Number.rat (1 / 2) : Number D).isRational && (Number.rat (1 / 2) : Number D).numerator % 2 == 0) = false := by
      simp only [Number.numerator]
      rw [show ((1 / 2 : ℚ)).num = 1 by decide +kernel]
      rfl
    simp only [this]
    exact tot_pure _
  · exact tot_pure _

/-- The symbol for the root. -/
def tsym (cfg : Cfg D) (W : Expr D) (p : Bool) (A : List Nat) : Sym := ⟨.tmp (cfg.fresh (A ++ (rt W (1 / 2)).tmpIds)), p⟩

theorem GW.getTmp (h : GW cfg W p) (A : List Nat) :
    Tot cfg (fun E => Tsym.getTmp E (rt W (1 / 2)) ⟨[], A⟩) (.sym (tsym cfg W p A), ⟨[(rt W (1 / 2), tsym cfg W p A)], A⟩) := by
  unfold Tsym.getTmp
  simp only [SMap.lookup, List.find?_nil]
  refine tot_bind (tot_whenTrue (tot_isPos h.rootPos)) ?_
  exact ⟨0, fun n _ => by simp only [eng_cfg', SMap.used, List.flatMap_nil, List.append_nil]; rfl⟩

theorem GW.evaluatePow (h : GW cfg W p) (A : List Nat) :
    Tot cfg (fun E => Tsym.evaluatePow E W (num (.rat (1 / 2))) ⟨[], A⟩) (.sym (tsym cfg W p A), ⟨[(rt W (1 / 2), tsym cfg W p A)], A⟩) := by
  unfold Tsym.evaluatePow
  refine tot_bind (tot_pow (h.pow (by decide +kernel) (by decide +kernel))) ?_
  simp only [show (rt W (1 / 2)).isOne = false from rfl, Bool.false_eq_true, if_false]
  exact h.getTmp A

theorem evaluatePow_one (q : ℚ) (h0 : q ≠ 0) (m : SMap D) :
    Tot cfg (fun E => Tsym.evaluatePow E one (num (.rat q)) m) ((one : Expr D), m) := by
  unfold Tsym.evaluatePow
  refine tot_bind (a := one) (tot_pow ?_) ?_
  · have e2 : (num (.rat q) : Expr D).isZero = false := by rw [isZero_ratE]; simpa using h0
    have o1 : (one : Expr D).isOne = true := isOne_one
    simp only [powCreate, rat_isUndefined, show (one : Expr D).isUndefined = false from rfl, Bool.or_self, Bool.false_eq_true, if_false, e2, o1, Bool.or_true, if_true]
    exact tot_pure _
  · simp only [show (one : Expr D).isOne = true from isOne_one, if_true]
    exact tot_pure _

theorem tot_normal_half (hc : cfg.Ok) (z : ℤ) (q : ℚ) (hq : q * 2 = z) (h1 : q.num = z) (h2 : q.den = 2) :
    Tot cfg (fun E => E.normal (num (.rat q))) (num (.rat q) : Expr D) := by
  refine tot_normal hc (n := .int z) (d := 2) (EP.num _) (EP.int _) (by decide) numOk_two ?_ fun m => ?_
  · rw [poly_ratE, poly_int, ← map_mul, ← hq]; simp
  · have := tot_normalFrac_num (D := D) (cfg := cfg) q m
    simp only [fr, h1, h2] at this
    exact this

theorem GW.defined (hc : cfg.Ok) (h : GW cfg W p) (q : ℚ) : Tot cfg (fun E => isBaseOrExpUndefined E ⟨W, one⟩ (num (.rat q))) false := by
  unfold isBaseOrExpUndefined
  have o2 : (one : Expr D).isZero = false := by rw [one_eq, isZero_ratE]; decide
  simp only [h.ep.isUndefined, show (one : Expr D).isUndefined = false from rfl, o2, Bool.or_self, Bool.false_eq_true, if_false]
  refine tot_bind (a := false) ?_ (tot_pure _)
  unfold expandsToZero
  refine tot_whenTrue (tot_bind (tot_expand (tot_expand_ep hc (by rw [one_eq]; exact EP.num 1))) ?_)
  simp only [o2]; exact tot_pure _

/-- The quotient for the inverse root. -/
theorem GW.frac_neg (hc : cfg.Ok) (h : GW cfg W p) (A : List Nat) :
    Tot cfg (fun E => E.normalFrac (rt W (-1 / 2)) ⟨[], A⟩) (⟨one, .sym (tsym cfg W p A)⟩, ⟨[(rt W (1 / 2), tsym cfg W p A)], A⟩) := by
  refine tot_succ (fun _ => rfl) (f := fun E => normalFrac E (rt W (-1 / 2)) ⟨[], A⟩) ?_
  simp only [normalFrac, normalPow]
  refine tot_bind (tot_normalFrac_ep hc h.ep h.dv _) (tot_bind (tot_normal_half hc (-1) _ (by norm_num) (by decide +kernel) (by decide +kernel)) (tot_bind (h.defined hc _) ?_))
  simp only [Bool.false_eq_true, if_false, numEval_rat]
  refine tot_bind (tot_lift rfl) ?_
  have hi : (Number.rat (-1 / 2) : Number D).isInt = false := by
    unfold Number.isInt Number.denominator Number.isRational
    have : (-1 / 2 : ℚ).den = 2 := by decide +kernel
    simp only [this]; rfl
  have he : (Number.rat (-1 / 2) : Number D).eqv 0 = false := by
    rw [Bool.eq_false_iff, Ne, Number.zero_def, eqv_rat]; decide +kernel
  have hl : (Number.rat (-1 / 2) : Number D).lt 0 = true := by rw [Number.zero_def, lt_rat]; decide +kernel
  simp only [hi, Bool.false_eq_true, if_false, normalNumEvalExp, he, show (one : Expr D).isOne = true from isOne_one]
  refine tot_bind (tot_logIf rfl) (tot_bind (a := false) (tot_silent (tot_isPos ?_)) ?_)
  · simp only [isPos]
    rw [show Number.lt 0 (Number.rat (-1 / 2) : Number D) = false by rw [Number.zero_def, lt_rat]; decide +kernel]
    exact tot_pure _
  · simp only [Bool.false_eq_true, if_false]
    refine tot_bind (a := num (.rat (1 / 2))) ?_ (tot_bind (evaluatePow_one _ (by decide +kernel) _) (tot_bind (h.evaluatePow A) ?_))
    · unfold Eng.minus
      rw [mOne_rat]
      have := tot_prod_nums hc (cfg := cfg) (D := D) (-1) (-1 / 2)
      rwa [show (-1 : ℚ) * (-1 / 2) = 1 / 2 by norm_num] at this
    · simp only [hl, Bool.not_true]
      exact tot_bind (tot_logIf rfl) (tot_pure _)

/-- The quotient for the root. -/
theorem GW.frac_pos (hc : cfg.Ok) (h : GW cfg W p) (A : List Nat) :
    Tot cfg (fun E => E.normalFrac (rt W (1 / 2)) ⟨[], A⟩) (⟨.sym (tsym cfg W p A), one⟩, ⟨[(rt W (1 / 2), tsym cfg W p A)], A⟩) := by
  refine tot_succ (fun _ => rfl) (f := fun E => normalFrac E (rt W (1 / 2)) ⟨[], A⟩) ?_
  simp only [normalFrac, normalPow]
  refine tot_bind (tot_normalFrac_ep hc h.ep h.dv _) (tot_bind (tot_normal_half hc 1 _ (by norm_num) (by decide +kernel) (by decide +kernel)) (tot_bind (h.defined hc _) ?_))
  simp only [Bool.false_eq_true, if_false, numEval_rat]
  refine tot_bind (tot_lift rfl) ?_
  have hi : (Number.rat (1 / 2) : Number D).isInt = false := by
    unfold Number.isInt Number.denominator Number.isRational
    have : (1 / 2 : ℚ).den = 2 := by decide +kernel
    simp only [this]; rfl
  have he : (Number.rat (1 / 2) : Number D).eqv 0 = false := by
    rw [Bool.eq_false_iff, Ne, Number.zero_def, eqv_rat]; decide +kernel
  simp only [hi, Bool.false_eq_true, if_false, normalNumEvalExp, he, show (one : Expr D).isOne = true from isOne_one]
  refine tot_bind (tot_logIf rfl) (tot_bind (a := true) (tot_silent (tot_isPos ?_)) ?_)
  · simp only [isPos]
    rw [show Number.lt 0 (Number.rat (1 / 2) : Number D) = true by rw [Number.zero_def, lt_rat]; decide +kernel]
    exact tot_pure _
  · simp only [if_true]
    exact tot_bind (h.evaluatePow A) (tot_bind (evaluatePow_one _ (by decide +kernel) _) (tot_pure _))

/-- The quotient for the inverse of a symbol. -/
theorem frac_symInv (hc : cfg.Ok) {s : Sym} (hs : s.id.Ok) (m : SMap D) :
    Tot cfg (fun E => E.normalFrac (.pow (.sym s) (.num (.rat (-1)))) m) (⟨one, .sym s⟩, m) := by
  refine tot_succ (fun _ => rfl) (f := fun E => normalFrac E (.pow (.sym s) (.num (.rat (-1)))) m) ?_
  simp only [normalFrac, normalPow]
  have hn : Tot cfg (fun E => E.normal (num (.rat (-1)))) (num (.rat (-1)) : Expr D) := by
    have := tot_normal_int hc (cfg := cfg) (D := D) (-1)
    simpa [Expr.int] using this
  refine tot_bind (tot_normalFrac_ep hc (EP.sym hs) (dv_sym s) _) (tot_bind hn (tot_bind (a := false) ?_ ?_))
  · unfold isBaseOrExpUndefined
    have o2 : (one : Expr D).isZero = false := by rw [one_eq, isZero_ratE]; decide
    simp only [show (Expr.sym s : Expr D).isUndefined = false from rfl, show (one : Expr D).isUndefined = false from rfl, o2, Bool.or_self, Bool.false_eq_true, if_false]
    refine tot_bind (a := false) ?_ (tot_pure _)
    unfold expandsToZero
    refine tot_whenTrue (tot_bind (tot_expand (tot_expand_ep hc (by rw [one_eq]; exact EP.num 1))) ?_)
    simp only [o2]; exact tot_pure _
  simp only [Bool.false_eq_true, if_false, numEval_rat]
  refine tot_bind (tot_lift rfl) ?_
  have hi : (Number.rat (-1) : Number D).isInt = true := by simpa using Number.rat_isInt (D := D) (-1)
  have ha : (Number.rat (-1) : Number D).abs = .rat 1 := by
    unfold Number.abs; rw [show (Number.rat (-1) : Number D).lt 0 = true by rw [Number.zero_def, lt_rat]; decide +kernel]
    simp only [if_true, Number.neg]; congr 1
  have hl : (Number.rat (-1) : Number D).lt 0 = true := by rw [Number.zero_def, lt_rat]; decide +kernel
  have hg : Number.lt 0 (Number.rat (-1) : Number D) = false := by rw [Number.zero_def, lt_rat]; decide +kernel
  simp only [hi, if_true, normalIntegerExp, ha, hl, hg, Bool.false_eq_true, if_false]
  refine tot_bind (tot_bind (a := .sym s) (tot_pow ?_) (tot_bind (a := one) (tot_pow ?_) (tot_pure _))) (tot_pure _)
  · have := Tower.tot_power (cfg := cfg) (D := D) s 1
    simpa [Tower.power] using this
  · have e2 : (num (.rat 1) : Expr D).isZero = false := by rw [isZero_ratE]; simp
    simp only [powCreate, rat_isUndefined, show (one : Expr D).isUndefined = false from rfl, Bool.or_self, Bool.false_eq_true, if_false, e2,
      show (one : Expr D).isOne = true from isOne_one, Bool.or_true, if_true]
    exact tot_pure _

/-! ## Products of two factors -/

theorem rs_frac_two {x y n d nx dx ny dy : Expr D} {f : Frac D} {l : List (Expr D)} {m m' : SMap D} (hl : l = [x, y] ∨ l = [y, x])
    (hx : ∀ m, Tot cfg (fun E => E.normalFrac x m) (⟨nx, dx⟩, m)) (hy : Tot cfg (fun E => E.normalFrac y m) (⟨ny, dy⟩, m'))
    (hz : Tot cfg (fun E => expandsToZero E (.prod l)) false)
    (hn : Tot cfg (fun E => prodCreate E [nx, ny]) n) (hn' : Tot cfg (fun E => prodCreate E [ny, nx]) n)
    (hd : Tot cfg (fun E => prodCreate E [dx, dy]) d) (hd' : Tot cfg (fun E => prodCreate E [dy, dx]) d)
    (hcn : Rs cfg Tt (fun E => cancel E ⟨n, d⟩) f) : Rs cfg Tt (fun E => E.normalFrac (.prod l) m) (f, m') := by
  refine rs_succ (fun _ => rfl) (f := fun E => normalFrac E (.prod l) m) ?_
  simp only [normalFrac]
  refine rs_bind hz.rs ?_
  simp only [Bool.false_eq_true, if_false]
  rcases hl with rfl | rfl
  · refine rs_bind (a := ([⟨nx, dx⟩, ⟨ny, dy⟩], m')) (Tot.rs ?_) ?_
    · simp only [normalOperands]
      exact tot_bind (hx _) (tot_bind (tot_bind hy (tot_bind (tot_pure _) (tot_pure _))) (tot_pure _))
    · exact rs_bind (tot_prod hn).rs (rs_bind (tot_prod hd).rs (rs_bind hcn (tot_pure _).rs))
  · refine rs_bind (a := ([⟨ny, dy⟩, ⟨nx, dx⟩], m')) (Tot.rs ?_) ?_
    · simp only [normalOperands]
      exact tot_bind hy (tot_bind (tot_bind (hx _) (tot_bind (tot_pure _) (tot_pure _))) (tot_pure _))
    · exact rs_bind (tot_prod hn').rs (rs_bind (tot_prod hd').rs (rs_bind hcn (tot_pure _).rs))

end Arc

end Tsym
