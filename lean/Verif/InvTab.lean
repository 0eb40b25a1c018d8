import Verif.InvTrig
import Verif.Props.TrigPi

set_option autoImplicit false
set_option linter.unusedSectionVars false
set_option linter.unusedSimpArgs false
set_option linter.unusedVariables false

/-!
# Helper lemmas: the constants of the sine table as arguments
-/

namespace Tsym

open Expr NumPowerSimpl NumTrigo

variable {D : Type} [Flt D] [LawfulFlt D] {cfg : Cfg D}

theorem tot_isPos_num (q : ℚ) : Tot cfg (fun E => E.isPos (num (.rat q) : Expr D)) (decide (0 < q)) := by
  refine tot_isPos ?_
  have : Number.lt 0 (.rat q : Number D) = decide (0 < q) := by rw [Number.zero_def, lt_rat]
  simp only [isPos, this]; exact tot_pure _

theorem tot_isNeg_num (q : ℚ) : Tot cfg (fun E => E.isNeg (num (.rat q) : Expr D)) (decide (q < 0)) := by
  refine tot_isNeg ?_
  simp only [isNeg, NumPowerSimpl.rat_lt_zero]; exact tot_pure _

/-! ## Positive powers and their multiples -/

/-- A positive constant power. -/
structure PW (cfg : Cfg D) (b e : Expr D) : Prop where
  const : (Expr.pow b e).isConst = true
  pos : Tot cfg (fun E => E.isPos b) true
  int : isInteger e = .ok false

theorem PW.isPos {b e : Expr D} (h : PW cfg b e) : Tot cfg (fun E => E.isPos (.pow b e)) true := by
  refine tot_isPos ?_
  simp only [Tsym.isPos]
  refine tot_bind (tot_whenTrue h.pos) ?_
  simp only [if_true]; exact tot_pure _

theorem PW.expand {b e : Expr D} (h : PW cfg b e) : Tot cfg (fun E => E.expand (.pow b e)) (.pow b e) := by
  refine tot_expand ?_
  simp only [Tsym.expand]
  refine tot_bind (tot_lift h.int) ?_
  simp only [Bool.false_eq_true, if_false]; exact tot_pure _

theorem PW.signs {b e : Expr D} (h : PW cfg b e) {p : ℚ} (hp : p ≠ 0) :
    Tot cfg (fun E => E.isPos (.prod [num (.rat p), .pow b e])) (decide (0 < p)) ∧ Tot cfg (fun E => E.isNeg (.prod [num (.rat p), .pow b e])) (decide (p < 0)) := by
  have key : ∀ a : ℤ, Tot cfg (fun E => signOfProduct E a [Expr.pow b e]) a := by
    intro a
    simp only [signOfProduct]
    refine tot_bind (tot_whenTrue h.isPos) ?_
    simp only [if_true]; exact tot_pure _
  have hs : Tot cfg (fun E => signOfProduct E 1 [num (.rat p), .pow b e]) (if 0 < p then 1 else -1) := by
    simp only [signOfProduct]
    refine tot_bind (tot_whenTrue (tot_isPos_num p)) ?_
    by_cases hq : 0 < p
    · simp only [hq, decide_true, if_true]
      exact key 1
    · have hq' : p < 0 := lt_of_le_of_ne (not_lt.1 hq) hp
      simp only [hq, decide_false, Bool.false_eq_true, if_false]
      refine tot_bind (tot_whenTrue (tot_isNeg_num p)) ?_
      simp only [hq', decide_true, if_true]
      exact key _
  constructor
  · refine tot_isPos ?_
    simp only [Tsym.isPos]
    refine tot_bind hs ?_
    by_cases hq : 0 < p
    · simp only [hq, if_true, decide_true]; exact tot_pure _
    · simp only [hq, if_false, decide_false]; exact tot_pure _
  · refine tot_isNeg ?_
    simp only [Tsym.isNeg]
    refine tot_bind hs ?_
    by_cases hq : 0 < p
    · have hq' : ¬ p < 0 := by linarith
      simp only [hq, hq', if_true, decide_false]; exact tot_pure _
    · have hq' : p < 0 := lt_of_le_of_ne (not_lt.1 hq) hp
      simp only [hq, hq', if_false, decide_true]; exact tot_pure _

theorem PW.symm {b e : Expr D} (h : PW cfg b e) {p : ℚ} (hp : p ≠ 0) (hpr : Tot cfg (fun E => prodCreate E [num (.rat p), .pow b e]) (.prod [num (.rat p), .pow b e])) :
    Tot cfg (fun E => constTerm E (.prod [num (.rat p), .pow b e])) (.prod [num (.rat p), .pow b e]) ∧
    Tot cfg (fun E => doesSymmetryApply E (.prod [num (.rat p), .pow b e])) (decide (p < 0)) := by
  have hce : constElements [num (.rat p), .pow b e] = [num (.rat p), .pow b e] := by
    simp only [constElements]
    rw [List.filter_cons_of_pos (by simp [isConst]), List.filter_cons_of_pos h.const, List.filter_nil]
  have hct : Tot cfg (fun E => constTerm E (.prod [num (.rat p), .pow b e])) (.prod [num (.rat p), .pow b e]) := by
    simp only [constTerm, hce, List.isEmpty_cons, Bool.false_eq_true, if_false]
    exact Tsym.tot_prod hpr
  refine ⟨hct, ?_⟩
  simp only [doesSymmetryApply]
  refine tot_bind (a := .prod [num (.rat p), .pow b e]) (tot_expand ?_) (tot_bind hct (h.signs hp).2)
  simp only [Tsym.expand]
  refine tot_expandAsProduct ?_
  unfold expandAsProduct
  refine tot_bind (a := ([num (.rat p), .pow b e], [])) ?_ ?_
  · simp only [defScalarAndSums]
    exact tot_bind (a := num (.rat p)) (tot_expand (by simp only [Tsym.expand]; exact tot_pure _))
      (tot_bind (a := ([.pow b e], [])) (tot_bind h.expand (tot_bind (a := ([], [])) (tot_pure _) (tot_pure _))) (tot_pure _))
  · simp only [List.isEmpty_cons, Bool.false_eq_true, if_false]
    exact tot_bind (Tsym.tot_prod hpr) (tot_pure _)

theorem isInt_half (X : ℚ) (h : X = 1 / 2 ∨ X = -(1 / 2)) : isInteger (num (.rat X) : Expr D) = .ok false := by
  have : (Number.rat X : Number D).isInt = false := by
    rcases h with rfl | rfl
    · simp only [Number.isInt, Number.denominator, Number.isDouble, half_den]; rfl
    · have : (-(1 / 2) : ℚ).den = 2 := by rw [Rat.neg_den]; exact half_den
      simp only [Number.isInt, Number.denominator, Number.isDouble, this]; rfl
  simp only [isInteger, numEval, bind, Except.bind, pure, Except.pure, this]

/-- Roots of rational numbers. -/
theorem pw_root {a : ℚ} (ha : 0 < a) : ∃ b e : Expr D, rootE a = .pow b e ∧ PW cfg b e := by
  obtain ⟨B, X, hB, hX⟩ := rootE_cases (D := D) a
  have hc := rootE_isConst (D := D) a
  rw [hB] at hc
  refine ⟨_, _, hB, hc, ?_, isInt_half _ ?_⟩
  · have := tot_isPos_num (D := D) (cfg := cfg) B
    have hb : 0 < B := by
      rcases hX with ⟨_, rfl, _⟩ | ⟨_, rfl, _⟩
      · exact inv_pos.2 ha
      · exact ha
    simpa [hb] using this
  · rcases hX with ⟨_, _, rfl⟩ | ⟨_, _, rfl⟩ <;> simp

/-- Roots of positive sums. -/
theorem pw_sum {l : List (Expr D)} {x : ℝ} (hl : (Expr.sum l).isConst = true) (hx : Ev (.sum l) x) (h0 : 0 < x) : PW cfg (.sum l) (num (.rat (1 / 2))) := by
  refine ⟨by simp [isConst] at hl ⊢; exact hl, tot_isPos ?_, isInt_half _ (.inl rfl)⟩
  obtain ⟨n, h1, h2⟩ := hx
  simp only [Tsym.isPos]
  refine tot_bind (tot_lift h1) ?_
  have : Number.lt 0 n = true := by rw [Number.lt_iff, h2, Number.zero_def]; simpa using h0
  simp only [this]; exact tot_pure _

/-! ## The four kinds of constants -/

theorem cv_num {r : ℚ} (h : 0 ≤ r) : CV cfg (num (.rat r) : Expr D) r := by
  refine ⟨by exact_mod_cast h, rfl, rfl, exact_ratE _, rfl, ⟨.rat r, numEval_rat r, by simp⟩, ?_, ?_⟩
  · simp only [doesSymmetryApply]; exact tot_pure _
  · have := tot_isNeg_num (D := D) (cfg := cfg) r
    simpa [not_lt.2 h] using this

theorem nv_num {r : ℚ} (h : 0 < r) : NV cfg (num (.rat r) : Expr D) (num (.rat (-r))) r := by
  refine ⟨cv_num h.le, by exact_mod_cast h, rfl, rfl, rfl, ⟨.rat (-r), numEval_rat _, by simp⟩, ⟨false, ?_⟩, ?_, ?_⟩
  · simp only [doesSymmetryApply]; exact tot_pure _
  · have := tot_isNeg_num (D := D) (cfg := cfg) (-r)
    simpa [h] using this
  · unfold Eng.minus
    rw [mOne_rat]
    have := tot_num_num (D := D) (cfg := cfg) (p := -1) (q := -r) (by norm_num) (by simpa using h.ne')
    rw [show (-1 : ℚ) * -r = r by ring] at this
    exact tot_prod this

/-- A constant and its negative, where the value is known. -/
theorem NV.mk' (hc : cfg.Ok) {v w : Expr D} {x : ℝ} (h : CV cfg v x) (pos : 0 < x) (hu : w.isUndefined = false) (hf : w.isFunction = false)
    (hdb : w.isDoubleNumeric = false) (hd : ∀ σ : Asg, σ.Respects → den σ v = some x) (he : ∃ n : Number D, numEval w = .ok (some n))
    (hs : ∃ b, Tot cfg (fun E => doesSymmetryApply E w) b) (hn : (∃ l, w = .sum l) ∨ Tot cfg (fun E => E.isNeg w) true)
    (h1 : Tot cfg (fun E => prodCreate E [num (.rat (-1)), v]) w) (h2 : Tot cfg (fun E => prodCreate E [num (.rat (-1)), w]) v) :
    NV cfg v w x := by
  have hev : Ev w (-x) := by
    obtain ⟨n, hn⟩ := he
    refine ⟨n, hn, ?_⟩
    obtain ⟨N, hN⟩ := tot_prod h1
    let σ : Asg := fun _ => 1
    have hσ : σ.Respects := fun _ _ => by simp [σ]
    have hden : denProd σ [num (.rat (-1)), v] = some (-x) := by
      simp [denProd, hd σ hσ, den]
    exact numEval_val σ w n _ hn ((sound_eng hc N).prod hσ hden _ _ (hN N le_rfl) (by simp))
  refine ⟨h, pos, hu, hf, hdb, hev, hs, ?_, ?_⟩
  · rcases hn with ⟨l, rfl⟩ | hn
    · obtain ⟨n, h1, h2⟩ := hev
      refine tot_isNeg ?_
      simp only [Tsym.isNeg]
      refine tot_bind (tot_lift h1) ?_
      have : n.lt 0 = true := by rw [Number.lt_iff, h2, Number.zero_def]; simpa using pos
      simp only [this]; exact tot_pure _
    · exact hn
  · unfold Eng.minus
    rw [mOne_rat]; exact tot_prod h2

theorem prod_ops_exact {p : ℚ} {e : Expr D} (h : Exact e) : Exact (.prod [num (.rat p), e] : Expr D) := by
  refine exact_of_op (by simp) (by simp) fun o ho => ?_
  simp only [operands, List.mem_cons, List.not_mem_nil, or_false] at ho
  rcases ho with rfl | rfl
  · exact exact_ratE _
  · exact h

/-- The signs of multiples of roots. -/
theorem St.signs {p a : ℚ} (h : St cfg p a) :
    Tot cfg (fun E => E.isPos (surd p a : Expr D)) (decide (0 < p)) ∧ Tot cfg (fun E => E.isNeg (surd p a : Expr D)) (decide (p < 0)) ∧
    ∃ b, Tot cfg (fun E => doesSymmetryApply E (surd p a : Expr D)) b ∧ (0 < p → b = false) := by
  obtain ⟨b, e, hB, hw⟩ := pw_root (D := D) (cfg := cfg) h.simple.1
  by_cases hp : p = 1
  · subst hp
    rw [surd_one h.ne_one, hB]
    refine ⟨by simpa using hw.isPos, tot_isNeg ?_, false, ?_, fun _ => rfl⟩
    · simp only [isNeg, show ¬ (1 : ℚ) < 0 by norm_num, decide_false]; exact tot_pure _
    · simp only [doesSymmetryApply]; exact tot_pure _
  · have hpr := h.tot_prod (D := D) hp
    rw [surd_prod h.ne_one hp]
    rw [hB] at hpr ⊢
    refine ⟨(hw.signs h.ne).1, (hw.signs h.ne).2, _, (hw.symm h.ne hpr).2, fun c => ?_⟩
    simp [c.le]

theorem cv_surd {p a : ℚ} (h : St cfg p a) (hp : 0 < p) : CV cfg (surd p a : Expr D) (p * Real.sqrt a) := by
  obtain ⟨h1, h2, b, h3, h4⟩ := h.signs (D := D)
  obtain ⟨u, z, s, n, _⟩ := surd_facts (D := D) (cfg := cfg) h.ne_one h.ne
  rw [h4 hp] at h3
  refine ⟨by positivity, u, ?_, surd_exact _ _, ?_, surd_eval h.simple.1, h3, ?_⟩
  · obtain ⟨B, X, hB, _⟩ := rootE_cases (D := D) a
    unfold surd; rw [if_neg h.ne_one]; split_ifs
    · rw [hB]; rfl
    · rfl
  · obtain ⟨B, X, hB, _⟩ := rootE_cases (D := D) a
    unfold surd; rw [if_neg h.ne_one]; split_ifs
    · rw [hB]; rfl
    · rfl
  · simpa [not_lt.2 hp.le] using h2

/-- Multiples of roots of sums. -/
theorem msr_signs {p : ℚ} {l : List (Expr D)} {x : ℝ} (hl : (Expr.sum l).isConst = true) (hx : Ev (.sum l) x) (h0 : 0 < x) (hp : p ≠ 0) (hp1 : p ≠ 1) :
    Tot cfg (fun E => E.isNeg (msr p l : Expr D)) (decide (p < 0)) ∧ Tot cfg (fun E => doesSymmetryApply E (msr p l : Expr D)) (decide (p < 0)) := by
  have hw := pw_sum (cfg := cfg) hl hx h0
  exact ⟨(hw.signs hp).2, (hw.symm hp (tot_num_sr hp hp1 hl)).2⟩

theorem msr_eval {p : ℚ} {l : List (Expr D)} {x : ℝ} (hx : Ev (.sum l) x) (h0 : 0 < x) : Ev (msr p l : Expr D) (p * Real.sqrt x) := by
  obtain ⟨n, h1, h2⟩ := hx
  obtain ⟨r, h3, h4⟩ := Number.toThe_total (b := n) (e := 1 / 2) (by rw [h2]; exact h0) (by decide +kernel) (by decide +kernel)
  refine ⟨((1 : Number D).mul (.rat p)).mul r, ?_, ?_⟩
  · have : numEval (.pow (.sum l) (num (.rat (1 / 2))) : Expr D) = .ok (some r) := by
      rw [numEval]
      simp only [h1, numEval_rat, bind, Except.bind, pure, Except.pure, h3]
    unfold msr
    generalize Expr.pow (Expr.sum l) (num (.rat (1 / 2))) = e at this ⊢
    simp only [numEval, numEvalProd, this, bind, Except.bind, pure, Except.pure]
  · rw [Number.val_mul, Number.val_mul, h4, h2, Number.one_def, Real.sqrt_eq_rpow]; simp

theorem cv_msr {p : ℚ} {l : List (Expr D)} {x : ℝ} (hl : (Expr.sum l).isConst = true) (he : Exact (Expr.sum l)) (hx : Ev (.sum l) x) (h0 : 0 < x) (hp : 0 < p) (hp1 : p ≠ 1) :
    CV cfg (msr p l : Expr D) (p * Real.sqrt x) := by
  obtain ⟨h1, h2⟩ := msr_signs (cfg := cfg) hl hx h0 hp.ne' hp1
  simp only [not_lt.2 hp.le, decide_false] at h1 h2
  refine ⟨by positivity, rfl, rfl, prod_ops_exact ?_, rfl, msr_eval hx h0, h2, h1⟩
  refine exact_of_op (by simp) (by simp) fun o ho => ?_
  simp only [operands, List.mem_cons, List.not_mem_nil, or_false] at ho
  rcases ho with rfl | rfl
  · exact he
  · exact exact_ratE _

/-- Sums of two constants. -/
theorem sum2_symm {x y : Expr D} {b c : Bool} (hx : CS cfg x) (hy : CS cfg y) (h1 : Tot cfg (fun E => E.isPos x) b) (h2 : Tot cfg (fun E => E.isPos y) c) :
    Tot cfg (fun E => doesSymmetryApply E (.sum [x, y])) (!b && !c) := by
  simp only [doesSymmetryApply, haveAllNegativePrefactors]
  refine tot_bind hx.ct (tot_bind h1 ?_)
  cases b with
  | true => exact tot_pure _
  | false =>
    simp only [Bool.false_eq_true, if_false]
    refine tot_bind hy.ct (tot_bind h2 ?_)
    cases c <;> exact tot_pure _

theorem cv_sum2 {x y : Expr D} {a b : ℝ} {q : Bool} (hx : CS cfg x) (hy : CS cfg y) (h1 : Tot cfg (fun E => E.isPos x) true) (h2 : Tot cfg (fun E => E.isPos y) q)
    (ex : Exact x) (ey : Exact y) (ea : Ev x a) (eb : Ev y b) (h0 : 0 ≤ a + b) : CV cfg (.sum [x, y]) (a + b) := by
  obtain ⟨n, h3, h4⟩ := sum2_eval ea eb
  refine ⟨h0, rfl, rfl, ?_, rfl, ⟨n, h3, h4⟩, ?_, tot_isNeg ?_⟩
  · refine exact_of_op (by simp) (by simp) fun o ho => ?_
    simp only [operands, List.mem_cons, List.not_mem_nil, or_false] at ho
    rcases ho with rfl | rfl
    · exact ex
    · exact ey
  · simpa using sum2_symm hx hy h1 h2
  · simp only [isNeg]
    refine tot_bind (tot_lift h3) ?_
    have : n.lt 0 = false := by rw [Bool.eq_false_iff, Ne, Number.lt_iff, h4, Number.zero_def]; simpa using h0
    simp only [this]; exact tot_pure _

theorem CV.conv {v : Expr D} {x y : ℝ} (h : CV cfg v x) {σ : Asg} (hd : den σ v = some y) : x = y := by
  obtain ⟨n, h1, h2⟩ := h.ev
  rw [← h2]; exact numEval_val σ v n y h1 hd

/-! ## The table -/

open Angles in
/-- The negative entry. -/
theorem minus_of_plus (hc : cfg.Ok) (h6 : 6 ≤ cfg.maxPrime) {a : ℚ} {v w : Expr D} (hv : look (sinTab 1) a = some v) (hw : look (sinTab (-1)) a = some w) :
    Tot cfg (fun E => prodCreate E [num (.rat (-1)), v]) w ∧ Tot cfg (fun E => prodCreate E [num (.rat (-1)), w]) v := by
  constructor
  · rcases tot_sgn (D := D) hc h6 (q := a) (δ := -1) (ε := 1) (.inr rfl) (.inl rfl) with ⟨h1, _⟩ | ⟨x, y, h1, h2, h3⟩
    · rw [hv] at h1; cases h1
    · rw [mul_one] at h2
      rw [hv] at h1; rw [hw] at h2; cases h1; cases h2; exact h3
  · rcases tot_sgn (D := D) hc h6 (q := a) (δ := -1) (ε := -1) (.inr rfl) (.inr rfl) with ⟨h1, _⟩ | ⟨x, y, h1, h2, h3⟩
    · rw [hw] at h1; cases h1
    · rw [neg_mul_neg, mul_one] at h2
      rw [hw] at h1; rw [hv] at h2; cases h1; cases h2; exact h3

theorem sqrt2_lt : Real.sqrt 2 < 2 := by
  rw [Real.sqrt_lt' (by norm_num)]; norm_num

theorem ev_l2m : Ev (.sum l2m : Expr D) (2 + -1 * Real.sqrt 2) := by
  have := sum2_eval (D := D) (x := num (.rat 2)) (a := 2) ⟨.rat 2, rfl, by simp⟩ (surd_eval (p := -1) (a := 2) (by norm_num))
  obtain ⟨n, h1, h2⟩ := this
  exact ⟨n, h1, by rw [h2]; norm_num⟩

theorem ev_l2p : Ev (.sum l2p : Expr D) (2 + Real.sqrt 2) := by
  have := sum2_eval (D := D) (x := num (.rat 2)) (a := 2) ⟨.rat 2, rfl, by simp⟩ (surd_eval (p := 1) (a := 2) (by norm_num))
  obtain ⟨n, h1, h2⟩ := this
  exact ⟨n, h1, by rw [h2]; norm_num⟩

theorem exact_sum2 {x y : Expr D} (ex : Exact x) (ey : Exact y) : Exact (.sum [x, y]) := by
  refine exact_of_op (by simp) (by simp) fun o ho => ?_
  simp only [operands, List.mem_cons, List.not_mem_nil, or_false] at ho
  rcases ho with rfl | rfl
  · exact ex
  · exact ey

theorem exact_l2m : Exact (.sum l2m : Expr D) := exact_sum2 (exact_ratE _) (surd_exact _ _)
theorem exact_l2p : Exact (.sum l2p : Expr D) := exact_sum2 (exact_ratE _) (surd_exact _ _)

/-- What is needed of a negative entry. -/
structure Neg1 (cfg : Cfg D) (w : Expr D) : Prop where
  undef : w.isUndefined = false
  func : w.isFunction = false
  dbl : w.isDoubleNumeric = false
  ev : ∃ n : Number D, numEval w = .ok (some n)
  symm : ∃ b, Tot cfg (fun E => doesSymmetryApply E w) b
  neg : (∃ l, w = .sum l) ∨ Tot cfg (fun E => E.isNeg w) true

theorem neg1_num {r : ℚ} (h : r < 0) : Neg1 cfg (num (.rat r) : Expr D) := by
  have := nv_num (D := D) (cfg := cfg) (r := -r) (by linarith)
  rw [neg_neg] at this
  obtain ⟨n, h1, _⟩ := this.ev
  exact ⟨rfl, rfl, rfl, ⟨n, h1⟩, this.symm, .inr this.neg⟩

theorem neg1_surd {p a : ℚ} (h : St cfg p a) (hp : p < 0) : Neg1 cfg (surd p a : Expr D) := by
  obtain ⟨h1, h2, b, h3, _⟩ := h.signs (D := D)
  obtain ⟨n, h4, _⟩ := surd_eval (D := D) (p := p) h.simple.1
  refine ⟨?_, ?_, ?_, ⟨n, h4⟩, ⟨b, h3⟩, .inr (by simpa [hp] using h2)⟩ <;>
    (rw [surd_prod h.ne_one (by linarith)]; rfl)

theorem neg1_msr {p : ℚ} {l : List (Expr D)} {x : ℝ} (hl : (Expr.sum l).isConst = true) (hx : Ev (.sum l) x) (h0 : 0 < x) (hp : p < 0) : Neg1 cfg (msr p l : Expr D) := by
  obtain ⟨h1, h2⟩ := msr_signs (cfg := cfg) hl hx h0 hp.ne (by linarith)
  obtain ⟨n, h4, _⟩ := msr_eval (p := p) hx h0
  exact ⟨rfl, rfl, rfl, ⟨n, h4⟩, ⟨_, h2⟩, .inr (by simpa [hp] using h1)⟩

theorem neg1_sum2 {x y : Expr D} {a b : ℝ} {p q : Bool} (hx : CS cfg x) (hy : CS cfg y) (h1 : Tot cfg (fun E => E.isPos x) p) (h2 : Tot cfg (fun E => E.isPos y) q)
    (ea : Ev x a) (eb : Ev y b) : Neg1 cfg (.sum [x, y]) := by
  obtain ⟨n, h3, _⟩ := sum2_eval ea eb
  exact ⟨rfl, rfl, rfl, ⟨n, h3⟩, ⟨_, sum2_symm hx hy h1 h2⟩, .inl ⟨_, rfl⟩⟩

theorem Neg1.nv (hc : cfg.Ok) {v w : Expr D} {x : ℝ} (h : CV cfg v x) (hw : Neg1 cfg w) (pos : 0 < x) (hd : ∀ σ : Asg, σ.Respects → den σ v = some x)
    (hp : Tot cfg (fun E => prodCreate E [num (.rat (-1)), v]) w ∧ Tot cfg (fun E => prodCreate E [num (.rat (-1)), w]) v) : NV cfg v w x :=
  NV.mk' hc h pos hw.undef hw.func hw.dbl hd hw.ev hw.symm hw.neg hp.1 hp.2

/-- The entries of the sine table as arguments. -/
theorem sin_entries (h6 : 6 ≤ cfg.maxPrime) : ∀ p ∈ (sinTab 1 : List (ℚ × Expr D)), ∃ x, CV cfg p.2 x := by
  have s32 : 0 < Real.sqrt (3 / 2 : ℚ) := Real.sqrt_pos.2 (by norm_num)
  have s12 : 0 < Real.sqrt (1 / 2 : ℚ) := Real.sqrt_pos.2 (by norm_num)
  have lt : Real.sqrt (1 / 2 : ℚ) < Real.sqrt (3 / 2 : ℚ) := Real.sqrt_lt_sqrt (by norm_num) (by norm_num)
  have a1 := (st_h32 (D := D) h6)
  have a2 := (st_mh12 (D := D) h6)
  have a3 := (st_h12 (D := D) h6)
  intro p hp
  simp only [sinTab, List.mem_cons, List.not_mem_nil, or_false] at hp
  rcases hp with rfl | rfl | rfl | rfl | rfl | rfl | rfl | rfl | rfl
  · rw [zero_eq]; exact ⟨_, cv_num le_rfl⟩
  · exact ⟨_, cv_sum2 a1.cs a2.cs (by simpa using (a1.signs (D := D)).1) (a2.signs).1 (surd_exact _ _) (surd_exact _ _) (surd_eval (by norm_num)) (surd_eval (by norm_num))
      (by push_cast; push_cast at lt; nlinarith)⟩
  · exact ⟨_, cv_msr l2m_const exact_l2m ev_l2m (by linarith [sqrt2_lt]) (by norm_num) (by norm_num)⟩
  · exact ⟨_, cv_num (by norm_num)⟩
  · exact ⟨_, cv_surd (st_12 h6) (by norm_num)⟩
  · exact ⟨_, cv_surd (st_h3 h6) (by norm_num)⟩
  · exact ⟨_, cv_msr l2p_const exact_l2p ev_l2p (by positivity) (by norm_num) (by norm_num)⟩
  · exact ⟨_, cv_sum2 a1.cs a3.cs (by simpa using (a1.signs (D := D)).1) (a3.signs).1 (surd_exact _ _) (surd_exact _ _) (surd_eval (by norm_num)) (surd_eval (by norm_num))
      (by positivity)⟩
  · exact ⟨_, cv_num (by norm_num)⟩

/-- The negative entries. -/
theorem sin_neg_entries (h6 : 6 ≤ cfg.maxPrime) : ∀ p ∈ (sinTab (-1) : List (ℚ × Expr D)), p.1 ≠ 0 → Neg1 cfg p.2 := by
  have a1 := (st_mh32 (D := D) h6)
  have a2 := (st_mh12 (D := D) h6)
  have a3 := (st_h12 (D := D) h6)
  intro p hp
  simp only [sinTab, List.mem_cons, List.not_mem_nil, or_false, neg_neg] at hp
  rcases hp with rfl | rfl | rfl | rfl | rfl | rfl | rfl | rfl | rfl
  · intro c; exact absurd rfl c
  · exact fun _ => neg1_sum2 a1.cs a3.cs a1.signs.1 a3.signs.1 (surd_eval (by norm_num)) (surd_eval (by norm_num))
  · exact fun _ => neg1_msr l2m_const ev_l2m (by linarith [sqrt2_lt]) (by norm_num)
  · exact fun _ => neg1_num (by norm_num)
  · exact fun _ => neg1_surd (st_m12 h6) (by norm_num)
  · exact fun _ => neg1_surd (st_mh3 h6) (by norm_num)
  · exact fun _ => neg1_msr l2p_const ev_l2p (by positivity) (by norm_num)
  · exact fun _ => neg1_sum2 a1.cs a2.cs a1.signs.1 a2.signs.1 (surd_eval (by norm_num)) (surd_eval (by norm_num))
  · exact fun _ => neg1_num (by norm_num)

end Tsym
