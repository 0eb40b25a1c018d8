import Verif.TrigTable
import Mathlib.Analysis.Real.Pi.Irrational

set_option autoImplicit false
set_option linter.unusedSectionVars false
set_option linter.unusedSimpArgs false
set_option linter.unusedVariables false

/-!
# Helper lemmas: sine and cosine of rational multiples of π
-/

namespace Tsym

open Expr NumPowerSimpl

variable {D : Type} [Flt D] [LawfulFlt D] {cfg : Cfg D}

namespace NumTrigo

theorem tot_getValueNumEval {q : ℚ} {n : Number D} (hn : n.val = q * Real.pi) : ∀ tab : List (ℚ × Expr D),
    Tot cfg (fun _ => getValueNumEval n (tab.map ent)) (look tab q)
  | [] => by simp only [List.map_nil, getValueNumEval, look_nil]; exact tot_pure _
  | p :: tab => by
    have ih := tot_getValueNumEval hn tab
    simp only [List.map_cons, getValueNumEval]
    obtain ⟨x, h1, h2⟩ := piM_eval (D := D) p.1
    have hb : x.eqv n = decide (p.1 = q) := by
      rw [Bool.eq_iff_iff, Number.eqv_iff, h2, hn, decide_eq_true_eq]
      constructor
      · intro h; exact_mod_cast mul_right_cancel₀ Real.pi_ne_zero h
      · rintro rfl; rfl
    refine tot_bind (a := decide (p.1 = q)) ?_ ?_
    · unfold evalsTo
      refine tot_bind (tot_lift (by simpa only [ent] using h1)) ?_
      simp only [hb]; exact tot_pure _
    · rw [look_cons]
      by_cases h : p.1 = q
      · simp only [h, decide_true, if_true]
        exact tot_bind tot_emit (tot_pure _)
      · simp only [h, decide_false, Bool.false_eq_true, if_false]
        exact ih

theorem tot_evalE {e : Expr D} {x : Number D} (h : numEval e = .ok (some x)) : Tot cfg (fun _ => evalE e) x := by
  unfold evalE
  exact tot_bind (tot_lift h) (tot_pure _)

theorem find_ent (tab : List (ℚ × Expr D)) (q : ℚ) :
    (tab.map ent).find? (fun t => isEqual t.key (piM q)) = (tab.find? fun p => decide (p.1 = q)).map ent := by
  rw [List.find?_map]
  congr 2
  funext p
  simp [ent, piM_isEqual]

theorem tot_getValue (tab : List (ℚ × Expr D)) (q : ℚ) : Tot cfg (fun _ => getValue (piM q) (tab.map ent)) (look tab q) := by
  unfold getValue
  rw [find_ent]
  cases h : tab.find? (fun p => decide (p.1 = q)) with
  | some p =>
    have e : look tab q = some p.2 := by simp [look, h]
    simp only [Option.map_some, e]
    exact tot_bind tot_emit (tot_pure _)
  | none =>
    simp only [Option.map_none]
    obtain ⟨x, h1, h2⟩ := piM_eval (D := D) q
    exact tot_bind (tot_evalE h1) (tot_getValueNumEval h2 tab)

/-- The sign of the sine of an angle from zero to two (in units of π). -/
def sg (r : ℚ) : ℚ := if r < 1 then 1 else -1

theorem sg_unit (r : ℚ) : Unit1 (sg r) := by unfold sg; split_ifs <;> simp [Unit1]

/-- The sine of `q` times π. -/
def sinOf (q : ℚ) : Option (Expr D) := look (sinTab (sg (rem2 q))) (first (rem2 q))

theorem piM_isDouble (q : ℚ) : (piM q : Expr D).isDoubleNumeric = false := by
  unfold piM; split_ifs <;> rfl

theorem tot_sin (hc : cfg.Ok) (h6 : 6 ≤ cfg.maxPrime) {o : Expr D} (ho : o.isDoubleNumeric = false) (q : ℚ) :
    Tot cfg (fun E => sin E o (piM (rem2 q))) (sinOf q) := by
  unfold sin
  refine tot_bind (tot_getQuadrant hc (rem2_nonneg q) (rem2_lt q)) (tot_bind (tot_shiftToFirst hc _) (tot_bind (tot_sineTable hc h6) (tot_bind (tot_getValue _ _) ?_)))
  have hs : (if 2 < quad (rem2 q) then -1 else 1 : ℤ) = if rem2 q < 1 then 1 else -1 := by
    unfold quad
    split_ifs <;> first | rfl | omega | (exfalso; linarith)
  rw [hs]
  unfold sinOf
  rcases tot_sgn (D := D) hc h6 (q := first (rem2 q)) (sg_unit (rem2 q)) (ε := 1) (.inl rfl) with ⟨h1, h2⟩ | ⟨v, v', h1, h2, h3⟩
  · rw [mul_one] at h2
    rw [h1, h2]
    simp only [ho, Bool.false_eq_true, if_false]
    exact tot_pure _
  · rw [mul_one] at h2
    rw [h1, h2]
    unfold timesSign
    have e : (Expr.int (if rem2 q < 1 then 1 else -1) : Expr D) = num (.rat (sg (rem2 q))) := by
      unfold sg Expr.int; split_ifs <;> simp
    simp only [e]
    exact tot_bind (tot_prod h3) (tot_pure _)

theorem tot_prepare (hc : cfg.Ok) (q : ℚ) : Tot cfg (fun E => prepare E (piM q)) (some (piM (rem2 q))) := by
  unfold prepare
  by_cases h0 : q = 0
  · subst h0
    have z : (piM 0 : Expr D).isZero = true := by rw [piM_isZero]; simp
    simp only [z, if_true]
    refine tot_bind (tot_pure _) ?_
    simp only [Bool.false_eq_true, if_false]
    obtain ⟨r, h1, h2⟩ := Number.toThe_total (b := (.ofDouble Flt.pi : Number D)) (e := -1) (by rw [Number.val_ofDouble, LawfulFlt.pi]; exact Real.pi_pos)
      (by decide +kernel) (by decide +kernel)
    have hd : (Number.rat 0 : Number D).div (.ofDouble Flt.pi) = .ok ((Number.rat 0).mul r) := by
      unfold Number.div
      rw [Number.neg_one_def, h1]; rfl
    have hz : (num ((Number.rat 0).mul r) : Expr D).isZero = true := by
      simp only [isZero]
      rw [Number.eqv_iff, Number.val_mul, Number.zero_def]; simp
    have := tot_adjustArgRange (D := D) hc 0
    rw [piM_zero, zero_eq] at this ⊢
    refine tot_bind (a := num (.rat 0)) ?_ (tot_bind this (tot_pure _))
    refine tot_bind (tot_lift hd) (tot_prod ?_)
    simp only [prodCreate, List.any_cons, List.any_nil, show ∀ n : Number D, (num n : Expr D).isUndefined = false from fun _ => rfl,
      show (piE : Expr D).isUndefined = false from rfl, hz, Bool.or_self, Bool.false_eq_true, if_false, Bool.true_or, if_true, zero_eq]
    exact tot_pure _
  · have z : (piM q : Expr D).isZero = false := by rw [piM_isZero]; simpa using h0
    simp only [z, Bool.false_eq_true, if_false]
    have hr : isRationalNumeric (piM q : Expr D) = .ok false := by
      obtain ⟨x, h1, h2⟩ := piM_eval (D := D) q
      unfold isRationalNumeric
      simp only [h1, bind, Except.bind, pure, Except.pure]
      cases x with
      | dbl d => rfl
      | rat p =>
        exfalso
        have hq : (q : ℝ) ≠ 0 := by exact_mod_cast h0
        refine irrational_pi ⟨p / q, ?_⟩
        rw [Number.val_rat] at h2
        push_cast
        rw [h2]; field_simp
    refine tot_bind (tot_lift hr) ?_
    simp only [Bool.false_eq_true, if_false]
    refine tot_bind (a := piM q) ?_ (tot_bind (tot_adjustArgRange hc q) (tot_pure _))
    unfold piM; split_ifs <;> exact tot_pure _

theorem tot_simplSin (hc : cfg.Ok) (h6 : 6 ≤ cfg.maxPrime) (q : ℚ) : Tot cfg (fun E => simplSin E (piM q)) (sinOf q : Option (Expr D)) := by
  unfold simplSin
  exact tot_bind (tot_prepare hc q) (tot_sin hc h6 (piM_isDouble q) q)

theorem tot_simplCos (hc : cfg.Ok) (h6 : 6 ≤ cfg.maxPrime) (q : ℚ) : Tot cfg (fun E => simplCos E (piM q)) (sinOf (q + 1 / 2) : Option (Expr D)) := by
  unfold simplCos
  refine tot_bind (tot_prepare hc q) ?_
  unfold cos
  refine tot_bind (tot_timesPi _) (tot_bind (tot_sum (tot_sum_piM _ _)) (tot_bind (tot_adjustArgRange hc _) ?_))
  have := tot_sin hc h6 (piM_isDouble (D := D) q) (rem2 q + 1 / 2)
  have e : (sinOf (rem2 q + 1 / 2) : Option (Expr D)) = sinOf (q + 1 / 2) := by
    unfold sinOf
    have : rem2 (rem2 q + 1 / 2) = rem2 (q + 1 / 2) := by
      have h := rem2_add (q + 1 / 2) (-⌊q / 2⌋)
      rw [← h]
      congr 1
      unfold rem2
      push_cast; ring
    rw [this]
  rwa [e] at this

end NumTrigo

/-! ## Symmetry -/

theorem tot_symm_piM (q : ℚ) : Tot cfg (fun E => doesSymmetryApply E (piM q : Expr D)) (decide (q < 0)) := by
  by_cases h0 : q = 0
  · subst h0; rw [piM_zero]; exact tot_pure _
  by_cases h1 : q = 1
  · subst h1; rw [piM_one, show decide ((1 : ℚ) < 0) = false by norm_num]; exact tot_pure _
  have ht := (piM_terms (D := D) (cfg := cfg) h0).2
  have hx : Tot cfg (fun E => E.expand (piM q : Expr D)) (piM q) := by
    refine tot_expand ?_
    rw [piM_else h0 h1]
    simp only [expand]
    refine tot_expandAsProduct ?_
    unfold expandAsProduct
    refine tot_bind (a := ([num (.rat q), .cst .pi], [])) ?_ ?_
    · simp only [defScalarAndSums]
      refine tot_bind (a := num (.rat q)) (tot_expand (by simp only [expand]; exact tot_pure _))
        (tot_bind (a := ([.cst .pi], [])) (tot_bind (a := .cst .pi) (tot_expand (by simp only [expand]; exact tot_pure _)) (tot_bind (a := ([], [])) (tot_pure _) (tot_pure _))) (tot_pure _))
    · simp only [List.isEmpty_cons, Bool.false_eq_true, if_false]
      have := tot_prod_pi (D := D) (cfg := cfg) q
      rw [piM_else h0 h1] at this
      exact tot_bind (tot_prod this) (tot_pure _)
  rw [piM_else h0 h1] at ht hx ⊢
  simp only [doesSymmetryApply]
  refine tot_bind hx (tot_bind ht (tot_isNeg ?_))
  simp only [isNeg, rat_lt_zero]; exact tot_pure _

namespace NumTrigo

theorem rem2_neg (q : ℚ) : rem2 (-q) = if rem2 q = 0 then 0 else 2 - rem2 q := by
  have h0 := rem2_nonneg q
  have h2 := rem2_lt q
  split_ifs with h
  · have e : -q = 0 + 2 * ((-⌊q / 2⌋ : ℤ) : ℚ) := by unfold rem2 at h; push_cast; linarith
    rw [e, rem2_add, rem2_self le_rfl (by norm_num)]
  · have h0 : 0 < rem2 q := lt_of_le_of_ne h0 (Ne.symm h)
    have e : -q = (2 - rem2 q) + 2 * ((-⌊q / 2⌋ - 1 : ℤ) : ℚ) := by unfold rem2; push_cast; ring
    rw [e, rem2_add, rem2_self (by linarith) (by linarith)]

theorem look_zero (ε : ℚ) : look (sinTab ε) 0 = some (zero : Expr D) := by
  unfold sinTab; rw [look_cons, if_pos rfl]

/-- The sine is odd. -/
theorem sinOf_neg (q : ℚ) : look (sinTab (-1 * sg (rem2 (-q)))) (first (rem2 (-q))) = (sinOf q : Option (Expr D)) := by
  have h0 := rem2_nonneg q
  have h2 := rem2_lt q
  unfold sinOf
  rw [rem2_neg]
  by_cases h : rem2 q = 0
  · rw [if_pos h, h, show first 0 = 0 by norm_num [first], look_zero, look_zero]
  rw [if_neg h]
  by_cases h1 : rem2 q = 1
  · rw [h1, show (2 : ℚ) - 1 = 1 by norm_num, show first 1 = 0 by norm_num [first], look_zero, look_zero]
  have h3 : 0 < rem2 q := lt_of_le_of_ne h0 (Ne.symm h)
  have e1 : first (2 - rem2 q) = first (rem2 q) := by
    unfold first; split_ifs <;> linarith
  have e2 : -1 * sg (2 - rem2 q) = sg (rem2 q) := by
    unfold sg
    rcases lt_or_gt_of_ne h1 with h1 | h1
    · rw [if_neg (by linarith), if_pos h1]; norm_num
    · rw [if_pos (by linarith), if_neg (by linarith)]; norm_num
  rw [e1, e2]

theorem rem2_congr {p q : ℚ} (k : ℤ) (h : p = q + 2 * k) : rem2 p = rem2 q := by rw [h, rem2_add]

/-- The sine of the supplementary angle. -/
theorem sinOf_supp (q : ℚ) : (sinOf (1 - q) : Option (Expr D)) = sinOf q := by
  have h0 := rem2_nonneg q
  have h2 := rem2_lt q
  have e : rem2 (1 - q) = if rem2 q ≤ 1 then 1 - rem2 q else 3 - rem2 q := by
    split_ifs with h
    · rw [rem2_congr (p := 1 - q) (q := 1 - rem2 q) (-⌊q / 2⌋) (by unfold rem2; push_cast; ring), rem2_self (by linarith) (by linarith)]
    · rw [rem2_congr (p := 1 - q) (q := 3 - rem2 q) (-⌊q / 2⌋ - 1) (by unfold rem2; push_cast; ring), rem2_self (by linarith) (by linarith)]
  unfold sinOf
  rw [e]
  by_cases a : rem2 q = 0
  · rw [a, if_pos (by norm_num), show first (1 - 0) = 0 by norm_num [first], show first 0 = 0 by norm_num [first], look_zero, look_zero]
  by_cases b : rem2 q = 1
  · rw [b, if_pos le_rfl, show first (1 - 1) = 0 by norm_num [first], show first 1 = 0 by norm_num [first], look_zero, look_zero]
  have a' : 0 < rem2 q := lt_of_le_of_ne h0 (Ne.symm a)
  have e1 : first (if rem2 q ≤ 1 then 1 - rem2 q else 3 - rem2 q) = first (rem2 q) := by
    unfold first; split_ifs <;> linarith
  have e2 : sg (if rem2 q ≤ 1 then 1 - rem2 q else 3 - rem2 q) = sg (rem2 q) := by
    have b' : rem2 q ≤ 1 → rem2 q < 1 := fun h => lt_of_le_of_ne h b
    unfold sg; split_ifs with x y z z y z <;> first | rfl | (exfalso; have := b' ‹_›; linarith) | (exfalso; linarith)
  rw [e1, e2]

end NumTrigo

/-! ## The functions -/

open NumTrigo

/-- The sine of a rational multiple of π. -/
def sinRes (q : ℚ) : Expr D :=
  (sinOf q).getD (if q < 0 then .prod [mOne, .fn .sin (piM (-q))] else .fn .sin (piM q))

/-- The cosine of a rational multiple of π. -/
def cosRes (q : ℚ) : Expr D := (sinOf (q + 1 / 2)).getD (.fn .cos (piM |q|))

theorem tot_numerically {f : Fn} {q : ℚ} (hq : 0 ≤ q) {r : Option (Expr D)} (h : Tot cfg (fun E => NumTrigo.simplify E f (piM q)) r) :
    Tot cfg (fun E => createNumerically E f (piM q)) (r.getD (.fn f (piM q))) := by
  unfold createNumerically
  refine tot_bind h ?_
  cases r with
  | some v => exact tot_pure _
  | none =>
    dsimp only
    refine tot_bind (tot_silent (tot_isNeg_piM q)) ?_
    simp only [not_lt.2 hq, decide_false, Bool.false_eq_true, if_false]
    exact tot_pure _

theorem tot_trig_piM {f : Fn} {q : ℚ} (hq : 0 ≤ q) {r : Option (Expr D)} (h : Tot cfg (fun E => NumTrigo.simplify E f (piM q)) r) :
    Tot cfg (fun E => trigCreate E f (piM q)) (r.getD (.fn f (piM q))) := by
  simp only [trigCreate_plain _ f (piM_isUndefined q) (piM_isFunction q)]
  refine tot_bind (tot_silent (tot_symm_piM q)) ?_
  simp only [not_lt.2 hq, decide_false, Bool.false_eq_true, if_false]
  obtain ⟨x, h1, _⟩ := piM_eval (D := D) q
  refine tot_bind (tot_lift h1) ?_
  exact tot_numerically hq h

theorem tot_sin_pi (hc : cfg.Ok) (h6 : 6 ≤ cfg.maxPrime) (q : ℚ) : Tot cfg (fun E => trigCreate E .sin (piM q)) (sinRes q : Expr D) := by
  have pos : ∀ {q : ℚ}, 0 ≤ q → Tot cfg (fun E => trigCreate E .sin (piM q)) ((sinOf q).getD (.fn .sin (piM q)) : Expr D) := fun {q} hq =>
    tot_trig_piM hq (tot_simplSin hc h6 q)
  unfold sinRes
  by_cases hq : q < 0
  · refine tot_trig_symm (piM_isUndefined q) (piM_isFunction q) (by have := tot_symm_piM (D := D) (cfg := cfg) q; simpa [hq] using this) ?_
    unfold createBySymmetry
    refine tot_bind (tot_minus_piM (D := D) hc q) (tot_bind (Tsym.tot_trig (pos (q := -q) (by linarith))) ?_)
    rcases tot_sgn (D := D) hc h6 (q := first (rem2 (-q))) (δ := -1) (.inr rfl) (sg_unit (rem2 (-q))) with ⟨h1, h2⟩ | ⟨v, v', h1, h2, h3⟩
    · rw [sinOf_neg] at h2
      rw [show (sinOf (-q) : Option (Expr D)) = none from h1, h2]
      simp only [hq, if_true, Option.getD_none]
      exact tot_minus_fn (piM_exact _)
    · rw [sinOf_neg] at h2
      rw [show (sinOf (-q) : Option (Expr D)) = some v from h1, h2]
      unfold Eng.minus
      rw [mOne_rat]
      exact tot_prod h3
  · have := pos (not_lt.1 hq)
    simpa only [hq, if_false] using this

theorem tot_cos_pi (hc : cfg.Ok) (h6 : 6 ≤ cfg.maxPrime) (q : ℚ) : Tot cfg (fun E => trigCreate E .cos (piM q)) (cosRes q : Expr D) := by
  have pos : ∀ {q : ℚ}, 0 ≤ q → Tot cfg (fun E => trigCreate E .cos (piM q)) ((sinOf (q + 1 / 2)).getD (.fn .cos (piM q)) : Expr D) := fun {q} hq =>
    tot_trig_piM hq (tot_simplCos hc h6 q)
  unfold cosRes
  by_cases hq : q < 0
  · refine tot_trig_symm (piM_isUndefined q) (piM_isFunction q) (by have := tot_symm_piM (D := D) (cfg := cfg) q; simpa [hq] using this) ?_
    unfold createBySymmetry
    refine tot_bind (tot_minus_piM hc q) ?_
    have := pos (q := -q) (by linarith)
    have e : (sinOf (-q + 1 / 2) : Option (Expr D)) = sinOf (q + 1 / 2) := by
      rw [← sinOf_supp (q + 1 / 2)]; congr 1; ring
    rw [e] at this
    rw [abs_of_neg hq]
    exact tot_bind (Tsym.tot_trig this) (tot_pure _)
  · have := pos (not_lt.1 hq)
    rw [abs_of_nonneg (not_lt.1 hq)]
    exact this

end Tsym
