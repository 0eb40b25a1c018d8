import Verif.TrigVal
import Verif.NumEvalThm

set_option autoImplicit false
set_option linter.unusedSectionVars false
set_option linter.unusedSimpArgs false
set_option linter.unusedVariables false

/-!
# Helper lemmas: asin, acos and atan of constants
-/

namespace Tsym

open Expr NumPowerSimpl

variable {D : Type} [Flt D] [LawfulFlt D] {cfg : Cfg D}

/-- The numerical value of an expression. -/
def Ev (v : Expr D) (x : ℝ) : Prop := ∃ n : Number D, numEval v = .ok (some n) ∧ n.val = x

/-- A constant that is not negative. -/
structure CV (cfg : Cfg D) (v : Expr D) (x : ℝ) : Prop where
  nonneg : 0 ≤ x
  undef : v.isUndefined = false
  func : v.isFunction = false
  exact : Exact v
  dbl : v.isDoubleNumeric = false
  ev : Ev v x
  symm : Tot cfg (fun E => doesSymmetryApply E v) false
  neg : Tot cfg (fun E => E.isNeg v) false

/-- A negative constant `w`, where `-w` is `v`. -/
structure NV (cfg : Cfg D) (v w : Expr D) (x : ℝ) : Prop where
  cv : CV cfg v x
  pos : 0 < x
  undef : w.isUndefined = false
  func : w.isFunction = false
  dbl : w.isDoubleNumeric = false
  ev : Ev w (-x)
  symm : ∃ b, Tot cfg (fun E => doesSymmetryApply E w) b
  neg : Tot cfg (fun E => E.isNeg w) true
  minus : Tot cfg (fun E => E.minus w) v

namespace NumTrigo

/-- The values in a table. -/
def TabOk (g : ℚ → ℝ) (tab : List (ℚ × Expr D)) : Prop := ∀ p ∈ tab, p.2 = .undef ∨ (p.2.isUndefined = false ∧ Exact p.2 ∧ Ev p.2 (g p.1))

open Classical in
/-- The angle of a value. -/
noncomputable def keyOf (g : ℚ → ℝ) (tab : List (ℚ × Expr D)) (x : ℝ) : Option ℚ :=
  (tab.find? fun p => decide (p.2.isUndefined = false ∧ x = g p.1)).map Prod.fst

theorem tot_getKey {g : ℚ → ℝ} {v : Expr D} {x : ℝ} {n : Number D} (hv : Exact v) (hn : numEval v = .ok (some n)) (hx : n.val = x) :
    ∀ {tab : List (ℚ × Expr D)}, TabOk g tab → Tot cfg (fun _ => getKey v (some n) (tab.map ent)) ((keyOf g tab x).map piM)
  | [], _ => by simp only [List.map_nil, getKey, keyOf, List.find?_nil, Option.map_none]; exact tot_pure _
  | p :: tab, h => by
    have ih := tot_getKey hv hn hx (g := g) (tab := tab) (fun p hp => h p (List.mem_cons_of_mem _ hp))
    simp only [List.map_cons, getKey]
    rcases h p (List.mem_cons_self ..) with hu | ⟨hu, he, m, hm, hg⟩
    · have hk : keyOf g (p :: tab) x = keyOf g tab x := by
        unfold keyOf
        rw [List.find?_cons_of_neg (by rw [hu]; simp [Expr.isUndefined])]
      have e : (ent p).value.isUndefined = true := by simp only [ent, hu]; rfl
      simp only [e, if_true]
      rw [hk]; exact ih
    · have e : (ent p).value.isUndefined = false := hu
      simp only [e, Bool.false_eq_true, if_false]
      by_cases hxe : x = g p.1
      · have hk : keyOf g (p :: tab) x = some p.1 := by
          unfold keyOf
          rw [List.find?_cons_of_pos (by simp [hu, hxe])]; rfl
        rw [hk]
        by_cases hq : isEqual v (ent p).value = true
        · simp only [hq, if_true]
          exact tot_bind tot_emit (tot_pure _)
        · simp only [hq, if_false]
          refine tot_bind (tot_lift (show numEval (ent p).value = _ from hm)) ?_
          have : n.eqv m = true := by rw [Number.eqv_iff, hx, hg, hxe]
          simp only [this, if_true]
          exact tot_bind tot_emit (tot_pure _)
      · have hk : keyOf g (p :: tab) x = keyOf g tab x := by
          unfold keyOf
          rw [List.find?_cons_of_neg (by simp [hxe])]
        have hq : isEqual v (ent p).value = false := by
          refine isEqual_ne hv he fun c => hxe ?_
          have : numEval v = numEval p.2 := by rw [c]; rfl
          rw [hn, hm] at this
          simp only [Except.ok.injEq, Option.some.injEq] at this
          rw [← hx, ← hg, this]
        simp only [hq, Bool.false_eq_true, if_false]
        refine tot_bind (tot_lift (show numEval (ent p).value = _ from hm)) ?_
        have : n.eqv m = false := by rw [← Bool.not_eq_true, Number.eqv_iff, hx, hg]; exact hxe
        simp only [this, Bool.false_eq_true, if_false]
        rw [hk]; exact ih

theorem tot_timesSign (hc : cfg.Ok) (s : ℤ) (q : ℚ) : Tot cfg (fun E => timesSign E s (piM q : Expr D)) (piM (s * q)) := by
  unfold timesSign
  exact tot_prod (tot_num_piM hc s q)

end NumTrigo

open NumTrigo

theorem optLt_zero {n : Number D} : optLt (some n) (some 0) = decide (n.val < 0) := by
  simp only [optLt]
  rw [Bool.eq_iff_iff, Number.lt_iff, decide_eq_true_eq, Number.zero_def, Number.val_rat]; simp

theorem CV.tot_prepare {v : Expr D} {x : ℝ} (h : CV cfg v x) : Tot cfg (fun E => prepareInverse E v) (1, v) := by
  obtain ⟨n, h1, h2⟩ := h.ev
  unfold prepareInverse
  refine tot_bind (tot_lift h1) ?_
  have : ¬ (n.val < 0) := by rw [h2]; exact not_lt.2 h.nonneg
  simp only [optLt_zero, this, decide_false, Bool.false_eq_true, if_false]
  exact tot_pure _

theorem NV.tot_prepare {v w : Expr D} {x : ℝ} (h : NV cfg v w x) : Tot cfg (fun E => prepareInverse E w) (-1, v) := by
  obtain ⟨n, h1, h2⟩ := h.ev
  unfold prepareInverse
  refine tot_bind (tot_lift h1) ?_
  have : n.val < 0 := by rw [h2]; linarith [h.pos]
  simp only [optLt_zero, this, decide_true, if_true]
  exact tot_bind h.minus (tot_pure _)

theorem tot_outOfRange {v : Expr D} {x : ℝ} (h : Ev v x) : Tot cfg (fun _ => isInverseArgOutOfRange v) (decide (1 < |x|)) := by
  obtain ⟨n, h1, h2⟩ := h
  unfold isInverseArgOutOfRange
  refine tot_bind (tot_evalE h1) ?_
  have : (n.lt (.rat (-1)) || Number.lt 1 n) = decide (1 < |x|) := by
    rw [Bool.eq_iff_iff, Bool.or_eq_true, Number.lt_iff, Number.lt_iff, decide_eq_true_eq, Number.one_def, Number.val_rat, Number.val_rat, h2, lt_abs]
    push_cast
    constructor
    · rintro (h | h)
      · exact .inr (by linarith)
      · exact .inl h
    · rintro (h | h)
      · exact .inr h
      · exact .inl (by linarith)
  rw [this]; exact tot_pure _

/-- The result of asin in the numerical simplification. -/
theorem tot_asin_core (hc : cfg.Ok) {g : ℚ → ℝ} {tab : List (ℚ × Expr D)} (ht : TabOk g tab) (hT : Tot cfg (fun E => sineTable E) (tab.map ent))
    {o v : Expr D} {x : ℝ} (ho : o.isDoubleNumeric = false) (hv : CV cfg v x) (s : ℤ) :
    Tot cfg (fun E => NumTrigo.asin E o s v) ((keyOf g tab x).map fun a => piM (s * a)) := by
  obtain ⟨n, h1, h2⟩ := hv.ev
  unfold NumTrigo.asin
  refine tot_bind (tot_lift h1) (tot_bind (a := ()) (tot_logIf rfl) (tot_bind hT (tot_bind (tot_getKey hv.exact h1 h2 ht) ?_)))
  cases keyOf g tab x with
  | some a =>
    simp only [Option.map_some]
    exact tot_bind (tot_timesSign hc s a) (tot_pure _)
  | none =>
    simp only [Option.map_none]
    cases o with
    | num q =>
      have : q.isDouble = false := by simpa [Expr.isDoubleNumeric] using ho
      simp only [this, Bool.false_eq_true, if_false]
      exact tot_pure _
    | _ => exact tot_pure _

/-- The result of atan in the numerical simplification. -/
theorem tot_atan_core (hc : cfg.Ok) {g : ℚ → ℝ} {tab : List (ℚ × Expr D)} (ht : TabOk g tab) (hT : Tot cfg (fun E => tanTable E) (tab.map ent))
    {o v : Expr D} {x : ℝ} (ho : o.isDoubleNumeric = false) (hv : CV cfg v x) (s : ℤ) (hp : Tot cfg (fun E => prepareInverse E o) (s, v)) :
    Tot cfg (fun E => NumTrigo.simplAtan E o) ((keyOf g tab x).map fun a => (piM (s * a), false)) := by
  obtain ⟨n, h1, h2⟩ := hv.ev
  unfold NumTrigo.simplAtan
  refine tot_bind hp (tot_bind (tot_lift h1) (tot_bind (a := ()) (tot_logIf rfl) (tot_bind hT (tot_bind (tot_getKey hv.exact h1 h2 ht) ?_))))
  cases keyOf g tab x with
  | some a =>
    simp only [Option.map_some]
    exact tot_bind (tot_timesSign hc s a) (tot_pure _)
  | none =>
    simp only [Option.map_none]
    cases o with
    | num q =>
      have : q.isDouble = false := by simpa [Expr.isDoubleNumeric] using ho
      simp only [this, Bool.false_eq_true, if_false]
      exact tot_pure _
    | _ => exact tot_pure _

/-- π/2 minus a multiple of π. -/
theorem tot_acosFromAsin (hc : cfg.Ok) (q : ℚ) : Tot cfg (fun E => acosFromAsinResult E (piM q : Expr D)) (piM (1 / 2 - q)) := by
  have key : Tot cfg (fun E => (do
      let piHalf ← timesPi E (1 / 2)
      let m ← E.minus (piM q : Expr D)
      E.sumCreate [piHalf, m] : M D (Expr D))) (piM (1 / 2 - q)) := by
    refine tot_bind (tot_timesPi _) (tot_bind (tot_minus_piM hc q) ?_)
    have := tot_sum (tot_sum_piM (D := D) (cfg := cfg) (1 / 2) (-q))
    rwa [← sub_eq_add_neg] at this
  by_cases h0 : q = 0
  · subst h0
    rw [piM_zero, zero_eq] at key ⊢
    exact key
  by_cases h1 : q = 1
  · subst h1
    rw [piM_one] at key ⊢
    exact key
  · rw [piM_else h0 h1] at key ⊢
    exact key

/-! ## The functions -/

theorem CV.tot_numerically {v : Expr D} {x : ℝ} (h : CV cfg v x) {f : Fn} {r : Option (Expr D)} (hr : Tot cfg (fun E => NumTrigo.simplify E f v) r) :
    Tot cfg (fun E => trigCreate E f v) (r.getD (.fn f v)) := by
  obtain ⟨n, h1, h2⟩ := h.ev
  simp only [trigCreate_plain _ f h.undef h.func]
  refine tot_bind (tot_silent h.symm) ?_
  simp only [Bool.false_eq_true, if_false]
  refine tot_bind (tot_lift h1) ?_
  unfold createNumerically
  refine tot_bind hr ?_
  cases r with
  | some y => exact tot_pure _
  | none =>
    dsimp only [Option.getD]
    refine tot_bind (tot_silent h.neg) ?_
    simp only [Bool.false_eq_true, if_false]
    exact tot_pure _

section

variable (hc : cfg.Ok) {g : ℚ → ℝ} {tab : List (ℚ × Expr D)} (ht : TabOk g tab)
include hc ht

theorem CV.tot_asin {v : Expr D} {x : ℝ} (hT : Tot cfg (fun E => sineTable E) (tab.map ent)) (h : CV cfg v x) (h1 : x ≤ 1) :
    Tot cfg (fun E => trigCreate E .asin v) (((keyOf g tab x).map piM).getD (.fn .asin v)) := by
  refine h.tot_numerically ?_
  simp only [NumTrigo.simplify, simplAsin]
  refine tot_bind (tot_outOfRange h.ev) ?_
  have : ¬ (1 < |x|) := by rw [abs_of_nonneg h.nonneg]; exact not_lt.2 h1
  simp only [this, decide_false, Bool.false_eq_true, if_false]
  refine tot_bind h.tot_prepare ?_
  have := tot_asin_core hc ht hT h.dbl h 1
  simpa only [Int.cast_one, one_mul] using this

theorem CV.tot_acos {v : Expr D} {x : ℝ} (hT : Tot cfg (fun E => sineTable E) (tab.map ent)) (h : CV cfg v x) (h1 : x ≤ 1) :
    Tot cfg (fun E => trigCreate E .acos v) (((keyOf g tab x).map fun a => piM (1 / 2 - a)).getD (.fn .acos v)) := by
  refine h.tot_numerically ?_
  simp only [NumTrigo.simplify, simplAcos]
  refine tot_bind (tot_outOfRange h.ev) ?_
  have : ¬ (1 < |x|) := by rw [abs_of_nonneg h.nonneg]; exact not_lt.2 h1
  simp only [this, decide_false, Bool.false_eq_true, if_false]
  refine tot_bind h.tot_prepare (tot_bind (tot_asin_core hc ht hT h.dbl h 1) ?_)
  cases keyOf g tab x with
  | none => exact tot_pure _
  | some a =>
    simp only [Option.map_some, Int.cast_one, one_mul]
    exact tot_bind (tot_acosFromAsin hc a) (tot_pure _)

theorem CV.tot_atan {v : Expr D} {x : ℝ} (hT : Tot cfg (fun E => tanTable E) (tab.map ent)) (h : CV cfg v x) :
    Tot cfg (fun E => trigCreate E .atan v) (((keyOf g tab x).map piM).getD (.fn .atan v)) := by
  refine h.tot_numerically ?_
  simp only [NumTrigo.simplify]
  refine tot_bind (tot_atan_core hc ht hT h.dbl h 1 h.tot_prepare) ?_
  cases keyOf g tab x with
  | none => exact tot_pure _
  | some a =>
    simp only [Option.map_some, Int.cast_one, one_mul]
    exact tot_bind (a := ()) (tot_logIf rfl) (tot_pure _)

theorem NV.tot_asin {v w : Expr D} {x : ℝ} (hT : Tot cfg (fun E => sineTable E) (tab.map ent)) (h : NV cfg v w x) (h1 : x ≤ 1) :
    Tot cfg (fun E => trigCreate E .asin w) (((keyOf g tab x).map fun a => piM (-a)).getD (.prod [mOne, .fn .asin v])) := by
  have hp := h.cv.tot_asin hc ht hT h1
  obtain ⟨b, hb⟩ := h.symm
  cases b with
  | true =>
    refine tot_trig_symm h.undef h.func hb ?_
    unfold createBySymmetry
    refine tot_bind h.minus (tot_bind (tot_trig hp) ?_)
    cases keyOf g tab x with
    | none => exact tot_minus_fn h.cv.exact
    | some a => exact tot_minus_piM hc a
  | false =>
    obtain ⟨n, h2, h3⟩ := h.ev
    simp only [trigCreate_plain _ .asin h.undef h.func]
    refine tot_bind (tot_silent hb) ?_
    simp only [Bool.false_eq_true, if_false]
    refine tot_bind (tot_lift h2) ?_
    unfold createNumerically
    refine tot_bind (a := (keyOf g tab x).map fun a => piM (-a)) ?_ ?_
    · simp only [NumTrigo.simplify, simplAsin]
      refine tot_bind (tot_outOfRange h.ev) ?_
      have : ¬ (1 < |-x|) := by rw [abs_neg, abs_of_pos h.pos]; exact not_lt.2 h1
      simp only [this, decide_false, Bool.false_eq_true, if_false]
      refine tot_bind h.tot_prepare ?_
      have := tot_asin_core hc ht hT h.dbl h.cv (-1)
      simpa only [Int.cast_neg, Int.cast_one, neg_one_mul] using this
    · cases keyOf g tab x with
      | some a => exact tot_pure _
      | none =>
        refine tot_bind (tot_silent h.neg) ?_
        simp only [if_true]
        unfold createNumericallyBySymmetry
        exact tot_bind h.minus (tot_minus_fn h.cv.exact)

theorem NV.tot_acos {v w : Expr D} {x : ℝ} (hT : Tot cfg (fun E => sineTable E) (tab.map ent)) (h : NV cfg v w x) (h1 : x ≤ 1) :
    Tot cfg (fun E => trigCreate E .acos w) (((keyOf g tab x).map fun a => piM (1 / 2 + a)).getD (.sum [.cst .pi, .prod [mOne, .fn .acos v]])) := by
  have hp := h.cv.tot_acos hc ht hT h1
  obtain ⟨b, hb⟩ := h.symm
  cases b with
  | true =>
    refine tot_trig_symm h.undef h.func hb ?_
    unfold createBySymmetry
    refine tot_bind h.minus (tot_bind (tot_trig hp) ?_)
    cases keyOf g tab x with
    | none => exact tot_bind tot_timesPi_one (tot_bind (tot_minus_fn h.cv.exact) (tot_sum (tot_pi_minus_fn h.cv.exact)))
    | some a =>
      refine tot_bind (tot_timesPi _) (tot_bind (tot_minus_piM hc _) ?_)
      have := tot_sum (tot_sum_piM (D := D) (cfg := cfg) 1 (-(1 / 2 - a)))
      rwa [show (1 : ℚ) + -(1 / 2 - a) = 1 / 2 + a by ring] at this
  | false =>
    obtain ⟨n, h2, h3⟩ := h.ev
    simp only [trigCreate_plain _ .acos h.undef h.func]
    refine tot_bind (tot_silent hb) ?_
    simp only [Bool.false_eq_true, if_false]
    refine tot_bind (tot_lift h2) ?_
    unfold createNumerically
    refine tot_bind (a := (keyOf g tab x).map fun a => piM (1 / 2 + a)) ?_ ?_
    · simp only [NumTrigo.simplify, simplAcos]
      refine tot_bind (tot_outOfRange h.ev) ?_
      have : ¬ (1 < |-x|) := by rw [abs_neg, abs_of_pos h.pos]; exact not_lt.2 h1
      simp only [this, decide_false, Bool.false_eq_true, if_false]
      refine tot_bind h.tot_prepare (tot_bind (tot_asin_core hc ht hT h.dbl h.cv (-1)) ?_)
      cases keyOf g tab x with
      | none => exact tot_pure _
      | some a =>
        simp only [Option.map_some, Int.cast_neg, Int.cast_one, neg_one_mul]
        refine tot_bind (tot_acosFromAsin hc _) ?_
        rw [sub_neg_eq_add]; exact tot_pure _
    · cases keyOf g tab x with
      | some a => exact tot_pure _
      | none =>
        refine tot_bind (tot_silent h.neg) ?_
        simp only [if_true]
        unfold createNumericallyBySymmetry
        exact tot_bind h.minus (tot_bind tot_timesPi_one (tot_bind (tot_minus_fn h.cv.exact) (tot_sum (tot_pi_minus_fn h.cv.exact))))

theorem NV.tot_atan {v w : Expr D} {x : ℝ} (hT : Tot cfg (fun E => tanTable E) (tab.map ent)) (h : NV cfg v w x) :
    Tot cfg (fun E => trigCreate E .atan w) (((keyOf g tab x).map fun a => piM (-a)).getD (.prod [mOne, .fn .atan v])) := by
  have hp := h.cv.tot_atan hc ht hT
  obtain ⟨b, hb⟩ := h.symm
  cases b with
  | true =>
    refine tot_trig_symm h.undef h.func hb ?_
    unfold createBySymmetry
    refine tot_bind h.minus (tot_bind (tot_trig hp) ?_)
    cases keyOf g tab x with
    | none => exact tot_minus_fn h.cv.exact
    | some a => exact tot_minus_piM hc a
  | false =>
    obtain ⟨n, h2, h3⟩ := h.ev
    simp only [trigCreate_plain _ .atan h.undef h.func]
    refine tot_bind (tot_silent hb) ?_
    simp only [Bool.false_eq_true, if_false]
    refine tot_bind (tot_lift h2) ?_
    unfold createNumerically
    refine tot_bind (a := (keyOf g tab x).map fun a => piM (-a)) ?_ ?_
    · simp only [NumTrigo.simplify]
      refine tot_bind (tot_atan_core hc ht hT h.dbl h.cv (-1) h.tot_prepare) ?_
      cases keyOf g tab x with
      | none => exact tot_pure _
      | some a =>
        simp only [Option.map_some, Int.cast_neg, Int.cast_one, neg_one_mul]
        exact tot_bind (a := ()) (tot_logIf rfl) (tot_pure _)
    · cases keyOf g tab x with
      | some a => exact tot_pure _
      | none =>
        refine tot_bind (tot_silent h.neg) ?_
        simp only [if_true]
        unfold createNumericallyBySymmetry
        exact tot_bind h.minus (tot_minus_fn h.cv.exact)

end

theorem tot_minus_undef : Tot cfg (fun E => E.minus (.undef : Expr D)) .undef := by
  unfold Eng.minus
  refine tot_prod ?_
  simp only [prodCreate, List.any_cons, List.any_nil, show (Expr.undef : Expr D).isUndefined = true from rfl, Bool.true_or, Bool.or_true, if_true]
  exact tot_pure _

/-- Outside of the range. -/
theorem CV.tot_undef {v : Expr D} {x : ℝ} (h : CV cfg v x) (h1 : 1 < x) {f : Fn} (hf : f = .asin ∨ f = .acos) :
    Tot cfg (fun E => trigCreate E f v) .undef := by
  refine h.tot_numerically (r := some .undef) ?_
  have : 1 < |x| := by rwa [abs_of_nonneg h.nonneg]
  rcases hf with rfl | rfl
  all_goals
    simp only [NumTrigo.simplify, simplAcos, simplAsin]
    refine tot_bind (tot_outOfRange h.ev) ?_
    simp only [this, decide_true, if_true]
    exact tot_pure _

theorem NV.tot_undef {v w : Expr D} {x : ℝ} (h : NV cfg v w x) (h1 : 1 < x) {f : Fn} (hf : f = .asin ∨ f = .acos) :
    Tot cfg (fun E => trigCreate E f w) .undef := by
  have hp := h.cv.tot_undef h1 hf
  have : 1 < |-x| := by rwa [abs_neg, abs_of_nonneg h.cv.nonneg]
  obtain ⟨b, hb⟩ := h.symm
  cases b with
  | true =>
    refine tot_trig_symm h.undef h.func hb ?_
    unfold createBySymmetry
    refine tot_bind h.minus (tot_bind (tot_trig hp) ?_)
    rcases hf with rfl | rfl
    · exact tot_minus_undef
    · refine tot_bind tot_timesPi_one (tot_bind tot_minus_undef (tot_sum ?_))
      simp only [sumCreate, List.any_cons, List.any_nil, show (Expr.undef : Expr D).isUndefined = true from rfl, Bool.true_or, Bool.or_true, if_true]
      exact tot_pure _
  | false =>
    obtain ⟨n, h2, h3⟩ := h.ev
    simp only [trigCreate_plain _ f h.undef h.func]
    refine tot_bind (tot_silent hb) ?_
    simp only [Bool.false_eq_true, if_false]
    refine tot_bind (tot_lift h2) ?_
    unfold createNumerically
    refine tot_bind (a := some .undef) ?_ (tot_pure _)
    rcases hf with rfl | rfl
    all_goals
      simp only [NumTrigo.simplify, simplAcos, simplAsin]
      refine tot_bind (tot_outOfRange h.ev) ?_
      simp only [this, decide_true, if_true]
      exact tot_pure _

end Tsym
