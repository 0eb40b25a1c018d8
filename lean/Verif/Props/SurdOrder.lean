import Verif.Props.SurdRing
import Verif.Props.SignComp

set_option autoImplicit false
set_option linter.unusedSectionVars false
set_option linter.unusedSimpArgs false

/-!
# C93: computing with square roots decides the order

The sign queries of the results of C92 always answer, and the answers are the signs of the real numbers. So the difference of two computations
tells which one is greater. The numerical values are taken to be exact, as in all of the model (see DESIGN.md on doubles).
-/

namespace Tsym

/-! ## Proofs -/

namespace Surds

open Expr NumPowerSimpl

variable {D : Type} [Flt D] [LawfulFlt D] {cfg : Cfg D}

theorem eval_acc {L : List (ℚ × ℕ)} (hL : ∀ m ∈ L, Squarefree m.2) (acc : Number D) :
    ∃ x : Number D, numEvalSum acc (L.map (Sd.em (D := D))) = .ok (some x) ∧ x.val = acc.val + value L := by
  induction L generalizing acc with
  | nil => exact ⟨acc, rfl, by simp [value]⟩
  | cons m L ih =>
    have hm := hL m (by simp)
    obtain ⟨x, hx, hv⟩ := surd_eval (D := D) (p := m.1) (a := (m.2 : ℚ)) (by exact_mod_cast Nat.pos_of_ne_zero hm.ne_zero)
    obtain ⟨y, hy, hw⟩ := ih (fun n hn => hL n (by simp [hn])) (acc.add x)
    refine ⟨y, ?_, ?_⟩
    · have hx' : numEval (Sd.em m : Expr D) = .ok (some x) := hx
      simp only [List.map_cons, numEvalSum, hx', bind, Except.bind]
      exact hy
    · rw [hw, Number.val_add, hv]
      simp only [value, List.map_cons, List.sum_cons, Rat.cast_natCast]
      ring

theorem tot_signs_root {n : ℕ} (hn : Squarefree n) (h1 : n ≠ 1) :
    Tot cfg (fun E => E.isPos (rootE (n : ℚ) : Expr D)) true ∧ Tot cfg (fun E => E.isNeg (rootE (n : ℚ) : Expr D)) false := by
  rw [Sd.rootE_nat h1]
  have hp : (0 : ℚ) < n := by exact_mod_cast Nat.pos_of_ne_zero hn.ne_zero
  constructor
  · refine tot_isPos ?_
    simp only [isPos]
    refine tot_bind (tot_whenTrue (tot_isPos_num (n : ℚ))) ?_
    simp only [hp, decide_true, if_true]; exact tot_pure _
  · exact tot_isNeg (tot_pure _)

theorem tot_signs_term {m : ℚ × ℕ} (h0 : m.1 ≠ 0) (hn : Squarefree m.2) :
    Tot cfg (fun E => E.isPos (Sd.em m : Expr D)) (decide (0 < m.1)) ∧ Tot cfg (fun E => E.isNeg (Sd.em m : Expr D)) (decide (m.1 < 0)) := by
  obtain ⟨q, n⟩ := m
  simp only at h0 hn
  by_cases h1 : n = 1
  · subst h1; rw [Sd.em_one]; exact ⟨tot_isPos_num q, tot_isNeg_num q⟩
  · obtain ⟨r1, r2⟩ := tot_signs_root (D := D) (cfg := cfg) hn h1
    rw [Sd.em_root (show (q, n).2 ≠ 1 from h1)]
    by_cases hq : q = 1
    · subst hq
      simp only [if_true]
      exact ⟨by simpa using r1, by rw [show decide ((1 : ℚ) < 0) = false by norm_num]; exact r2⟩
    · simp only [hq, if_false]
      have hs : Tot cfg (fun E => signOfProduct E 1 [num (.rat q), rootE (n : ℚ)]) (if 0 < q then 1 else (-1 : ℤ)) := by
        simp only [signOfProduct]
        refine tot_bind (tot_whenTrue (tot_isPos_num q)) ?_
        by_cases hp : 0 < q
        · simp only [hp, decide_true, if_true]
          refine tot_bind (tot_whenTrue r1) ?_
          simp only [if_true]; exact tot_pure _
        · have hq' : q < 0 := lt_of_le_of_ne (not_lt.1 hp) h0
          simp only [hp, decide_false, Bool.false_eq_true, if_false]
          refine tot_bind (tot_whenTrue (tot_isNeg_num q)) ?_
          simp only [hq', decide_true, if_true]
          refine tot_bind (tot_whenTrue r1) ?_
          simp only [if_true]; exact tot_pure _
      constructor
      · refine tot_isPos ?_
        simp only [isPos]
        refine tot_bind hs ?_
        by_cases hp : 0 < q
        · simp only [hp, if_true, decide_true]; exact tot_pure _
        · simp only [hp, if_false, decide_false]; exact tot_pure _
      · refine tot_isNeg ?_
        simp only [isNeg]
        refine tot_bind hs ?_
        by_cases hp : 0 < q
        · simp only [hp, if_true, not_lt.2 hp.le, decide_false]; exact tot_pure _
        · have hq' : q < 0 := lt_of_le_of_ne (not_lt.1 hp) h0
          simp only [hp, hq', if_false, decide_true]; exact tot_pure _

theorem tot_signs {L : List (ℚ × ℕ)} (hL : Ok L) :
    ∃ p n, Tot cfg (fun E => E.isPos (expr L : Expr D)) p ∧ Tot cfg (fun E => E.isNeg (expr L : Expr D)) n ∧ (p = true ↔ 0 < value L) ∧ (n = true ↔ value L < 0) := by
  rw [expr_eq]
  match L, hL with
  | [], _ =>
    have e0 : sumOf (([] : List (ℚ × ℕ)).map (Sd.em (D := D))) = num (.rat 0) := zero_eq
    rw [e0]
    exact ⟨_, _, tot_isPos_num 0, tot_isNeg_num 0, by simp [value], by simp [value]⟩
  | [m], h =>
    obtain ⟨h1, h2⟩ := tot_signs_term (D := D) (cfg := cfg) (h.ne m (by simp)) (h.free m (by simp))
    have hs : 0 < √(m.2 : ℝ) := Real.sqrt_pos.2 (by exact_mod_cast Nat.pos_of_ne_zero (h.free m (by simp)).ne_zero)
    refine ⟨_, _, h1, h2, ?_, ?_⟩
    · simp only [value, List.map_cons, List.map_nil, List.sum_cons, List.sum_nil, add_zero, decide_eq_true_eq]
      rw [mul_pos_iff_of_pos_right hs]; norm_cast
    · simp only [value, List.map_cons, List.map_nil, List.sum_cons, List.sum_nil, add_zero, decide_eq_true_eq]
      rw [mul_neg_iff]
      constructor
      · intro h; exact .inr ⟨by exact_mod_cast h, hs⟩
      · rintro (⟨_, h⟩ | ⟨h, _⟩)
        · exact absurd h (not_lt.2 hs.le)
        · exact_mod_cast h
  | m :: m' :: L, h =>
    obtain ⟨x, hx, hv⟩ := eval_acc (D := D) h.free 0
    rw [Sd.sumOf_two (by simp)]
    have hx' : numEval (.sum ((m :: m' :: L).map (Sd.em (D := D)))) = .ok (some x) := by simpa only [numEval] using hx
    have hz : (0 : Number D).val = 0 := by rw [Number.zero_def]; simp
    rw [hz, zero_add] at hv
    refine ⟨Number.lt 0 x, x.lt 0, tot_isPos ?_, tot_isNeg ?_, ?_, ?_⟩
    · simp only [isPos]; exact tot_bind (tot_lift hx') (tot_pure _)
    · simp only [isNeg]; exact tot_bind (tot_lift hx') (tot_pure _)
    · rw [Number.lt_iff, hz, hv]
    · rw [Number.lt_iff, hz, hv]

theorem has_sign {L : List (ℚ × ℕ)} (hL : Ok L) : HasSign cfg (expr L : Expr D) (SignType.sign (value L)) := by
  obtain ⟨p, n, h1, h2, h3, h4⟩ := tot_signs (D := D) (cfg := cfg) hL
  have e1 : decide (SignType.sign (value L) = 1) = p := by
    rw [Bool.eq_iff_iff, h3, decide_eq_true_eq, sign_eq_one_iff]
  have e2 : decide (SignType.sign (value L) = -1) = n := by
    rw [Bool.eq_iff_iff, h4, decide_eq_true_eq, sign_eq_neg_one_iff]
  refine ⟨?_, ?_⟩
  · rw [e1]; exact Tot.yields h1 (Api.isPositive_mono _ id fun _ _ h => h)
  · rw [e2]; exact Tot.yields h2 (Api.isNegative_mono _ id fun _ _ h => h)

end Surds

section

open Expr Surds

variable {D : Type} [Flt D] [LawfulFlt D] {cfg : Cfg D}

/-! ## C93 -/

/-- C93. The sign queries of the result of a computation always answer, with the sign of its value. -/
theorem C93_sign (hc : cfg.Ok) (hub : cfg.strictUb = false) (P : ℕ) (hP0 : 0 < P) (hmax : ((P * P : ℕ) : ℤ) ≤ cfg.maxPrime) (t : Surds.Tree) (h : t.Below P) :
    ∃ r : Expr D, Gives cfg (fun E => t.run E) r ∧ HasSign cfg r (SignType.sign t.val) ∧ (r = num (.rat 0) ↔ SignType.sign t.val = 0) := by
  obtain ⟨R, hR, _, v, _, g⟩ := C92_run (D := D) hc hub P hP0 hmax t h
  refine ⟨_, g, v ▸ has_sign hR.ok, ?_⟩
  have := C92_integer (D := D) hc hub P hP0 hmax t h 0
  rw [sign_eq_zero_iff]
  constructor
  · intro e; simpa using this.1 (by simpa using e ▸ g)
  · intro e; exact g.unique (by simpa using this.2 (by simpa using e))

/-- C93. The order of two computations: the difference is positive if the first is greater, negative if it is less, and zero otherwise. -/
theorem C93_order (hc : cfg.Ok) (hub : cfg.strictUb = false) (P : ℕ) (hP0 : 0 < P) (hmax : ((P * P : ℕ) : ℤ) ≤ cfg.maxPrime) (t u : Surds.Tree)
    (ht : t.Below P) (hu : u.Below P) :
    ∃ a b d : Expr D, Gives cfg (fun E => t.run E) a ∧ Gives cfg (fun E => u.run E) b ∧ Gives cfg (fun E => Api.sub E a b) d ∧
      HasSign cfg d (SignType.sign (t.val - u.val)) ∧ (d = num (.rat 0) ↔ t.val = u.val) := by
  obtain ⟨L, hL, _, v, _, g⟩ := C92_run (D := D) hc hub P hP0 hmax t ht
  obtain ⟨M, hM, _, w, _, g'⟩ := C92_run (D := D) hc hub P hP0 hmax u hu
  obtain ⟨R, hR, x, g'', hz⟩ := C89_sub (D := D) hc L M hL.ok hM.ok
  have hs := has_sign (D := D) (cfg := cfg) hR
  rw [x, v, w] at hs
  exact ⟨_, _, _, g, g', g'', hs, by rw [hz, v, w]⟩

end

/-! ## Examples -/

/-- `C93_order`: √2 + √3 and √10. -/
def Surds.Tree.less : Surds.Tree × Surds.Tree := (.add (.root 2) (.root 3), .root 10)

example : Surds.Tree.less.1.Below 30 ∧ Surds.Tree.less.2.Below 30 ∧ (((30 * 30 : ℕ) : ℕ) : ℤ) ≤ (Cfg.std (D := Hyb) 1000).maxPrime := by
  refine ⟨?_, ?_, by simp [Cfg.std]⟩
  · simp only [Surds.Tree.less, Surds.Tree.Below]; decide
  · simp only [Surds.Tree.less, Surds.Tree.Below]; decide

example : Api.sub (eng (Cfg.std 1000) 60 : Eng Hyb) (Surds.expr [(1, 2), (1, 3)]) (Surds.expr [(1, 10)]) = .ok (Surds.expr [(1, 2), (1, 3), (-1, 10)], []) ∧
    Api.isNegative (eng (Cfg.std 1000) 60 : Eng Hyb) (Surds.expr [(1, 2), (1, 3), (-1, 10)]) = .ok (true, []) ∧
    Api.isPositive (eng (Cfg.std 1000) 60 : Eng Hyb) (Surds.expr [(1, 2), (1, 3), (-1, 10)]) = .ok (false, []) :=
  ⟨by krfl, by krfl, by krfl⟩

end Tsym
