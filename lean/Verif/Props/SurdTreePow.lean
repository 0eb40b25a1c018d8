import Verif.Props.SurdRing

set_option autoImplicit false
set_option linter.unusedSectionVars false
set_option linter.unusedSimpArgs false

/-!
# C95: powers of computations with square roots

Calling pow and expand has the same result as multiplying again and again, if the base is more than a multiple of one root.
-/

namespace Tsym

/-! ## Specification -/

/-- 1 * t * t * ... * t, expanding after every multiplication. -/
def Surds.Tree.times (t : Surds.Tree) : ℕ → Surds.Tree
  | 0 => .int 1
  | n + 1 => .mul (t.times n) t

/-! ## Proofs -/

namespace Surds

open Expr

variable {D : Type} [Flt D] [LawfulFlt D] {cfg : Cfg D}

theorem Tree.times_val (t : Tree) (n : ℕ) : (t.times n).val = t.val ^ n := by
  induction n with
  | zero => simp [Tree.times, Tree.val]
  | succ n ih => rw [Tree.times, Tree.val, ih, pow_succ]

theorem Tree.times_below {P : ℕ} {t : Tree} (h : t.Below P) (n : ℕ) : (t.times n).Below P := by
  induction n with
  | zero => trivial
  | succ n ih => exact ⟨ih, h⟩

/-- The square of the value of fewer than two summands is rational. -/
theorem two_of_irrational {R : List (ℚ × ℕ)} (h : Irrational (value R ^ 2)) : 2 ≤ R.length := by
  match R, h with
  | [], h => exact absurd ⟨0, by simp [value]⟩ h
  | [(c, n)], h =>
    refine absurd ⟨c ^ 2 * n, ?_⟩ h
    simp only [value, List.map_cons, List.map_nil, List.sum_cons, List.sum_nil, add_zero]
    rw [mul_pow, Real.sq_sqrt (by positivity)]; push_cast; rfl
  | _ :: _ :: _, _ => simp

theorem tot_pow_nat {L : List (ℚ × ℕ)} (hL : Sd.SL L) (n : ℕ) (hn : 2 ≤ n) :
    Tot cfg (fun E => powCreate E (.sum (L.map (Sd.em (D := D)))) (num (.rat n))) (.pow (.sum (L.map Sd.em)) (num (.rat n))) := by
  have z : (num (.rat n) : Expr D).isZero = false := by rw [isZero_ratE]; simp; omega
  have o : (num (.rat n) : Expr D).isOne = false := by rw [isOne_ratE]; simp; omega
  obtain ⟨b, hb⟩ := Sd.tot_neg_sum (D := D) (cfg := cfg) hL
  generalize L.map (Sd.em (D := D)) = l at *
  simp only [powCreate, show (num (.rat n) : Expr D).isUndefined = false from rfl, show (Expr.sum l).isUndefined = false from rfl, z, o,
    show (Expr.sum l).isOne = false from rfl, show (Expr.sum l).isZero = false from rfl, Bool.or_self, Bool.false_eq_true, if_false, powCreateNonTrivial]
  refine tot_bind (a := (.sum l, num (.rat n))) (tot_simplPow ?_) ?_
  · unfold simplPow
    refine tot_bind (a := false) ?_ ?_
    · unfold doesInvolveComplexNumbers
      refine tot_whenTrue (tot_bind (tot_lift (numEval_rat _)) (tot_bind hb ?_))
      have : (Number.rat n : Number D).isInt = true := by
        simp only [Number.isInt, Number.isRational, Number.denominator, Rat.den_natCast]; rfl
      simp only [this, Bool.not_true, Bool.and_false, Bool.false_eq_true, if_false]; exact tot_pure _
    · simp only [Bool.false_eq_true, if_false]; exact tot_pure _
  · simp only [o, show (Expr.sum l).isOne = false from rfl, Bool.false_eq_true, if_false]; exact tot_pure _

open Lean.Order in
theorem Tree.pow_mono (t : Tree) (n : ℕ) :
    monotone (fun E : Eng D => (do let a ← t.run E; let c ← Api.pow E a (num (.rat n)); Api.expand E c : M D (Expr D))) := by
  simp only [Api.pow, Api.expand]
  refine monotone_bind (m := M D) _ _ t.run_mono (monotone_of_monotone_apply _ fun a => ?_)
  repeat' monotonicity

end Surds

section

open Expr Surds

variable {D : Type} [Flt D] [LawfulFlt D] {cfg : Cfg D}

/-! ## C95 -/

/-- C95. If the square of a computation as in C92 is irrational, its natural powers expand, also the zeroth and the first, to the result of
multiplying again and again, which has the power of the value. -/
theorem C95_pow (hc : cfg.Ok) (hub : cfg.strictUb = false) (P : ℕ) (hP0 : 0 < P) (hmax : ((P * P : ℕ) : ℤ) ≤ cfg.maxPrime) (t : Surds.Tree)
    (ht : t.Below P) (hi : Irrational (t.val ^ 2)) (n : ℕ) :
    ∃ r : Expr D, Gives cfg (fun E => do let a ← t.run E; let c ← Api.pow E a (num (.rat n)); Api.expand E c) r ∧
      Gives cfg (fun E => (t.times n).run E) r ∧ ∀ σ, den σ r = some (t.val ^ n) := by
  have h1 : 1 ≤ cfg.maxPrime := by
    have : 1 ≤ P * P := Nat.mul_pos hP0 hP0
    exact le_trans (by exact_mod_cast this) hmax
  obtain ⟨S, hS, _, w, d, g⟩ := C92_run (D := D) hc hub P hP0 hmax (t.times n) (Tree.times_below ht n)
  rw [Tree.times_val] at w d
  refine ⟨_, ?_, g, d⟩
  obtain ⟨L, hL, v, g'⟩ := t.tot (D := D) hc hub hP0 hmax ht
  have h2 := two_of_irrational (v ▸ hi)
  have ls := hL.int.ok.sl
  refine Tot.gives (tot_bind g' ?_) (t.pow_mono n)
  rcases n with _ | _ | j
  · have e := (C89_equal (D := D) S [(1, 1)] hS.ok (ok_of (Sd.SL.single ⟨one_ne_zero, squarefree_one, by simp⟩))).1.2 (by rw [w]; simp [value])
    rw [e]
    refine tot_bind (a := (num (.rat 1) : Expr D)) (tot_pow ?_) ?_
    · have z : (num (.rat ((0 : ℕ) : ℚ)) : Expr D).isZero = true := by rw [isZero_ratE]; simp
      rw [expr_eq, Sd.sumOf_two h2]
      simp only [powCreate, z, show (num (.rat ((0 : ℕ) : ℚ)) : Expr D).isUndefined = false from rfl,
        show (Expr.sum (L.map (Sd.em (D := D)))).isUndefined = false from rfl, Bool.or_self, Bool.false_eq_true, if_false, Bool.true_or, if_true]
      exact tot_pure _
    · have := Sd.expand_sumOf (D := D) (cfg := cfg) (Sd.SL.single (m := ((1 : ℚ), 1)) ⟨one_ne_zero, squarefree_one, by simp⟩)
      rw [expr_eq]
      exact this
  · have e := (C89_equal (D := D) S L hS.ok hL.int.ok).1.2 (by rw [w, v]; ring)
    rw [e]
    refine tot_bind (a := (expr L : Expr D)) (tot_pow ?_) ?_
    · have z : (num (.rat ((0 + 1 : ℕ) : ℚ)) : Expr D).isZero = false := by rw [isZero_ratE]; simp
      have o : (num (.rat ((0 + 1 : ℕ) : ℚ)) : Expr D).isOne = true := by rw [isOne_ratE]; simp
      rw [expr_eq, Sd.sumOf_two h2]
      simp only [powCreate, z, o, show (num (.rat ((0 + 1 : ℕ) : ℚ)) : Expr D).isUndefined = false from rfl,
        show (Expr.sum (L.map (Sd.em (D := D)))).isUndefined = false from rfl, show (Expr.sum (L.map (Sd.em (D := D)))).isOne = false from rfl,
        show (Expr.sum (L.map (Sd.em (D := D)))).isZero = false from rfl, Bool.or_self, Bool.false_eq_true, if_false, if_true]
      exact tot_pure _
    · rw [expr_eq]; exact Sd.expand_sumOf ls
  · have le : ∀ {a b : ℕ}, a ∣ P → b ∣ P → ((a * b : ℕ) : ℤ) ≤ cfg.maxPrime := fun {a b} ha hb => by
      refine le_trans ?_ hmax
      exact_mod_cast Nat.mul_le_mul (Nat.le_of_dvd hP0 ha) (Nat.le_of_dvd hP0 hb)
    obtain ⟨R, hR, hp⟩ := Sd.tot_expand_power (D := D) hc hub h1 ls h2 hL.int.zm hL.dvd hP0 (fun m h => le (dvd_refl P) (hL.dvd m h)) (j + 1)
    have hR2 := hp.two ls h2
    have e := (C89_equal (D := D) S R hS.ok (ok_of (hp.sl ls))).1.2 (by rw [w, hp.value ls, v])
    rw [e, expr_eq, expr_eq, Sd.sumOf_two h2, Sd.sumOf_two hR2]
    exact tot_bind (tot_pow (tot_pow_nat ls (j + 1 + 1) (by omega))) hR

/-- C95. The exponents add: the product of two expanded powers expands to the power with the sum. -/
theorem C95_add (hc : cfg.Ok) (hub : cfg.strictUb = false) (P : ℕ) (hP0 : 0 < P) (hmax : ((P * P : ℕ) : ℤ) ≤ cfg.maxPrime) (t : Surds.Tree)
    (ht : t.Below P) (hi : Irrational (t.val ^ 2)) (m n : ℕ) :
    ∃ r : Expr D, Gives cfg (fun E => do let a ← t.run E; let c ← Api.pow E a (num (.rat (m + n : ℕ))); Api.expand E c) r ∧
      Gives cfg (fun E => ((t.times m).mul (t.times n)).run E) r := by
  obtain ⟨r, g, g', _⟩ := C95_pow (D := D) hc hub P hP0 hmax t ht hi (m + n)
  refine ⟨r, g, ?_⟩
  obtain ⟨x, y, gx, gy, e⟩ := C92_equal (D := D) hc hub P hP0 hmax (t.times (m + n)) ((t.times m).mul (t.times n)) (Tree.times_below ht _)
    ⟨Tree.times_below ht m, Tree.times_below ht n⟩
  rw [g'.unique gx, e.2 (by rw [Tree.val, Tree.times_val, Tree.times_val, Tree.times_val, pow_add])]
  exact gy

end

/-! ## Examples -/

/-- 1 + √2. -/
def Surds.Tree.silver : Surds.Tree := .add (.int 1) (.root 2)

/-- `C95_pow`: 1 + √2 is below 2, and the square is irrational. -/
example : Surds.Tree.silver.Below 2 ∧ Irrational (Surds.Tree.silver.val ^ 2) := by
  refine ⟨⟨trivial, dvd_refl 2⟩, ?_⟩
  have e : Surds.Tree.silver.val ^ 2 = ((3 : ℤ) : ℝ) + ((2 : ℤ) : ℝ) * √2 := by
    simp only [Surds.Tree.silver, Surds.Tree.val]
    have := Real.sq_sqrt (show (0 : ℝ) ≤ 2 by norm_num)
    push_cast; nlinarith
  rw [e]
  exact (irrational_sqrt_two.intCast_mul (by norm_num)).intCast_add 3

example : (do
    let a ← Surds.Tree.silver.run (eng (Cfg.std 1000) 60 : Eng Hyb)
    let c ← Api.pow (eng (Cfg.std 1000) 60 : Eng Hyb) a (.num (.rat 4))
    Api.expand (eng (Cfg.std 1000) 60 : Eng Hyb) c) = .ok (Surds.expr [(17, 1), (12, 2)], []) := by krfl

example : (Surds.Tree.silver.times 4).run (eng (Cfg.std 1000) 60 : Eng Hyb) = .ok (Surds.expr [(17, 1), (12, 2)], []) := by krfl

/-- 324*√2. -/
def Surds.Tree.single : Surds.Tree := .mul (.int 324) (.root 2)

/-- The condition is needed: the square of 324*√2 is 209952, which is the result of multiplying, but pow gives 2592. -/
theorem C95_false_single : Surds.Tree.single.Below 2 ∧ Surds.Tree.single.val ^ 2 = 209952 ∧
    (∃ cs, (Surds.Tree.single.times 2).run (eng (Cfg.std 1000) 60 : Eng Hyb) = .ok (.num (.rat 209952), cs)) ∧
    ∃ cs, (do
      let a ← Surds.Tree.single.run (eng (Cfg.std 1000) 60 : Eng Hyb)
      let c ← Api.pow (eng (Cfg.std 1000) 60 : Eng Hyb) a (.num (.rat 2))
      Api.expand (eng (Cfg.std 1000) 60 : Eng Hyb) c) = .ok (.num (.rat 2592), cs) := by
  refine ⟨⟨trivial, dvd_refl 2⟩, ?_, M.val_some (by krfl), M.val_some (by krfl)⟩
  simp only [Surds.Tree.single, Surds.Tree.val]
  rw [mul_pow, Real.sq_sqrt (by positivity)]; norm_num

end Tsym
