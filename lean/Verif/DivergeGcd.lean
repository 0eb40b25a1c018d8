import Verif.Diverge
import Verif.PolyDivide

set_option autoImplicit false
set_option linter.unusedSectionVars false
set_option linter.unusedSimpArgs false
set_option linter.unusedVariables false

/-!
# Helper lemmas: calls that do not end, greatest common divisors
-/

namespace Tsym

open Expr

section

variable {D : Type} [Flt D] {cfg : Cfg D}

/-- From some depth on the call uses up the depth: together with monotonicity, the call does not end. -/
def Endless {α : Type} (cfg : Cfg D) (f : Eng D → M D α) : Prop := ∃ N, ∀ n, N ≤ n → f (eng cfg n) = .error .fuel

theorem Endless.all {α : Type} {f : Eng D → M D α} (h : Endless cfg f) (hm : Lean.Order.monotone f) (n : ℕ) : f (eng cfg n) = .error .fuel := by
  obtain ⟨N, hN⟩ := h
  rcases hm _ _ (eng_le cfg (Nat.le_max_left n N)) with h1 | h1
  · exact h1
  · exact h1.trans (hN _ (Nat.le_max_right n N))

theorem endless_of_all {α : Type} {f : Eng D → M D α} (h : ∀ n, f (eng cfg n) = .error .fuel) : Endless cfg f := ⟨0, fun n _ => h n⟩

theorem endless_bind {α β : Type} {f : Eng D → M D α} {g : Eng D → α → M D β} {a : α}
    (hf : Ret cfg f a) (hg : Endless cfg (fun E => g E a)) : Endless cfg (fun E => f E >>= g E) := by
  obtain ⟨N, cs, hN⟩ := hf
  obtain ⟨K, hK⟩ := hg
  exact ⟨max N K, fun n hn => bind_error (hN n (le_trans (le_max_left _ _) hn)) (hK n (le_trans (le_max_right _ _) hn))⟩

theorem endless_first {α β : Type} {f : Eng D → M D α} {g : Eng D → α → M D β} (hf : Endless cfg f) : Endless cfg (fun E => f E >>= g E) := by
  obtain ⟨N, hN⟩ := hf
  refine ⟨N, fun n hn => ?_⟩
  change M.bind _ _ = _
  rw [hN n hn]; rfl

theorem endless_succ {α : Type} {f g : Eng D → M D α} (h : ∀ n, g (eng cfg (n + 1)) = f (eng cfg n)) (hf : Endless cfg f) : Endless cfg g := by
  obtain ⟨N, hN⟩ := hf
  refine ⟨N + 1, fun n hn => ?_⟩
  obtain ⟨m, rfl⟩ : ∃ m, n = m + 1 := ⟨n - 1, by omega⟩
  rw [h]; exact hN m (by omega)

end

section

variable {D : Type} [Flt D] [ExactLt D] {cfg : Cfg D}

/-- The quotient of numbers. -/
theorem ret_divide_nums (hc : cfg.Ok) {c w i : ℚ} (hc0 : c ≠ 0) (hr : Ret cfg (fun E => E.oneOver (.num (.rat w))) (.num (.rat i))) :
    Ret cfg (fun E => E.divideL (.num (.rat c)) (.num (.rat w)) []) (.num (.rat (c * i)), (zero : Expr D)) := by
  refine ret_succ (f := fun E => divideL E (.num (.rat c)) (.num (.rat w)) []) (fun _ => rfl) ?_
  have hok : isPolyInputValid (.num (.rat c) : Expr D) (.num (.rat w)) = .ok true := by
    unfold isPolyInputValid
    rw [isZero_ratE]
    simp [hc0, hasValidType, Number.isRational, pure, Except.pure, bind, Except.bind]
  unfold divideL
  refine ret_bind (tot_lift hok).ret ?_
  simp only [Bool.not_true, Bool.false_eq_true, if_false]
  obtain ⟨p, p1, p2, p3⟩ := tot_prod_em hc (A := [.num (.rat c), .num (.rat i)]) (by simp) (by
    intro e he
    rcases List.mem_cons.1 he with rfl | he
    · exact EM.num c
    · rw [List.mem_singleton.1 he]; exact EM.num i)
  have hp : p = .num (.rat (c * i)) := p2.1.eq_num (by rw [p3]; simp [poly_ratE])
  subst hp
  obtain ⟨N, cs, hN⟩ := ret_bind (g := fun E o => E.prodCreate [.num (.rat c), o]) hr (tot_prod p1).ret
  have hcap : Ret cfg (fun E => M.capture (do
      let o ← E.oneOver (.num (.rat w))
      E.prodCreate [.num (.rat c), o])) (.num (.rat (c * i)), cs) := by
    refine ⟨N, [], fun n hn => ?_⟩
    have := hN n hn
    exact capture_ok this
  unfold divideEmptyList
  refine ret_bind hcap ?_
  refine ret_bind (a := some (.rat (c * i))) (tot_lift (by simp [numEval]; rfl)).ret ?_
  simp only [Number.isRational, if_true]
  exact ret_bind ⟨0, cs, fun _ _ => rfl⟩ (ret_bind ⟨0, [Cond.nz _], fun _ _ => rfl⟩ (tot_pure _).ret)

/-- If the reciprocal of `w` is given as `i`, with `i * w` different from one, then the division of a multiple of a
symbol by the number `w` does not end. -/
theorem divide_num_endless (hc : cfg.Ok) (s : Sym) (hs : s.id.Ok) {w i : ℚ} (hw : w ≠ 0) (hi : i * w ≠ 1)
    (hr : Ret cfg (fun E => E.oneOver (.num (.rat w))) (.num (.rat i)))
    {r : Expr D} {c : ℚ} (her : EP r) (hc0 : c ≠ 0) (hrp : poly r = MvPolynomial.C c * MvPolynomial.X s) :
    Endless cfg (fun E => E.divideL r (.num (.rat w)) [.sym s]) := by
  have hv : EP (.num (.rat w) : Expr D) := EP.num w
  have hvp : poly (.num (.rat w) : Expr D) = MvPolynomial.C w := poly_ratE w
  have hvd : (poly (.num (.rat w) : Expr D)).degreeOf s = 0 := by rw [hvp]; exact MvPolynomial.degreeOf_C _ _
  have hvz : poly (.num (.rat w) : Expr D) ≠ 0 := by
    rw [hvp]; intro h; exact hw (MvPolynomial.C_injective Sym ℚ (by rw [h, map_zero]))
  have hloop : ∀ k n, M.loop k (divideStep (eng cfg n) (.num (.rat w)) (.sym s) 0 []) ((zero : Expr D), r, 1) = .error .fuel := by
    intro k n
    refine loop_diverges (cfg := cfg) (step := fun E => divideStep E (.num (.rat w)) (.sym s) 0 [])
      (I := fun st => Pol cfg st.1 ∧ EP st.2.1 ∧
        (∃ c, c ≠ 0 ∧ poly st.2.1 = MvPolynomial.C c * MvPolynomial.X s) ∧ st.2.2 = 1)
      (fun st => divideStep_mono _ _ _ _ _ id Lean.Order.monotone_id) ?_ k n (zero, r, 1)
      ⟨EP.zero.pol, her, ⟨c, hc0, hrp⟩, rfl⟩
    rintro ⟨q, r, m⟩ ⟨hq, her, ⟨c, hc0, hrp⟩, hm⟩
    simp only at hq her hrp hm
    subst hm
    obtain ⟨d1, l1⟩ := tot_leading_linear hc s her hc0 hrp
    obtain ⟨lv, v1, v2, v3⟩ := tot_lead hc (cfg := cfg) s hv (by rw [hvd]; decide)
    have hlv : lv = .num (.rat w) := v2.eq_num (by rw [v3, hvd, hvp, upoly_C, Polynomial.coeff_C_zero])
    subst hlv
    have hdiv := ret_divide_nums hc (cfg := cfg) hc0 hr
    obtain ⟨x1, x2⟩ := EP.symPow (D := D) hs 1
    have hpow := tot_symPow (D := D) (cfg := cfg) s (m := 1) (n := 0) (by omega)
    obtain ⟨ct, c1, c2, c3⟩ := tot_prod2 hc (cfg := cfg) (a := .num (.rat (c * i))) (EP.num _).pol x1.pol
    obtain ⟨q', q1, q2, q3⟩ := tot_sum2 hc (cfg := cfg) hq c2
    obtain ⟨mm, m1, m2, m3⟩ := tot_prod_pol hc (cfg := cfg) (es := [mOne, .num (.rat (c * i)), .num (.rat w), symPow s 1]) (by simp) (by
      simpa using ⟨Pol.mOne, (EP.num _).pol, hv.pol, x1.pol⟩)
    obtain ⟨rr, r1, r2, r3⟩ := tot_sum2 hc (cfg := cfg) her.pol m2
    obtain ⟨re, e1, e2, e3⟩ := tot_expand' hc r2
    have hre : poly re = MvPolynomial.C (c * (1 - i * w)) * MvPolynomial.X s := by
      rw [e3, r3, m3]
      simp only [List.map_cons, List.map_nil, List.prod_cons, List.prod_nil, mul_one, poly_mOne, x2, poly_ratE, hrp, pow_one]
      simp only [map_mul, map_sub, map_one]
      ring
    have hne : c * (1 - i * w) ≠ 0 := mul_ne_zero hc0 (sub_ne_zero.2 (Ne.symm hi))
    obtain ⟨d3, -⟩ := tot_leading_linear hc s e2 hne hre
    have hz : re.isZero = false := by
      rw [Bool.eq_false_iff]
      intro hz
      have := e2.isZero.1 hz
      rw [hre] at this
      rcases mul_eq_zero.1 this with h | h
      · exact hne (MvPolynomial.C_injective Sym ℚ (by rw [h, map_zero]))
      · exact MvPolynomial.X_ne_zero s h
    refine ⟨(q', re, 1), ⟨q2, e2, ⟨_, hne, hre⟩, rfl⟩, ?_⟩
    unfold divideStep
    simp only [show ¬ ((1 : ℤ) < 0) by omega, show ¬ ((1 : ℤ) < 0 ∨ (0 : ℤ) < 0) by omega, if_false]
    refine ret_bind l1.ret (ret_bind v1.ret (ret_bind hdiv ?_))
    have h0 : (zero : Expr D).isZero = true := by rw [zero_eq, isZero_ratE]; simp
    simp only [h0, Bool.not_true, Bool.false_eq_true, if_false]
    refine ret_bind hpow.ret (ret_bind c1.ret (ret_bind q1.ret (ret_bind (tot_prod m1).ret
      (ret_bind r1.ret (ret_bind e1.ret ?_)))))
    simp only [hz, Bool.false_eq_true, if_false]
    exact ret_bind (tot_lift d3).ret (tot_pure _).ret
  obtain ⟨d1, -⟩ := tot_leading_linear (cfg := cfg) hc s her hc0 hrp
  have d2 := degree_ep s hv (by rw [hvd]; decide)
  rw [hvd] at d2
  have hru : ∀ t, ((poly r).degreeOf t : ℤ) ≤ intMax := by
    intro t
    rw [hrp]
    have h1 := MvPolynomial.degreeOf_mul_le t (MvPolynomial.C c) (MvPolynomial.X s)
    rw [MvPolynomial.degreeOf_C, zero_add] at h1
    have h2 : (MvPolynomial.X (R := ℚ) s).degreeOf t ≤ 1 := by
      by_cases h : t = s
      · subst h; rw [MvPolynomial.degreeOf_X_self]
      · rw [MvPolynomial.degreeOf_X_of_ne h]; omega
    unfold intMax; omega
  have hr0 : poly r ≠ 0 := by
    rw [hrp]
    refine mul_ne_zero (fun h => hc0 (MvPolynomial.C_injective Sym ℚ (by rw [h, map_zero]))) (MvPolynomial.X_ne_zero s)
  have hok := isPolyInputValid_ep her hv hvz hru (fun t => by rw [hvp, MvPolynomial.degreeOf_C]; decide)
  have he : isEqual (.num (.rat w)) r = false := by
    rw [Bool.eq_false_iff]
    intro h
    have := (isEqual_eq _ (isPolyE_exact _ hv.polyE) _ (isPolyE_exact _ her.polyE)).1 h
    rw [← this, degree_ep s hv (by rw [hvd]; decide), hvd] at d1
    cases d1
  have hz : r.isZero = false := by rw [Bool.eq_false_iff]; exact fun h => hr0 (her.isZero.1 h)
  refine endless_succ (f := fun E => divideL E r (.num (.rat w)) [.sym s]) (fun _ => rfl) ?_
  unfold divideL
  refine endless_bind (tot_lift hok).ret ?_
  simp only [Bool.not_true, Bool.false_eq_true, if_false, he, hz]
  unfold divideNonEmpty
  refine endless_bind (tot_lift d1).ret (endless_bind (tot_lift d2).ret ?_)
  simp only [isSymbol, Bool.not_true, Bool.false_eq_true, if_false]
  exact ⟨0, fun n _ => hloop _ n⟩

end

end Tsym
