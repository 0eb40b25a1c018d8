import Verif.PolyDiff
import Verif.PolyTree

set_option autoImplicit false
set_option linter.unusedSectionVars false
set_option linter.unusedSimpArgs false
set_option linter.unusedVariables false

/-!
# Helper lemmas: calls that do not end

A call that gives the outcome `fuel` for all depths does not end.
-/

namespace Tsym

open Expr

variable {D : Type} [Flt D] {cfg : Cfg D}

/-- From some depth on the call returns `a`, possibly with conditions. -/
def Ret {α : Type} (cfg : Cfg D) (f : Eng D → M D α) (a : α) : Prop := ∃ N cs, ∀ n, N ≤ n → f (eng cfg n) = .ok (a, cs)

theorem Tot.ret {α : Type} {f : Eng D → M D α} {a : α} (h : Tot cfg f a) : Ret cfg f a := by
  obtain ⟨N, h⟩ := h; exact ⟨N, [], h⟩

theorem ret_bind {α β : Type} {f : Eng D → M D α} {g : Eng D → α → M D β} {a : α} {b : β}
    (hf : Ret cfg f a) (hg : Ret cfg (fun E => g E a) b) : Ret cfg (fun E => f E >>= g E) b := by
  obtain ⟨N, cs, hN⟩ := hf
  obtain ⟨K, ds, hK⟩ := hg
  refine ⟨max N K, cs ++ ds, fun n hn => ?_⟩
  exact M.bind_ok.2 ⟨a, cs, ds, hN n (le_trans (le_max_left _ _) hn), hK n (le_trans (le_max_right _ _) hn), rfl⟩

/-- A monotone call that returns for one depth. -/
theorem ret_of_val {α : Type} {f : Eng D → M D α} {a : α} {cs : List (Cond D)} {N : ℕ} (hm : Lean.Order.monotone f)
    (h : f (eng cfg N) = .ok (a, cs)) : Ret cfg f a := by
  refine ⟨N, cs, fun n hn => ?_⟩
  have h1 := hm _ _ (eng_le cfg hn)
  rcases h1 with h1 | h1
  · rw [h] at h1; cases h1
  · rw [← h1, h]

theorem ret_succ {α : Type} {f g : Eng D → M D α} {a : α} (h : ∀ n, g (eng cfg (n + 1)) = f (eng cfg n)) (hf : Ret cfg f a) :
    Ret cfg g a := by
  obtain ⟨N, cs, hN⟩ := hf
  refine ⟨N + 1, cs, fun n hn => ?_⟩
  obtain ⟨m, rfl⟩ : ∃ m, n = m + 1 := ⟨n - 1, by omega⟩
  rw [h]; exact hN m (by omega)

/-- A loop with an invariant that each round keeps does not end. -/
theorem loop_diverges {S R : Type} {step : Eng D → S → M D (S ⊕ R)} {I : S → Prop}
    (hm : ∀ s, Lean.Order.monotone fun E => step E s)
    (h : ∀ s, I s → ∃ s', I s' ∧ Ret cfg (fun E => step E s) (.inl s')) (k n : ℕ) (s : S) (hs : I s) :
    M.loop k (step (eng cfg n)) s = .error .fuel := by
  have key : ∀ k s, I s → ∃ N, ∀ n, N ≤ n → M.loop k (step (eng cfg n)) s = .error .fuel := by
    intro k
    induction k with
    | zero => intro s _; exact ⟨0, fun _ _ => rfl⟩
    | succ k ih =>
      intro s hs
      obtain ⟨s', hs', N, cs, hN⟩ := h s hs
      obtain ⟨K, hK⟩ := ih s' hs'
      refine ⟨max N K, fun n hn => ?_⟩
      have h1 := hN n (le_trans (le_max_left _ _) hn)
      have h2 := hK n (le_trans (le_max_right _ _) hn)
      have h1' : step (eng cfg n) s = .ok (.inl s', cs) := h1
      simp only [M.loop]
      change M.bind _ _ = _
      rw [h1']
      simp only [M.bind, h2]
      rfl
  obtain ⟨N, hN⟩ := key k s hs
  have h1 := M.loop_le k k (step (eng cfg n)) (step (eng cfg (max n N))) le_rfl (fun s => hm s _ _ (eng_le cfg (Nat.le_max_left n N))) s
  rcases h1 with h1 | h1
  · exact h1
  · exact h1.trans (hN _ (Nat.le_max_right n N))

theorem capture_ok {α : Type} {m : M D α} {a : α} {cs : List (Cond D)} (h : m = .ok (a, cs)) :
    M.capture m = .ok ((a, cs), []) := by
  subst h; rfl

theorem bind_error {α β : Type} {m : M D α} {f : α → M D β} {a : α} {cs : List (Cond D)} {e : Err} (h : m = .ok (a, cs))
    (hf : f a = .error e) : (m >>= f) = .error e := by
  subst h
  change M.bind _ _ = _
  simp only [M.bind, hf]
  rfl

/-! ## Division by 324*a -/

section

variable [ExactLt D]

theorem EP.isZero {e : Expr D} (h : EP e) : e.isZero = true ↔ poly e = 0 := by
  constructor
  · intro hz
    rcases h.cases with rfl | ⟨m, K, hm, hK, rfl⟩ | ⟨L, hL, h2, rfl⟩
    · exact poly_zero
    · have := mexpr_isZero (cfg := Cfg.std 0) hm hK.pfacs
      unfold em at hz; rw [this] at hz; cases hz
    · cases hz
  · intro hz
    rw [h.unique EP.zero (by rw [hz, poly_zero]), zero_eq, isZero_ratE]; simp

theorem EP.eq_num {e : Expr D} (h : EP e) {q : ℚ} (hq : poly e = MvPolynomial.C q) : e = .num (.rat q) :=
  h.unique (EP.num q) (by rw [hq, poly_ratE])

/-- The leading coefficient of a multiple of a symbol. -/
theorem tot_leading_linear (hc : cfg.Ok) (s : Sym) {r : Expr D} (h : EP r) {c : ℚ} (h0 : c ≠ 0)
    (hp : poly r = MvPolynomial.C c * MvPolynomial.X s) :
    degree (.sym s) r = .ok 1 ∧ Tot cfg (fun E => leadingCoeff E (.sym s) r) (.num (.rat c)) := by
  have hm : poly r = MvPolynomial.monomial (Finsupp.single s 1) c := by
    rw [hp, ← pow_one (MvPolynomial.X s), MvPolynomial.C_mul_X_pow_eq_monomial]
  have hd : (poly r).degreeOf s = 1 := by
    rw [hm, MvPolynomial.degreeOf_monomial_eq _ _ h0]; simp
  have h1 : degree (.sym s) r = .ok 1 := by
    rw [degree_ep s h (by rw [hd]; decide), hd]; rfl
  refine ⟨h1, ?_⟩
  obtain ⟨d, g1, g2, g3⟩ := tot_coeff_ep hc s 1 h
  have : d = .num (.rat c) := by
    refine g2.eq_num ?_
    ext f
    rw [g3 f, hm, MvPolynomial.coeff_monomial, MvPolynomial.coeff_C]
    by_cases hf : f s = 0
    · rw [if_pos hf]
      by_cases h2 : f = 0
      · subst h2; simp
      · rw [if_neg, if_neg (Ne.symm h2)]
        intro e
        apply h2
        have : f + Finsupp.single s 1 = 0 + Finsupp.single s 1 := by rw [← e, zero_add]
        exact add_right_cancel this
    · rw [if_neg hf, if_neg]
      intro e; rw [← e] at hf; exact hf rfl
  subst this
  unfold leadingCoeff
  exact tot_bind (tot_lift h1) (tot_coeff g1)

/-- If the reciprocal of `w` is given as `i`, with `i * w` different from one, then the division of a multiple of a
symbol by `w` times the symbol does not end. -/
theorem divide_diverges (hc : cfg.Ok) (s : Sym) (hs : s.id.Ok) {v : Expr D} (hv : EP v) {w i : ℚ} (hw : w ≠ 0)
    (hvp : poly v = MvPolynomial.C w * MvPolynomial.X s) (hi : i * w ≠ 1)
    (hr : Ret cfg (fun E => E.oneOver (.num (.rat w))) (.num (.rat i)))
    (k n : ℕ) (q r : Expr D) (qq c : ℚ) (hq : EP q) (hqp : poly q = MvPolynomial.C qq) (her : EP r) (hc0 : c ≠ 0)
    (hrp : poly r = MvPolynomial.C c * MvPolynomial.X s) :
    M.loop k (divideStep (eng cfg n) v (.sym s) 1 []) (q, r, 1) = .error .fuel := by
  refine loop_diverges (cfg := cfg) (step := fun E => divideStep E v (.sym s) 1 [])
    (I := fun st => EP st.1 ∧ (∃ qq, poly st.1 = MvPolynomial.C qq) ∧ EP st.2.1 ∧
      (∃ c, c ≠ 0 ∧ poly st.2.1 = MvPolynomial.C c * MvPolynomial.X s) ∧ st.2.2 = 1)
    (fun st => divideStep_mono _ _ _ _ _ id Lean.Order.monotone_id) ?_ k n (q, r, 1)
    ⟨hq, ⟨qq, hqp⟩, her, ⟨c, hc0, hrp⟩, rfl⟩
  rintro ⟨q, r, m⟩ ⟨hq, ⟨qq, hqp⟩, her, ⟨c, hc0, hrp⟩, hm⟩
  simp only at hq hqp her hrp hm
  subst hm
  obtain ⟨d1, l1⟩ := tot_leading_linear hc s her hc0 hrp
  obtain ⟨d2, l2⟩ := tot_leading_linear hc s hv hw hvp
  -- the quotient of the leading coefficients
  have hdiv : Ret cfg (fun E => E.divideL (.num (.rat c)) (.num (.rat w)) []) (.num (.rat (c * i)), zero) := by
    refine ret_succ (f := fun E => divideL E (.num (.rat c)) (.num (.rat w)) []) (fun _ => rfl) ?_
    have hok : isPolyInputValid (.num (.rat c) : Expr D) (.num (.rat w)) = .ok true := by
      unfold isPolyInputValid
      rw [isZero_ratE]
      simp [hc0, hasValidType, Number.isRational, pure, Except.pure, bind, Except.bind]
    unfold divideL
    refine ret_bind (tot_lift hok).ret ?_
    simp only [Bool.not_true, Bool.false_eq_true, if_false]
    obtain ⟨p, p1, p2, p3⟩ := tot_prod_em hc (A := [.num (.rat c), .num (.rat i)]) (by simp) (by
      intro e he
      rcases List.mem_cons.1 he with rfl | he
      · exact EM.num c
      · rw [List.mem_singleton.1 he]; exact EM.num i)
    have hp : p = .num (.rat (c * i)) := p2.1.eq_num (by rw [p3]; simp [poly_ratE])
    subst hp
    obtain ⟨N, cs, hN⟩ := ret_bind (g := fun E o => E.prodCreate [.num (.rat c), o]) hr (tot_prod p1).ret
    have hcap : Ret cfg (fun E => M.capture (do
        let o ← E.oneOver (.num (.rat w))
        E.prodCreate [.num (.rat c), o])) (.num (.rat (c * i)), cs) := by
      refine ⟨N, [], fun n hn => ?_⟩
      have := hN n hn
      exact capture_ok this
    unfold divideEmptyList
    refine ret_bind hcap ?_
    refine ret_bind (a := some (.rat (c * i))) (tot_lift (by simp [numEval]; rfl)).ret ?_
    simp only [Number.isRational, if_true]
    exact ret_bind ⟨0, cs, fun _ _ => rfl⟩ (ret_bind ⟨0, [Cond.nz _], fun _ _ => rfl⟩ (tot_pure _).ret)
  have hv' : Pol cfg v := hv.pol
  obtain ⟨ct, c1, c2, c3⟩ := tot_prod_em hc (A := [.num (.rat (c * i)), one]) (by simp) (by
    simpa using ⟨EM.num (D := D) (c * i), by rw [one_eq]; exact EM.num 1⟩)
  have hct : ct = .num (.rat (c * i)) := c2.1.eq_num (by rw [c3]; simp [poly_ratE, one_eq])
  subst hct
  obtain ⟨q', q1, q2, q3⟩ := tot_sum_ep hc (es := [q, .num (.rat (c * i))]) (by simp) (by simpa using ⟨hq, EP.num (D := D) (c * i)⟩)
  obtain ⟨mm, m1, m2, m3⟩ := tot_prod_pol hc (es := [mOne, .num (.rat (c * i)), v, one]) (by simp) (by
    have h1 : Pol cfg (one : Expr D) := by rw [one_eq]; exact Pol.rat 1
    have h2 : Pol cfg (mOne : Expr D) := by
      have : (mOne : Expr D) = .num (.rat (-1)) := by simp [mOne]
      rw [this]; exact Pol.rat _
    simpa using ⟨h2, Pol.rat (cfg := cfg) (D := D) (c * i), hv', h1⟩)
  obtain ⟨rr, r1, r2, r3⟩ := tot_sum_pol hc (es := [r, mm]) (by simp) (by simpa using ⟨her.pol, m2⟩)
  obtain ⟨re, e1, e2, e3⟩ := tot_expand_pol hc r2
  have hone : poly (one : Expr D) = 1 := by rw [one_eq, poly_ratE]; simp
  have hmone : poly (mOne : Expr D) = -1 := by
    have : (mOne : Expr D) = .num (.rat (-1)) := by simp [mOne]
    rw [this, poly_ratE]; simp
  have hre : poly re = MvPolynomial.C (c * (1 - i * w)) * MvPolynomial.X s := by
    rw [e3, r3]
    simp only [List.map_cons, List.map_nil, List.sum_cons, List.sum_nil, add_zero, m3, List.prod_cons, List.prod_nil, mul_one, hone, hmone,
      poly_ratE, hrp, hvp]
    simp only [map_mul, map_sub, map_one]
    ring
  have hne : c * (1 - i * w) ≠ 0 := mul_ne_zero hc0 (sub_ne_zero.2 (Ne.symm hi))
  obtain ⟨d3, -⟩ := tot_leading_linear hc s e2 hne hre
  have hz : re.isZero = false := by
    rw [Bool.eq_false_iff]
    intro hz
    have := e2.isZero.1 hz
    rw [hre] at this
    rcases mul_eq_zero.1 this with h | h
    · exact hne (MvPolynomial.C_injective Sym ℚ (by rw [h, map_zero]))
    · exact MvPolynomial.X_ne_zero s h
  refine ⟨(q', re, 1), ⟨q2, ⟨qq + c * i, ?_⟩, e2, ⟨_, hne, hre⟩, rfl⟩, ?_⟩
  · rw [q3]; simp [hqp, poly_ratE]
  · unfold divideStep
    simp only [lt_irrefl, if_false, show ¬ ((1 : ℤ) < 0 ∨ (1 : ℤ) < 0) by omega, sub_self]
    refine ret_bind l1.ret (ret_bind l2.ret (ret_bind hdiv ?_))
    have h0 : (zero : Expr D).isZero = true := by rw [zero_eq, isZero_ratE]; simp
    simp only [h0, Bool.not_true, Bool.false_eq_true, if_false]
    have hpow : Tot cfg (fun E => E.powCreate (.sym s) (.int 0)) (one : Expr D) := tot_pow (tot_powSym s 0)
    refine ret_bind hpow.ret (ret_bind (tot_prod c1).ret (ret_bind (tot_sum q1).ret (ret_bind (tot_prod m1).ret
      (ret_bind (tot_sum r1).ret (ret_bind (tot_expand e1).ret ?_)))))
    simp only [hz, Bool.false_eq_true, if_false]
    exact ret_bind (tot_lift d3).ret (tot_pure _).ret

/-- The call of poly::divide for a symbol and a multiple of it. -/
theorem polyDivide_diverges (hc : cfg.Ok) (s : Sym) (hs : s.id.Ok) {w i : ℚ} (hw : w ≠ 0) (hw1 : w ≠ 1)
    (hi : i * w ≠ 1) (hr : Ret cfg (fun E => E.oneOver (.num (.rat w))) (.num (.rat i))) (n : ℕ) :
    polyDivide (eng cfg n) (.sym s) (.prod [.num (.rat w), .sym s]) = .error .fuel := by
  have hr' : EP (.sym s : Expr D) := by
    have := EP.symFac (D := D) (x := (s, 1)) ⟨hs, le_rfl⟩
    simpa [symFac, fac] using this
  have hv : EP (.prod [.num (.rat w), .sym s] : Expr D) := by
    have := EP.mono (D := D) (m := (w, Key.facs [(s, 1)])) (K := [(s, 1)]) hw ⟨by
      intro x hx; rw [List.mem_singleton.1 hx]; exact ⟨hs, le_rfl⟩, by simp [Key.Sorted], rfl⟩
    simpa [em, mexpr, rl, Key.facs, fac, hw1, prodOf] using this
  have hvp : poly (.prod [.num (.rat w), .sym s] : Expr D) = MvPolynomial.C w * MvPolynomial.X s := by
    simp [poly, polyProd]
  have hrp : poly (.sym s : Expr D) = MvPolynomial.C 1 * MvPolynomial.X s := by
    simp [poly]
  have hl : listOfSymbols (eng cfg n) (.sym s) (.prod [.num (.rat w), .sym s] : Expr D) = .ok ([.sym s], []) := by
    have e1 : addSymbols (addSymbols [] (.sym s)) (.prod [.num (.rat w), .sym s] : Expr D) = [.sym s] := by
      simp [addSymbols, addSymbolsList, addIfNotAlreadyStored, isEqual_sym]
    have e2 : ∀ c : Expr D → Expr D → Bool, (eng cfg n).cfg.sort c [.sym s] = [.sym s] := by
      intro c
      rw [eng_cfg]
      exact List.perm_singleton.1 (hc.sort _ _)
    simp only [listOfSymbols, e1, e2]
    rfl
  obtain ⟨d1, -⟩ := tot_leading_linear hc s hr' one_ne_zero hrp
  obtain ⟨d2, -⟩ := tot_leading_linear hc s hv hw hvp
  have hok : isPolyInputValid (.sym s : Expr D) (.prod [.num (.rat w), .sym s]) = .ok true := by
    have hz : (Expr.sym s : Expr D).isZero = false := rfl
    simp [isPolyInputValid, hz, hasValidType, hasValidOperands, Number.isRational, pure, Except.pure, bind, Except.bind]
  have key : ∀ n, divideL (eng cfg n) (.sym s) (.prod [.num (.rat w), .sym s]) [.sym s] = .error .fuel := by
    intro n
    have hz : (Expr.sym s : Expr D).isZero = false := rfl
    have h1 : divideNonEmpty (eng cfg n) (.sym s) (.prod [.num (.rat w), .sym s]) (.sym s) [] = .error .fuel := by
      unfold divideNonEmpty
      rw [d1, d2]
      have := divide_diverges hc s hs hv hw hvp hi hr (eng cfg n).steps n zero (.sym s) 0 1 EP.zero (by rw [poly_zero]; simp) hr' one_ne_zero hrp
      exact bind_error rfl (bind_error rfl this)
    unfold divideL
    rw [hok]
    refine bind_error rfl ?_
    have h2 : isEqual (.prod [.num (.rat w), .sym s] : Expr D) (.sym s) = false := isEqual_prod_sym _ _
    simp only [Bool.not_true, Bool.false_eq_true, if_false, h2, hz]
    exact h1
  unfold polyDivide
  refine bind_error hl ?_
  match n with
  | 0 => rfl
  | n + 1 => exact key n

end

end Tsym
