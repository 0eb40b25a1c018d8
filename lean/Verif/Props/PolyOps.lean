import Verif.PolyDiff
import Verif.Props.Polynomials
import Mathlib.Analysis.Calculus.Deriv.Mul
import Mathlib.Analysis.Calculus.Deriv.Add

set_option autoImplicit false
set_option linter.unusedSectionVars false
set_option linter.unusedSimpArgs false
set_option linter.unusedVariables false

/-!
# C50, C51: degree, coefficients and derivative of expanded polynomials
-/

namespace Tsym

open Expr

/-! ## Helpers -/

theorem Cf.sum {s : Sym} {p : MvPolynomial Sym ℚ} {c : ℕ → MvPolynomial Sym ℚ} (h : ∀ n, Cf s n p (c n)) :
    p = ∑ n ∈ Finset.range (p.degreeOf s + 1), c n * MvPolynomial.X s ^ n := by
  ext f
  rw [MvPolynomial.coeff_sum]
  have key : ∀ n, (c n * MvPolynomial.X s ^ n).coeff f = if n = f s then p.coeff f else 0 := by
    intro n
    rw [MvPolynomial.X_pow_eq_monomial, MvPolynomial.coeff_mul_monomial']
    by_cases hn : n = f s
    · subst hn
      have hle : Finsupp.single s (f s) ≤ f := by
        intro a
        by_cases ha : a = s
        · subst ha; simp
        · simp [Finsupp.single_apply, Ne.symm ha]
      rw [if_pos hle, h, mul_one, if_pos, tsub_add_cancel_of_le hle, if_pos rfl]
      simp
    · rw [if_neg hn]
      split
      · rename_i hle
        have h1 := hle s
        simp at h1
        rw [h, if_neg, zero_mul]
        simp; omega
      · rfl
  simp only [key]
  rw [Finset.sum_ite_eq']
  split
  · rfl
  · rename_i hn
    by_contra h0
    have hs : f ∈ p.support := MvPolynomial.mem_support_iff.2 h0
    have := MvPolynomial.le_degreeOf_of_mem_support s hs
    simp at hn; omega

theorem Cf.zero_of_lt {s : Sym} {n : ℕ} {p c : MvPolynomial Sym ℚ} (h : Cf s n p c) (hn : p.degreeOf s < n) : c = 0 := by
  ext f
  rw [h f, MvPolynomial.coeff_zero]
  split
  · rename_i hf
    by_contra h0
    have := MvPolynomial.le_degreeOf_of_mem_support s (MvPolynomial.mem_support_iff.2 h0)
    simp [hf] at this; omega
  · rfl

theorem Cf.degreeOf {s : Sym} {n : ℕ} {p c : MvPolynomial Sym ℚ} (h : Cf s n p c) : c.degreeOf s = 0 := by
  rw [← Nat.le_zero, MvPolynomial.degreeOf_le_iff]
  intro f hf
  have := MvPolynomial.mem_support_iff.1 hf
  rw [h f] at this
  by_contra h0
  rw [if_neg (by omega)] at this
  exact this rfl

theorem pval_deriv (s : Sym) (σ : Asg) (p : MvPolynomial Sym ℚ) :
    HasDerivAt (fun x => pval (Function.update σ s x) p) (pval σ (MvPolynomial.pderiv s p)) (σ s) := by
  induction p using MvPolynomial.induction_on with
  | C a =>
    have h := hasDerivAt_const (σ s) (a : ℝ)
    refine HasDerivAt.congr_deriv (f := fun x => pval (Function.update σ s x) (MvPolynomial.C a)) ?_ (f' := 0) ?_
    · refine h.congr_of_eventuallyEq (Filter.Eventually.of_forall fun x => ?_)
      simp [pval]
    · simp [pval]
  | add p q hp hq =>
    refine ((hp.add hq).congr_of_eventuallyEq (Filter.Eventually.of_forall fun x => ?_)).congr_deriv ?_
    · simp [pval]
    · simp [pval]
  | mul_X p t hp =>
    have ht : HasDerivAt (fun x => Function.update σ s x t) (if t = s then 1 else 0) (σ s) := by
      by_cases h : t = s
      · subst h
        rw [if_pos rfl]
        exact (hasDerivAt_id (σ t)).congr_of_eventuallyEq (Filter.Eventually.of_forall fun x => by simp)
      · rw [if_neg h]
        exact (hasDerivAt_const (σ s) (σ t)).congr_of_eventuallyEq (Filter.Eventually.of_forall fun x => by simp [h])
    refine ((hp.mul ht).congr_of_eventuallyEq (Filter.Eventually.of_forall fun x => ?_)).congr_deriv ?_
    · simp [pval]
    · rw [Derivation.leibniz, MvPolynomial.pderiv_X]
      by_cases h : t = s
      · subst h; simp [pval]; ring
      · simp [pval, h, Pi.single_apply, Ne.symm h]; ring

theorem pderiv_comm (s s' : Sym) (p : MvPolynomial Sym ℚ) : MvPolynomial.pderiv s' (MvPolynomial.pderiv s p) =
    MvPolynomial.pderiv s (MvPolynomial.pderiv s' p) := by
  induction p using MvPolynomial.induction_on with
  | C a => simp
  | add p q hp hq => simp [hp, hq]
  | mul_X p t hp =>
    simp only [Derivation.leibniz, map_add, smul_eq_mul, hp, MvPolynomial.pderiv_X]
    have h0 : ∀ a b c : Sym, MvPolynomial.pderiv a ((Pi.single b 1 : Sym → MvPolynomial Sym ℚ) c) = 0 := by
      intro a b c
      by_cases h : c = b
      · subst h; simp
      · simp [Pi.single_apply, h]
    simp only [h0, mul_zero, zero_add, add_zero]
    ring

section

variable {D : Type} [Flt D] [ExactLt D] {cfg : Cfg D}

theorem has_em (s : Sym) {m : Mono D} {K : Key} (hK : IsKey m.2 K) :
    has (.sym s) (em m) = decide (K.count s ≠ 0) := by
  have h1 := hasAny_rl (D := D) s m.1 hK.1
  rw [← hK.2.2] at h1
  unfold em
  rcases mexpr_cases m.1 m.2 with ⟨h0, e⟩ | ⟨f, hf, hq, e⟩ | ⟨h2, h3, e⟩
  · rw [e]
    rw [h0] at h1
    unfold rl at h1
    split at h1
    · simpa [has, hasAny, isEqual_num_sym] using h1
    · simpa [has, hasAny, isEqual_num_sym] using h1
  · rw [e, ← h1, hf, hq, rl_one]; simp [hasAny]
  · rw [e, has, h1]; simp [isEqual_prod_sym]

theorem hasAny_em (s : Sym) : ∀ {L : List (Mono D)}, (∀ m ∈ L, ∃ K, IsKey m.2 K ∧ K.count s = 0) →
    hasAny (.sym s) (L.map em) = false
  | [], _ => by simp [hasAny]
  | m :: L, h => by
    obtain ⟨K, hK, h0⟩ := h m (by simp)
    rw [List.map_cons, hasAny, has_em s hK, h0, hasAny_em s fun m hm => h m (by simp [hm])]
    simp

/-- A symbol occurs in an expanded polynomial only if the polynomial depends on it. -/
theorem EP.not_has {s : Sym} {r : Expr D} (h : EP r) (hd : (poly r).degreeOf s = 0) : has (.sym s) r = false := by
  rcases h.cases with rfl | ⟨m, K, hm, hK, rfl⟩ | ⟨L, hL, h2, rfl⟩
  · simp [Expr.zero, has, isEqual_num_sym]
  · have : (poly (em m)).degreeOf s = K.count s := by
      rw [hK.poly, MvPolynomial.degreeOf_monomial_eq _ _ hm, Key.fs_count]
    rw [has_em s hK, ← this, hd]; simp
  · have hp : poly (.sum (L.map em) : Expr D) = psum L := poly_sum_em h2
    rw [has, hasAny_em s]
    · rw [isEqual_sum_sym]; rfl
    · intro m hm
      obtain ⟨K, hK⟩ := hL.ks.key m hm
      refine ⟨K, hK, ?_⟩
      rw [hp] at hd
      have h1 := MvPolynomial.le_degreeOf_of_mem_support s (hL.mem_support hm hK)
      rw [Key.fs_count] at h1
      omega

open Lean.Order in
theorem apiDiff_mono (e x : Expr D) : monotone fun E : Eng D => Api.diff E e x := by
  simp only [Api.diff]; repeat' monotonicity

end

/-! ## C50 -/

section

variable {D : Type} [Flt D] [LawfulFlt D] {cfg : Cfg D}

/-- C50. The degree of an expanded polynomial is the degree of the polynomial, if that is less than the
greatest `int`. -/
theorem C50_degree (hc : cfg.Ok) (t : PTree) (ht : t.Ok) (r : Expr D) (hr : Gives cfg (fun E => t.expanded E) r) (s : Sym)
    (hb : t.poly.degreeOf s < 2 ^ 31 - 1) : degree (.sym s) r = .ok (t.poly.degreeOf s : ℤ) := by
  obtain ⟨r', hr', er, qr⟩ := t.tot_expanded (D := D) hc ht
  have e1 : r' = r := hr'.unique hr.1
  subst e1
  rw [← qr] at hb ⊢
  exact degree_ep s er (by unfold intMax; omega)

/-- C50. The coefficients of an expanded polynomial: each is an expanded polynomial again, does not contain
the symbol, they are zero above the degree, and the polynomial is the sum of the coefficients times the
powers of the symbol. -/
theorem C50_coeff (hc : cfg.Ok) (t : PTree) (ht : t.Ok) (r : Expr D) (hr : Gives cfg (fun E => t.expanded E) r) (s : Sym) :
    ∃ c : ℕ → Expr D, (∀ n : ℕ, Gives cfg (fun E => coeff E (.sym s) n r) (c n) ∧ Expanded (c n) ∧ has (.sym s) (c n) = false) ∧
      (∀ n, t.poly.degreeOf s < n → c n = .num (.rat 0)) ∧
      ∀ σ : Asg, ∃ v : ℕ → ℝ, (∀ n, den σ (c n) = some (v n)) ∧
        t.val σ = ∑ n ∈ Finset.range (t.poly.degreeOf s + 1), v n * σ s ^ n := by
  obtain ⟨r', hr', er, qr⟩ := t.tot_expanded (D := D) hc ht
  have e1 : r' = r := hr'.unique hr.1
  subst e1
  choose c h1 h2 h3 using fun n : ℕ => tot_coeff_ep hc s n er
  refine ⟨c, fun n => ⟨(h1 n).gives (coeff_mono _ _ _ id Lean.Order.monotone_id), (h2 n).expanded, (h2 n).not_has (h3 n).degreeOf⟩, fun n hn => ?_, fun σ => ?_⟩
  · rw [← qr] at hn
    have := (h3 n).zero_of_lt hn
    rw [← zero_eq]
    exact (h2 n).unique EP.zero (by rw [this, poly_zero])
  · refine ⟨fun n => pval σ (poly (c n)), fun n => den_poly _ (h2 n).polyE, ?_⟩
    rw [t.val_eq, ← qr]
    conv_lhs => rw [Cf.sum h3]
    simp [pval]

/-! ## C51 -/

/-- C51. The derivative of an expanded polynomial: there always is a result, without conditions, it is an
expanded polynomial again and its value is the derivative, for all values of the symbols. -/
theorem C51_diff (hc : cfg.Ok) (t : PTree) (ht : t.Ok) (r : Expr D) (hr : Gives cfg (fun E => t.expanded E) r) (s : Sym) :
    ∃ d, Gives cfg (fun E => Api.diff E r (.sym s)) d ∧ Expanded d ∧ ∀ σ : Asg, ∃ v, den σ d = some v ∧
      HasDerivAt (fun x => t.val (Function.update σ s x)) v (σ s) := by
  obtain ⟨r', hr', er, qr⟩ := t.tot_expanded (D := D) hc ht
  have e1 : r' = r := hr'.unique hr.1
  subst e1
  obtain ⟨d, h1, h2, h3⟩ := tot_diff_ep hc s er
  refine ⟨d, ?_, h2.expanded, fun σ => ⟨_, den_poly _ h2.polyE, ?_⟩⟩
  · refine Tot.gives ?_ (apiDiff_mono _ _)
    simp only [Api.diff, isSymbol, if_true]
    exact tot_diff h1
  · rw [h3, qr]
    refine (pval_deriv s σ t.poly).congr_of_eventuallyEq (Filter.Eventually.of_forall fun x => t.val_eq _)

/-- C51. The derivatives with respect to two symbols can be exchanged. -/
theorem C51_exchange (hc : cfg.Ok) (t : PTree) (ht : t.Ok) (r : Expr D) (hr : Gives cfg (fun E => t.expanded E) r) (s s' : Sym)
    (d d' : Expr D) (hd : Gives cfg (fun E => Api.diff E r (.sym s)) d) (hd' : Gives cfg (fun E => Api.diff E r (.sym s')) d') :
    ∃ w, Gives cfg (fun E => Api.diff E d (.sym s')) w ∧ Gives cfg (fun E => Api.diff E d' (.sym s)) w := by
  obtain ⟨r', hr', er, qr⟩ := t.tot_expanded (D := D) hc ht
  have e1 : r' = r := hr'.unique hr.1
  subst e1
  have key : ∀ {e : Expr D} (he : EP e) (s : Sym), ∃ d, Gives cfg (fun E => Api.diff E e (.sym s)) d ∧ EP d ∧
      poly d = MvPolynomial.pderiv s (poly e) := by
    intro e he s
    obtain ⟨d, h1, h2, h3⟩ := tot_diff_ep hc s he
    refine ⟨d, Tot.gives ?_ (apiDiff_mono _ _), h2, h3⟩
    simp only [Api.diff, isSymbol, if_true]
    exact tot_diff h1
  obtain ⟨c, h1, h2, h3⟩ := key er s
  obtain ⟨c', h1', h2', h3'⟩ := key er s'
  have e2 : c = d := h1.unique hd
  have e3 : c' = d' := h1'.unique hd'
  subst e2 e3
  obtain ⟨w, g1, g2, g3⟩ := key h2 s'
  obtain ⟨w', g1', g2', g3'⟩ := key h2' s
  have e4 : w = w' := g2.unique g2' (by rw [g3, g3', h3, h3', pderiv_comm])
  subst e4
  exact ⟨_, g1, g1'⟩

end

/-! ## Examples -/

namespace PolyEx3

open ExprEx SymEx PolyEx2

/-- 2*(a + b)*(a - b) has the degree two ... -/
example : degree (.sym sa) (sum [prod [int 2, pow a (int 2)], prod [int (-2), pow b (int 2)]]) = .ok 2 := by krfl
/-- ... and the coefficients -2*b^2, 0 and 2. -/
example : coeff lib (.sym sa) 0 (sum [prod [int 2, pow a (int 2)], prod [int (-2), pow b (int 2)]]) =
    .ok (prod [int (-2), pow b (int 2)], []) := by krfl
example : coeff lib (.sym sa) 1 (sum [prod [int 2, pow a (int 2)], prod [int (-2), pow b (int 2)]]) = .ok (zero, []) := by krfl
example : coeff lib (.sym sa) 2 (sum [prod [int 2, pow a (int 2)], prod [int (-2), pow b (int 2)]]) = .ok (int 2, []) := by krfl
/-- Its derivative is 4*a. -/
example : Api.diff lib (sum [prod [int 2, pow a (int 2)], prod [int (-2), pow b (int 2)]]) (.sym sa) =
    .ok (prod [int 4, a], []) := by krfl
/-- The hypothesis of C50 and C51. -/
example : Gives (Cfg.std 1000) (fun E => t1.expanded E) (sum [prod [int 2, pow a (int 2)], prod [int (-2), pow b (int 2)]]) := by
  obtain ⟨e, he, _⟩ := C48_expanded (D := Hyb) (Cfg.std_ok 1000) t1 t1_ok
  have h : t1.expanded (eng (Cfg.std 1000) 30) = .ok (sum [prod [int 2, pow a (int 2)], prod [int (-2), pow b (int 2)]], []) := by krfl
  rcases he.2 30 with h1 | h1
  · cases h.symm.trans h1
  · cases h.symm.trans h1; exact he

/-- C50 is false for greater exponents: the degree of a^(2^31) is zero. -/
theorem C50_false_great : degree (.sym sa) (pow a (int (2 ^ 31))) = .ok 0 := by krfl

end PolyEx3

end Tsym
