import Verif.QuotFrac
import Verif.Props.NormalPoly
import Verif.Props.PolyGcd

set_option autoImplicit false
set_option linter.unusedSectionVars false
set_option linter.unusedSimpArgs false
set_option linter.unusedVariables false

/-!
# C61: numerator, denominator and normal form of a quotient of polynomials

The quotient of two expanded polynomials, of any degrees and in any number of symbols: the functions
numerator, denominator and normal always end, and give the quotient in lowest terms.
-/

namespace Tsym

open Expr

/-! ## Specification -/

/-- The call returns `a`, under conditions that hold at all points where `S` holds: with all depths of calls from some depth
on, and with smaller depths it does nothing else but stop at the bound. -/
def ReturnsWhere {D : Type} [Flt D] [LawfulFlt D] {α : Type} (cfg : Cfg D) (S : Asg → Prop) (f : Eng D → M D α) (a : α) : Prop :=
  ∃ N cs, (∀ c ∈ cs, ∀ σ : Asg, S σ → Cond.holds σ c) ∧ (∀ n, N ≤ n → f (eng cfg n) = .ok (a, cs)) ∧
    ∀ n, f (eng cfg n) = .error .fuel ∨ f (eng cfg n) = .ok (a, cs)

/-- Two polynomials without a common divisor but units. -/
def Coprime (p q : MvPolynomial Sym ℚ) : Prop := ∀ y, y ∣ p → y ∣ q → IsUnit y

/-- The limits for two polynomials: with `k` symbols and degrees up to `d`, (2^k*d + 2)^3 < 2^30. -/
def SmallDegrees (p q : MvPolynomial Sym ℚ) : Prop :=
  ∃ d : ℕ, 1 ≤ d ∧ (∀ x, p.degreeOf x ≤ d ∧ q.degreeOf x ≤ d) ∧ (2 ^ (p.vars ∪ q.vars).card * d + 2) ^ 3 < 2 ^ 30

/-! ## C61 -/

section

variable {D : Type} [Flt D] [LawfulFlt D] {cfg : Cfg D}

theorem Rs.returnsWhere {α : Type} {S : Asg → Prop} {f : Eng D → M D α} {a : α} (hm : Lean.Order.monotone f) (h : Rs cfg S f a) : ReturnsWhere cfg S f a := by
  obtain ⟨N, cs, hcs, hN⟩ := h
  refine ⟨N, cs, hcs, hN, fun n => ?_⟩
  rcases hm _ _ (eng_le cfg (Nat.le_max_left n N)) with h1 | h1
  · exact .inl h1
  · right; rw [h1]; exact hN _ (Nat.le_max_right n N)

theorem QTree.quot (hc : cfg.Ok) (hp : cfg.maxPrime < 324) {t w : QTree} (ht : t.Ok cfg.maxPrime) (hw : w.Ok cfg.maxPrime) {u v : Expr D}
    (hu : Gives cfg (fun E => t.expanded E) u) (hv : Gives cfg (fun E => w.expanded E) v) (h0 : w.poly ≠ 0) (hd : SmallDegrees t.poly w.poly) :
    ∃ x n d y, Tot cfg (fun E => evalFrac E ⟨u, v⟩) x ∧ QFrac cfg t.poly w.poly x n d ∧ Tot cfg (fun E => evalFrac E ⟨n, d⟩) y := by
  obtain ⟨eu, pu⟩ := QTree.ep hc ht hu
  obtain ⟨ev, pv⟩ := QTree.ep hc hw hv
  obtain ⟨d, h1, hdeg, hd⟩ := hd
  have hn := gcdAt hc hp (t.poly.vars ∪ w.poly.vars).card d h1 (gcd_bound hd)
  have hdi : (d : ℤ) < intMax := by
    have h3 : d ≤ 2 ^ (t.poly.vars ∪ w.poly.vars).card * d := Nat.le_mul_of_pos_left _ (by positivity)
    have h4 := Nat.pow_le_pow_left (show d + 2 ≤ 2 ^ (t.poly.vars ∪ w.poly.vars).card * d + 2 by omega) 3
    have h5 : d + 2 ≤ (d + 2) ^ 3 := Nat.le_self_pow (by norm_num) _
    unfold intMax; omega
  have lu : Lim cfg t.poly (t.poly.vars ∪ w.poly.vars).toList d := ⟨fun x => (hdeg x).1, fun x hx => (vars_list _ _ x hx).1⟩
  have lv : Lim cfg w.poly (t.poly.vars ∪ w.poly.vars).toList d := ⟨fun x => (hdeg x).2, fun x hx => (vars_list _ _ x hx).2⟩
  have hlen : (t.poly.vars ∪ w.poly.vars).toList.length ≤ (t.poly.vars ∪ w.poly.vars).card := by rw [Finset.length_toList]
  obtain ⟨x, x1, n, m, hq⟩ := tot_quot' hc hp hn hdi hlen eu ev (by rw [pv]; exact h0) (by rw [pu]; exact lu) (by rw [pv]; exact lv)
  rw [pu, pv] at hq
  have hdv := hq.dvd
  obtain ⟨y, y1, -⟩ := tot_quot' hc hp hn hdi hlen hq.epn hq.epd hq.ne
    (lu.of_dvd' hdv.2 fun h => by
      have := hq.eq
      rw [h, zero_mul] at this
      exact (mul_eq_zero.1 this).resolve_right h0) (lv.of_dvd h0 hdv.1)
  exact ⟨x, n, m, y, x1, hq, y1⟩

/-- C61. The quotient of two expanded polynomials: division, numerator, denominator and normal always end. Numerator and denominator are expanded polynomials.
Their quotient is that of the operands, they have no common divisor but units, the denominator divides the divisor and the numerator the dividend. The normal
form is what division gives for numerator and denominator. -/
theorem C61_fraction (hc : cfg.Ok) (hp : cfg.maxPrime < 324) (t w : QTree) (ht : t.Ok cfg.maxPrime) (hw : w.Ok cfg.maxPrime) (u v : Expr D)
    (hu : Gives cfg (fun E => t.expanded E) u) (hv : Gives cfg (fun E => w.expanded E) v) (h0 : w.poly ≠ 0) (hd : SmallDegrees t.poly w.poly) :
    ∃ x n d N W, Gives cfg (fun E => Api.div E u v) x ∧ ReturnsWhere cfg (fun σ => w.val σ ≠ 0) (fun E => Api.numerator E x) n ∧
      ReturnsWhere cfg (fun σ => w.val σ ≠ 0) (fun E => Api.denominator E x) d ∧ Expanded n ∧ Expanded d ∧ IsPolynomial n N ∧ IsPolynomial d W ∧
      W ≠ 0 ∧ N * w.poly = t.poly * W ∧ Coprime N W ∧ W ∣ w.poly ∧ N ∣ t.poly ∧
      ∃ y, ReturnsWhere cfg (fun σ => w.val σ ≠ 0) (fun E => E.normal x) y ∧ Gives cfg (fun E => Api.div E n d) y := by
  obtain ⟨x, n, d, y, h1, h2, h3⟩ := QTree.quot hc hp ht hw hu hv h0 hd
  have hS : (fun σ : Asg => w.val σ ≠ 0) = fun σ => pval σ w.poly ≠ 0 := by funext σ; rw [w.val_eq]
  rw [hS]
  refine ⟨x, n, d, poly n, poly d, Tot.gives (f := fun E => Api.div E u v) h1 (Api.div_mono _ _ id Lean.Order.monotone_id),
    Rs.returnsWhere (Api.numerator_mono _ id Lean.Order.monotone_id) ?_, Rs.returnsWhere (Api.denominator_mono _ id Lean.Order.monotone_id) ?_,
    h2.epn.expanded, h2.epd.expanded, fun σ => den_poly n h2.epn.polyE, fun σ => den_poly d h2.epd.polyE, h2.ne, h2.eq, h2.low, h2.dvd.1, h2.dvd.2,
    y, Rs.returnsWhere (Eng.normal_mono _ id Lean.Order.monotone_id) (rs_normal hc h2 h3), Tot.gives (f := fun E => Api.div E n d) h3 (Api.div_mono _ _ id Lean.Order.monotone_id)⟩
  · unfold Api.numerator; exact rs_bind (g := fun _ (x : Frac D) => pure x.num) (rs_fraction hc h2) (tot_pure _).rs
  · unfold Api.denominator; exact rs_bind (g := fun _ (x : Frac D) => pure x.denom) (rs_fraction hc h2) (tot_pure _).rs

/-- C61. If the divisor divides the dividend, the normal form of the quotient is the expanded polynomial. -/
theorem C61_divides (hc : cfg.Ok) (hp : cfg.maxPrime < 324) (t w s : QTree) (ht : t.Ok cfg.maxPrime) (hw : w.Ok cfg.maxPrime) (hs : s.Ok cfg.maxPrime) (u v e x : Expr D)
    (hu : Gives cfg (fun E => t.expanded E) u) (hv : Gives cfg (fun E => w.expanded E) v) (he : Gives cfg (fun E => s.expanded E) e)
    (h0 : w.poly ≠ 0) (hd : SmallDegrees t.poly w.poly) (hdvd : ∀ σ : Asg, t.val σ = s.val σ * w.val σ) (hx : Gives cfg (fun E => Api.div E u v) x) :
    ReturnsWhere cfg (fun σ => w.val σ ≠ 0) (fun E => E.normal x) e := by
  obtain ⟨x', n, d, y, h1, h2, h3⟩ := QTree.quot hc hp ht hw hu hv h0 hd
  have hS : (fun σ : Asg => w.val σ ≠ 0) = fun σ => pval σ w.poly ≠ 0 := by funext σ; rw [w.val_eq]
  rw [hS]
  obtain ⟨ee, pe⟩ := QTree.ep hc hs he
  have hxx : x = x' := Tot.unique (cfg := cfg) (f := fun E => Api.div E u v) hx.1 h1
  subst hxx
  have hp' : t.poly = s.poly * w.poly := pval_inj fun σ _ => by
    have := hdvd σ
    rw [t.val_eq, s.val_eq, w.val_eq] at this
    rw [this]; unfold pval; rw [map_mul]
  have hN : poly n = s.poly * poly d := by
    refine mul_right_cancel₀ h0 ?_
    rw [h2.eq, hp']; ring
  have hun : IsUnit (poly d) := h2.low _ (by rw [hN]; exact dvd_mul_left _ _) dvd_rfl
  have hdn := h2.epd.eq_num (const_of_degree fun t => degreeOf_unit hun)
  set c := (poly d).coeff 0 with hcdef
  have hc0 : c ≠ 0 := by
    intro h
    rw [h] at hdn
    exact h2.ne (by rw [hdn, poly_ratE, map_zero])
  rw [hdn] at h3
  obtain ⟨r, r1, r2, r3⟩ := tot_over_num hc hp (cfg := cfg) h2.epn hc0
  have hy : y = r := h3.unique r1
  have hre : r = e := r2.unique ee (by
    rw [pe]
    have hC : MvPolynomial.C (σ := Sym) c ≠ 0 := by simpa using hc0
    refine mul_right_cancel₀ hC ?_
    rw [r3, hN, hdn, poly_ratE])
  rw [← hre, ← hy]
  rw [← hdn] at h3
  exact Rs.returnsWhere (Eng.normal_mono _ id Lean.Order.monotone_id) (rs_normal hc h2 h3)

/-- C61. The quotient by the polynomial zero is undefined. -/
theorem C61_zero (u : Expr D) : Gives cfg (fun E => Api.div E u zero) .undef := by
  refine Tot.gives (f := fun E => Api.div E u zero) ?_ (Api.div_mono _ _ id Lean.Order.monotone_id)
  have h1 : Tot cfg (fun E => E.oneOver (zero : Expr D)) .undef := by
    refine tot_pow ?_
    unfold powCreate
    have e1 : (mOne : Expr D).isUndefined = false := rfl
    have e2 : (zero : Expr D).isUndefined = false := rfl
    have e3 : (mOne : Expr D).isZero = false := by rw [mOne_rat, isZero_ratE]; simp
    have e4 : (zero : Expr D).isOne = false := by rw [zero_eq, isOne_ratE]; simp
    have hn : Tot cfg (fun E => E.isNeg (mOne : Expr D)) true := tot_isNeg (by
      rw [mOne_rat]; simp only [isNeg, Number.zero_def, lt_rat]; exact tot_pure _)
    simp only [e1, e2, e3, e4, zero_isZero, Bool.or_self, Bool.false_eq_true, if_false, if_true]
    refine tot_bind (tot_whenTrue hn) ?_
    exact tot_pure _
  refine tot_bind h1 (tot_prod ?_)
  unfold prodCreate
  have : [u, (.undef : Expr D)].any Expr.isUndefined = true := by simp [Expr.isUndefined]
  simp only [this, if_true]
  exact tot_pure _

end

/-! ## Examples -/

namespace QuotEx

open ExprEx
open PolyEx2 (sa sb)
open PolyEx5 (t1 degreeOf_le_deg vars_subset syms)
open PolyEx6 (t2 t1_ok t2_ok t2_ne)

/-- The limits are met for a^2 - b^2 and (a + b)^2. -/
theorem small : SmallDegrees t1.poly t2.poly := by
  refine ⟨2, by norm_num, fun x => ⟨degreeOf_le_deg x t1, degreeOf_le_deg x t2⟩, ?_⟩
  have h : (t1.poly.vars ∪ t2.poly.vars).card ≤ 2 := by
    refine le_trans (Finset.card_le_card (Finset.union_subset_union (vars_subset t1) (vars_subset t2))) ?_
    have : syms t1 ∪ syms t2 ⊆ {sa, sb} := by
      intro x hx
      simp [syms, t1, t2] at hx ⊢
      tauto
    exact le_trans (Finset.card_le_card this) Finset.card_le_two
  calc _ ≤ (2 ^ 2 * 2 + 2) ^ 3 := Nat.pow_le_pow_left (Nat.add_le_add_right (Nat.mul_le_mul_right _ (Nat.pow_le_pow_right (by norm_num) h)) _) 3
    _ < 2 ^ 30 := by norm_num

/-- The hypotheses of `C61_fraction` are met for (a^2 - b^2)/(a + b)^2. -/
example : ∃ u v x n d N W, Gives (Cfg.std (D := Hyb) 300) (fun E => t1.expanded E) u ∧ Gives (Cfg.std (D := Hyb) 300) (fun E => t2.expanded E) v ∧
    Gives (Cfg.std 300) (fun E => Api.div E u v) x ∧ ReturnsWhere (Cfg.std 300) (fun σ => t2.val σ ≠ 0) (fun E => Api.numerator E x) n ∧
    ReturnsWhere (Cfg.std 300) (fun σ => t2.val σ ≠ 0) (fun E => Api.denominator E x) d ∧ IsPolynomial n N ∧ IsPolynomial d W ∧ Coprime N W := by
  obtain ⟨u, hu, -⟩ := C52_expanded (Cfg.std_ok (D := Hyb) 300) t1 t1_ok
  obtain ⟨v, hv, -⟩ := C52_expanded (Cfg.std_ok (D := Hyb) 300) t2 t2_ok
  obtain ⟨x, n, d, N, W, h1, h2, h3, -, -, h4, h5, -, -, h6, -⟩ := C61_fraction (Cfg.std_ok (D := Hyb) 300) (by decide) t1 t2 t1_ok t2_ok u v hu hv t2_ne small
  exact ⟨u, v, x, n, d, N, W, hu, hv, h1, h2, h3, h4, h5, h6⟩

/-- The quotient (a^2 - b^2)/(a + b)^2. -/
def x1 : Expr Hyb := prod [pow (sum [pow a (int 2), prod [int 2, a, b], pow b (int 2)]) mOne, sum [pow a (int 2), prod [mOne, pow b (int 2)]]]

example : Api.div (eng (Cfg.std 300) 40) (sum [pow a (int 2), prod [mOne, pow b (int 2)]]) (sum [pow a (int 2), prod [int 2, a, b], pow b (int 2)]) =
    .ok (x1, []) := by krfl

/-- The numerator is a - b, the denominator a + b. -/
example : ∃ cs, Api.numerator (eng (Cfg.std 300) 60) x1 = .ok (sum [a, prod [mOne, b]], cs) := M.val_some (by krfl)

example : ∃ cs, Api.denominator (eng (Cfg.std 300) 60) x1 = .ok (sum [a, b], cs) := M.val_some (by krfl)

/-- The normal form. -/
example : ∃ cs, (eng (Cfg.std 300) 60).normal x1 = .ok (prod [pow (sum [a, b]) mOne, sum [a, prod [mOne, b]]], cs) := M.val_some (by krfl)

/-- A quotient that is a polynomial: (a^2 - b^2)/(a + b) is a - b. -/
example : ∃ cs, (eng (Cfg.std 300) 60).normal (prod [pow (sum [a, b]) mOne, sum [pow a (int 2), prod [mOne, pow b (int 2)]]] : Expr Hyb) =
    .ok (sum [a, prod [mOne, b]], cs) := M.val_some (by krfl)

/-- Equal quotients need not have the same normal form: that of b/(1 - a) is not that of -b/(a - 1), although the two quotients have the same value
wherever one of them has a value. -/
theorem C61_false_canonical :
    (∃ cs, (eng (Cfg.std 300) 60).normal (prod [pow (sum [int 1, prod [mOne, a]]) mOne, b] : Expr Hyb) = .ok (prod [pow (sum [int 1, prod [mOne, a]]) mOne, b], cs)) ∧
    (∃ cs, (eng (Cfg.std 300) 60).normal (prod [mOne, pow (sum [mOne, a]) mOne, b] : Expr Hyb) = .ok (prod [mOne, pow (sum [mOne, a]) mOne, b], cs)) ∧
    isEqual (prod [pow (sum [int 1, prod [mOne, a]]) mOne, b] : Expr Hyb) (prod [mOne, pow (sum [mOne, a]) mOne, b]) = false ∧
    ∀ σ : Asg, σ sa ≠ 1 → den σ (prod [pow (sum [int 1, prod [mOne, a]]) mOne, b] : Expr Hyb) = den σ (prod [mOne, pow (sum [mOne, a]) mOne, b] : Expr Hyb) := by
  refine ⟨M.val_some (by krfl), M.val_some (by krfl), by krfl, fun σ h => ?_⟩
  have h1 : (1 - σ sa) ≠ 0 := fun h0 => h (by linarith)
  have h2 : (-1 + σ sa) ≠ 0 := fun h0 => h (by linarith)
  have e1 : den σ (sum [int 1, prod [mOne, a]] : Expr Hyb) = some (1 - σ sa) := by
    simp [den, denSum, denProd, a, mOne, Expr.int, sa]; ring
  have e2 : den σ (sum [mOne, a] : Expr Hyb) = some (-1 + σ sa) := by
    simp [den, denSum, denProd, a, mOne, Expr.int, sa]
  have e3 : den σ (pow (sum [int 1, prod [mOne, a]]) mOne : Expr Hyb) = some (1 - σ sa)⁻¹ := by
    rw [den, e1, den_mOne]; exact Spec.pow_neg_one h1
  have e4 : den σ (pow (sum [mOne, a]) mOne : Expr Hyb) = some (-1 + σ sa)⁻¹ := by
    rw [den, e2, den_mOne]; exact Spec.pow_neg_one h2
  have e5 : (-1 + σ sa)⁻¹ = -(1 - σ sa)⁻¹ := by rw [← inv_neg]; congr 1; ring
  rw [den, den]
  simp only [denProd, e3, e4, e5, den_mOne]
  simp [b, den]

end QuotEx

end Tsym
