import Verif.GcdPrimAlgo
import Verif.Props.PolyGcd

set_option autoImplicit false
set_option linter.unusedSectionVars false
set_option linter.unusedSimpArgs false
set_option linter.unusedVariables false

/-!
# C64: greatest common divisors with the primitive algorithm

The second algorithm (class PrimitiveGcd) always ends, and gives a greatest common divisor, too. It is the one
of the default algorithm up to a rational number. The number is not always 1.
-/

namespace Tsym

open Expr

section

variable {D : Type} [Flt D] [LawfulFlt D] {cfg : Cfg D}

theorem prim_bound_gcd {n d : ℕ} (h1 : 1 ≤ d) (hd : (2 ^ n * (2 * d * d * (d + 2)) + 2) ^ 3 < 2 ^ 30) : (2 ^ n * d + 2) ^ 3 < 2 ^ 30 := by
  refine lt_of_le_of_lt (Nat.pow_le_pow_left (Nat.add_le_add_right (Nat.mul_le_mul_left _ ?_) _) 3) hd
  nlinarith [bound_le (d := d)]

theorem prim_int {n d : ℕ} (h1 : 1 ≤ d) (hd : (2 ^ n * (2 * d * d * (d + 2)) + 2) ^ 3 < 2 ^ 30) : (d : ℤ) < intMax := by
  have h2 := prim_bound_gcd h1 hd
  have h3 : d ≤ 2 ^ n * d := Nat.le_mul_of_pos_left _ (by positivity)
  have h4 := Nat.pow_le_pow_left (show d + 2 ≤ 2 ^ n * d + 2 by omega) 3
  have h5 : d + 2 ≤ (d + 2) ^ 3 := Nat.le_self_pow (by norm_num) _
  unfold intMax; omega

/-- C64. The greatest common divisor with class PrimitiveGcd, for expanded polynomials that are not both zero: the function always ends, the result is an
expanded polynomial and a greatest common divisor. It is a number if and only if all common divisors are units. The contents of the
remainders are computed with the default algorithm. The bound is the one of C55 for degrees up to 2*d^2*(d + 2). -/
theorem C64_gcd (hc : cfg.Ok) (hp : cfg.maxPrime < 324) (t w : QTree) (ht : t.Ok cfg.maxPrime) (hw : w.Ok cfg.maxPrime) (u v : Expr D)
    (hu : Gives cfg (fun E => t.expanded E) u) (hv : Gives cfg (fun E => w.expanded E) v) (h0 : t.poly ≠ 0 ∨ w.poly ≠ 0) (d : ℕ) (h1 : 1 ≤ d)
    (hdeg : ∀ x, t.poly.degreeOf x ≤ d ∧ w.poly.degreeOf x ≤ d)
    (hd : (2 ^ (t.poly.vars ∪ w.poly.vars).card * (2 * d * d * (d + 2)) + 2) ^ 3 < 2 ^ 30) :
    ∃ g G, Returns cfg (fun E => primGcd E u v) g ∧ Expanded g ∧ IsPolynomial g G ∧ GreatestDivisor G t.poly w.poly ∧
      ((∃ q : ℚ, g = .num (.rat q)) ↔ ∀ x, x ∣ t.poly → x ∣ w.poly → IsUnit x) := by
  obtain ⟨eu, pu⟩ := QTree.ep hc ht hu
  obtain ⟨ev, pv⟩ := QTree.ep hc hw hv
  have hn := (primAt (cfg := cfg) hc hp h1 rfl (t.poly.vars ∪ w.poly.vars).card (gcd_bound hd)).steps
  obtain ⟨g, g1, g2, g3⟩ := polyGcdBy_ok hc hn (prim_int h1 hd) (R := (t.poly.vars ∪ w.poly.vars).toList) (by rw [Finset.length_toList]) eu ev (by rw [pu, pv]; exact h0)
    (fun x => by rw [pu]; exact (hdeg x).1) (fun x => by rw [pv]; exact (hdeg x).2)
    (fun x hx => by rw [pu]; exact (vars_list _ _ x hx).1) (fun x hx => by rw [pv]; exact (vars_list _ _ x hx).2)
  rw [pu, pv] at g3
  refine ⟨g, poly g, Rts.returns (f := fun E => primGcd E u v) g1 (primGcd_mono _ _ id Lean.Order.monotone_id), g2.expanded, fun σ => den_poly g g2.polyE, ⟨g3.left, g3.right, g3.greatest⟩, ?_⟩
  constructor
  · rintro ⟨q, rfl⟩ x hx1 hx2
    have hq : q ≠ 0 := by
      rintro rfl
      exact g3.ne_zero h0 (by rw [poly_ratE, map_zero])
    have := g3.greatest x hx1 hx2
    rw [poly_ratE] at this
    exact isUnit_of_dvd_unit this (isUnit_C hq)
  · intro h
    have hu := h _ g3.left g3.right
    exact ⟨_, g2.eq_num (const_of_degree fun t => degreeOf_unit hu)⟩

/-- C64. The content with class PrimitiveGcd of an expanded polynomial with respect to any symbol. -/
theorem C64_content (hc : cfg.Ok) (hp : cfg.maxPrime < 324) (t : QTree) (ht : t.Ok cfg.maxPrime) (u : Expr D)
    (hu : Gives cfg (fun E => t.expanded E) u) (h0 : t.poly ≠ 0) (s : Sym) (d : ℕ) (h1 : 1 ≤ d)
    (hdeg : ∀ x, t.poly.degreeOf x ≤ d) (hd : (2 ^ t.poly.vars.card * (2 * d * d * (d + 2)) + 2) ^ 3 < 2 ^ 30) :
    ∃ c C, Returns cfg (fun E => primContent E u (.sym s)) c ∧ Expanded c ∧ IsPolynomial c C ∧ ContentIn s C t.poly := by
  obtain ⟨eu, pu⟩ := QTree.ep hc ht hu
  have hn := (primAt (cfg := cfg) hc hp h1 rfl t.poly.vars.card (gcd_bound hd)).steps
  obtain ⟨c, c1, c2, c3⟩ := polyContentBy_ok hc hn (prim_int h1 hd) (s := s) (R := t.poly.vars.toList) (by rw [Finset.length_toList]) eu (by rw [pu]; exact h0)
    (fun x => by rw [pu]; exact hdeg x) (fun x hx => by
      rw [pu]
      refine (vars_list t.poly t.poly x ?_).1
      rw [Finset.union_self]
      exact fun h => hx (List.mem_cons_of_mem _ h))
  rw [pu] at c3
  obtain ⟨k1, k2, k3, -⟩ := c3.degrees h0
  refine ⟨c, poly c, Rts.returns (f := fun E => primContent E u (.sym s)) c1 (primContent_mono _ _ id Lean.Order.monotone_id), c2.expanded, fun σ => den_poly c c2.polyE, k2, k3, fun x hx hxt => ?_⟩
  refine c3.greatest x ((Polynomial.C_dvd_iff_dvd_coeff _ _).1 ?_)
  rw [← upoly_free hx]
  exact upoly_dvd.2 hxt

/-- C64. The two algorithms agree up to a rational number other than zero. -/
theorem C64_agree (hc : cfg.Ok) (hp : cfg.maxPrime < 324) (t w : QTree) (ht : t.Ok cfg.maxPrime) (hw : w.Ok cfg.maxPrime) (u v : Expr D)
    (hu : Gives cfg (fun E => t.expanded E) u) (hv : Gives cfg (fun E => w.expanded E) v) (h0 : t.poly ≠ 0 ∨ w.poly ≠ 0) (d : ℕ) (h1 : 1 ≤ d)
    (hdeg : ∀ x, t.poly.degreeOf x ≤ d ∧ w.poly.degreeOf x ≤ d)
    (hd : (2 ^ (t.poly.vars ∪ w.poly.vars).card * (2 * d * d * (d + 2)) + 2) ^ 3 < 2 ^ 30) :
    ∃ g h, Returns cfg (fun E => polyGcd E u v) g ∧ Returns cfg (fun E => primGcd E u v) h ∧
      ∃ q : ℚ, q ≠ 0 ∧ ∀ σ : Asg, ∃ x, den σ g = some x ∧ den σ h = some (q * x) := by
  obtain ⟨g, G, g1, -, g2, g3, -⟩ := C55_gcd hc hp t w ht hw u v hu hv h0 d h1 hdeg (prim_bound_gcd h1 hd)
  obtain ⟨h, H, k1, -, k2, k3, -⟩ := C64_gcd hc hp t w ht hw u v hu hv h0 d h1 hdeg hd
  have h3 : Associated G H := associated_of_dvd_dvd (k3.2.2 _ g3.1 g3.2.1) (g3.2.2 _ k3.1 k3.2.1)
  obtain ⟨x, hx⟩ := h3
  have hqx := const_of_degree fun t => degreeOf_unit (t := t) x.isUnit
  set q := MvPolynomial.coeff 0 (x : MvPolynomial Sym ℚ)
  have hq : q ≠ 0 := by
    intro hq
    rw [hq, map_zero] at hqx
    exact x.ne_zero hqx
  refine ⟨g, h, g1, k1, q, hq, fun σ => ⟨pval σ G, g2 σ, ?_⟩⟩
  rw [k2 σ, ← hx, hqx]
  simp [pval, mul_comm]

/-- C64. The greatest common divisor of zero and zero is Undefined. -/
theorem C64_zero (n : ℕ) : primGcd (eng cfg (n + 1)) (.num (.rat 0)) (.num (.rat 0)) = .ok (.undef, []) := rfl

end

/-! ## Examples -/

namespace PolyEx6

open ExprEx
open PolyEx2 (sa sb)
open PolyEx5 (t1 degreeOf_le_deg vars_subset syms)

/-- The hypotheses of `C64_gcd` are met for a^2 - b^2 and (a + b)^2. -/
example : (∀ x, t1.poly.degreeOf x ≤ 2 ∧ t2.poly.degreeOf x ≤ 2) ∧ (2 ^ (t1.poly.vars ∪ t2.poly.vars).card * (2 * 2 * 2 * (2 + 2)) + 2) ^ 3 < 2 ^ 30 := by
  refine ⟨fun x => ⟨degreeOf_le_deg x t1, degreeOf_le_deg x t2⟩, ?_⟩
  have h : (t1.poly.vars ∪ t2.poly.vars).card ≤ 2 := by
    refine le_trans (Finset.card_le_card (Finset.union_subset_union (vars_subset t1) (vars_subset t2))) ?_
    have : syms t1 ∪ syms t2 ⊆ {sa, sb} := by
      intro x hx
      simp [syms, t1, t2] at hx ⊢
      tauto
    exact le_trans (Finset.card_le_card this) Finset.card_le_two
  calc _ ≤ (2 ^ 2 * (2 * 2 * 2 * (2 + 2)) + 2) ^ 3 := Nat.pow_le_pow_left (Nat.add_le_add_right (Nat.mul_le_mul_right _ (Nat.pow_le_pow_right (by norm_num) h)) _) 3
    _ < 2 ^ 30 := by norm_num

/-- The greatest common divisor is a + b. -/
example : ∃ cs, primGcd (eng (Cfg.std 300) 40) (sum [pow a (int 2), prod [mOne, pow b (int 2)]]) (sum [pow a (int 2), prod [int 2, a, b], pow b (int 2)]) =
    .ok (sum [a, b], cs) := M.val_some (by krfl)

/-- The content of a*b + b with respect to a is b. -/
example : ∃ cs, primContent (eng (Cfg.std 300) 40) (sum [prod [a, b], b]) a = .ok (b, cs) := M.val_some (by krfl)

/-- A fraction. -/
def fr (p q : ℤ) : Expr Hyb := .num (.rat (p / q))

/-- (a/2 + 1/3)*(a - 1), expanded -/
def p1 : Expr Hyb := sum [fr (-1) 3, prod [fr (-1) 6, a], prod [fr 1 2, pow a (int 2)]]

/-- (a/2 + 1/3)*(a + 3), expanded -/
def p2 : Expr Hyb := sum [int 1, prod [fr 11 6, a], prod [fr 1 2, pow a (int 2)]]

/-- The results of the two algorithms are not the same: a/2 + 1/3 and a + 2/3. -/
theorem C64_false_same : (∃ cs, polyGcd (eng (Cfg.std 300) 60) p1 p2 = .ok (sum [fr 1 3, prod [fr 1 2, a]], cs)) ∧
    ∃ cs, primGcd (eng (Cfg.std 300) 60) p1 p2 = .ok (sum [fr 2 3, a], cs) :=
  ⟨M.val_some (by krfl), M.val_some (by krfl)⟩

end PolyEx6

end Tsym
