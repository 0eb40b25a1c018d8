import Verif.DivergeGcd
import Verif.GcdAlgo
import Verif.Props.PolyDivide

set_option autoImplicit false
set_option linter.unusedSectionVars false
set_option linter.unusedSimpArgs false
set_option linter.unusedVariables false

/-!
# C55: greatest common divisors of polynomials in any number of symbols

The subresultant algorithm: the function poly::gcd always ends, and gives a greatest common divisor in the
ring of polynomials with rational coefficients. The same for the content with respect to a symbol.
-/

namespace Tsym

open Expr

/-! ## Specification -/

/-- A greatest common divisor of two polynomials: it divides both, and all that divide both divide it. -/
def GreatestDivisor (g p q : MvPolynomial Sym ℚ) : Prop := g ∣ p ∧ g ∣ q ∧ ∀ d, d ∣ p → d ∣ q → d ∣ g

/-- The content of a polynomial with respect to a symbol: the greatest of the divisors without the symbol. -/
def ContentIn (s : Sym) (c p : MvPolynomial Sym ℚ) : Prop :=
  c.degreeOf s = 0 ∧ c ∣ p ∧ ∀ d : MvPolynomial Sym ℚ, d.degreeOf s = 0 → d ∣ p → d ∣ c

/-- The value of the expression is that of the polynomial. -/
def IsPolynomial {D : Type} [Flt D] [LawfulFlt D] (e : Expr D) (p : MvPolynomial Sym ℚ) : Prop := ∀ σ : Asg, den σ e = some (pval σ p)

/-! ## C55 -/

section

variable {D : Type} [Flt D] [LawfulFlt D] {cfg : Cfg D}

theorem vars_list (p q : MvPolynomial Sym ℚ) (t : Sym) (ht : t ∉ (p.vars ∪ q.vars).toList) : p.degreeOf t = 0 ∧ q.degreeOf t = 0 := by
  rw [Finset.mem_toList, Finset.mem_union, not_or] at ht
  have h : ∀ r : MvPolynomial Sym ℚ, t ∉ r.vars → r.degreeOf t = 0 := by
    intro r hr
    rw [MvPolynomial.vars_def, Multiset.mem_toFinset] at hr
    rw [MvPolynomial.degreeOf_def]
    exact Multiset.count_eq_zero.2 hr
  exact ⟨h p ht.1, h q ht.2⟩

theorem gcd_bound {m : ℕ} (h : (m + 2) ^ 3 < 2 ^ 30) : ((2 * m * m * (m + 2) : ℕ) : ℤ) < intMax := by
  have h1 : 2 * m * m * (m + 2) ≤ 2 * (m + 2) ^ 3 - 8 := by
    have : 2 * m * m * (m + 2) + 8 ≤ 2 * (m + 2) ^ 3 := by ring_nf; nlinarith [Nat.zero_le (m ^ 3), Nat.zero_le (m ^ 2)]
    omega
  have h2 : 2 * m * m * (m + 2) < 2147483647 := by omega
  unfold intMax
  exact_mod_cast h2

/-- C55. The greatest common divisor of expanded polynomials that are not both zero: the function always ends, the result is an expanded polynomial and a
greatest common divisor. It is a number if and only if all common divisors are units. With `k` symbols and degrees up to `d`, (2^k*d + 2)^3 must be less than 2^30, and the limit for primes less than 324. -/
theorem C55_gcd (hc : cfg.Ok) (hp : cfg.maxPrime < 324) (t w : QTree) (ht : t.Ok cfg.maxPrime) (hw : w.Ok cfg.maxPrime) (u v : Expr D)
    (hu : Gives cfg (fun E => t.expanded E) u) (hv : Gives cfg (fun E => w.expanded E) v) (h0 : t.poly ≠ 0 ∨ w.poly ≠ 0) (d : ℕ) (h1 : 1 ≤ d)
    (hdeg : ∀ x, t.poly.degreeOf x ≤ d ∧ w.poly.degreeOf x ≤ d) (hd : (2 ^ (t.poly.vars ∪ w.poly.vars).card * d + 2) ^ 3 < 2 ^ 30) :
    ∃ g G, Returns cfg (fun E => polyGcd E u v) g ∧ Expanded g ∧ IsPolynomial g G ∧ GreatestDivisor G t.poly w.poly ∧
      ((∃ q : ℚ, g = .num (.rat q)) ↔ ∀ x, x ∣ t.poly → x ∣ w.poly → IsUnit x) := by
  obtain ⟨eu, pu⟩ := QTree.ep hc ht hu
  obtain ⟨ev, pv⟩ := QTree.ep hc hw hv
  have hn := gcdAt hc hp (t.poly.vars ∪ w.poly.vars).card d h1 (gcd_bound hd)
  have hdi : (d : ℤ) < intMax := by
    have h3 : d ≤ 2 ^ (t.poly.vars ∪ w.poly.vars).card * d := Nat.le_mul_of_pos_left _ (by positivity)
    have h4 := Nat.pow_le_pow_left (show d + 2 ≤ 2 ^ (t.poly.vars ∪ w.poly.vars).card * d + 2 by omega) 3
    have h5 : d + 2 ≤ (d + 2) ^ 3 := Nat.le_self_pow (by norm_num) _
    unfold intMax; omega
  obtain ⟨g, g1, g2, g3⟩ := polyGcd_ok hc hn hdi (R := (t.poly.vars ∪ w.poly.vars).toList) (by rw [Finset.length_toList]) eu ev (by rw [pu, pv]; exact h0)
    (fun x => by rw [pu]; exact (hdeg x).1) (fun x => by rw [pv]; exact (hdeg x).2)
    (fun x hx => by rw [pu]; exact (vars_list _ _ x hx).1) (fun x hx => by rw [pv]; exact (vars_list _ _ x hx).2)
  rw [pu, pv] at g3
  refine ⟨g, poly g, g1.returns (polyGcd_mono _ _ id Lean.Order.monotone_id), g2.expanded, fun σ => den_poly g g2.polyE, ⟨g3.left, g3.right, g3.greatest⟩, ?_⟩
  constructor
  · rintro ⟨q, rfl⟩ x hx1 hx2
    have hq : q ≠ 0 := by
      rintro rfl
      exact g3.ne_zero h0 (by rw [poly_ratE, map_zero])
    have := g3.greatest x hx1 hx2
    rw [poly_ratE] at this
    exact isUnit_of_dvd_unit this (isUnit_C hq)
  · intro h
    have hu := h _ g3.left g3.right
    exact ⟨_, g2.eq_num (const_of_degree fun t => degreeOf_unit hu)⟩

/-- C55. The content of an expanded polynomial with respect to any symbol. -/
theorem C55_content (hc : cfg.Ok) (hp : cfg.maxPrime < 324) (t : QTree) (ht : t.Ok cfg.maxPrime) (u : Expr D)
    (hu : Gives cfg (fun E => t.expanded E) u) (h0 : t.poly ≠ 0) (s : Sym) (d : ℕ) (h1 : 1 ≤ d)
    (hdeg : ∀ x, t.poly.degreeOf x ≤ d) (hd : (2 ^ t.poly.vars.card * d + 2) ^ 3 < 2 ^ 30) :
    ∃ c C, Returns cfg (fun E => polyContent E u (.sym s)) c ∧ Expanded c ∧ IsPolynomial c C ∧ ContentIn s C t.poly := by
  obtain ⟨eu, pu⟩ := QTree.ep hc ht hu
  have hn := gcdAt hc hp t.poly.vars.card d h1 (gcd_bound hd)
  have hdi : (d : ℤ) < intMax := by
    have h3 : d ≤ 2 ^ t.poly.vars.card * d := Nat.le_mul_of_pos_left _ (by positivity)
    have h4 := Nat.pow_le_pow_left (show d + 2 ≤ 2 ^ t.poly.vars.card * d + 2 by omega) 3
    have h5 : d + 2 ≤ (d + 2) ^ 3 := Nat.le_self_pow (by norm_num) _
    unfold intMax; omega
  obtain ⟨c, c1, c2, c3⟩ := polyContent_ok hc hn hdi (s := s) (R := t.poly.vars.toList) (by rw [Finset.length_toList]) eu (by rw [pu]; exact h0)
    (fun x => by rw [pu]; exact hdeg x) (fun x hx => by
      rw [pu]
      refine (vars_list t.poly t.poly x ?_).1
      rw [Finset.union_self]
      exact fun h => hx (List.mem_cons_of_mem _ h))
  rw [pu] at c3
  obtain ⟨k1, k2, k3, -⟩ := c3.degrees h0
  refine ⟨c, poly c, c1.returns (polyContent_mono _ _ id Lean.Order.monotone_id), c2.expanded, fun σ => den_poly c c2.polyE, k2, k3, fun x hx hxt => ?_⟩
  refine c3.greatest x ((Polynomial.C_dvd_iff_dvd_coeff _ _).1 ?_)
  rw [← upoly_free hx]
  exact upoly_dvd.2 hxt

/-- C55. The greatest common divisor of zero and zero is Undefined. -/
theorem C55_zero (n : ℕ) : polyGcd (eng cfg n) (.num (.rat 0)) (.num (.rat 0)) = .ok (.undef, []) := rfl

end

/-! ## Examples -/

namespace PolyEx6

open ExprEx
open PolyEx2 (sa sb)
open PolyEx5 (t1 degreeOf_le_deg vars_subset syms)

/-- (a + b)^2 -/
def t2 : QTree := .pow (.add (.var sa) (.var sb)) 2

theorem t1_ok : t1.Ok 300 := by
  simp only [t1, QTree.Ok, sa, sb, SymId.Ok, Name.value]
  decide

theorem t2_ok : t2.Ok 300 := by
  simp only [t2, QTree.Ok, sa, sb, SymId.Ok, Name.value]
  decide

theorem t2_ne : t2.poly ≠ 0 := by
  intro h
  have := congrArg (pval fun _ => 1) h
  simp [t2, QTree.poly, pval] at this

/-- The expansions. -/
example : t1.expanded (eng (Cfg.std 300) 30) = .ok (sum [pow a (int 2), prod [mOne, pow b (int 2)]], []) := by krfl

example : t2.expanded (eng (Cfg.std 300) 30) = .ok (sum [pow a (int 2), prod [int 2, a, b], pow b (int 2)], []) := by krfl

/-- The hypotheses of `C55_gcd` are met for a^2 - b^2 and (a + b)^2. -/
example : (∀ x, t1.poly.degreeOf x ≤ 2 ∧ t2.poly.degreeOf x ≤ 2) ∧ (2 ^ (t1.poly.vars ∪ t2.poly.vars).card * 2 + 2) ^ 3 < 2 ^ 30 := by
  refine ⟨fun x => ⟨degreeOf_le_deg x t1, degreeOf_le_deg x t2⟩, ?_⟩
  have h : (t1.poly.vars ∪ t2.poly.vars).card ≤ 2 := by
    refine le_trans (Finset.card_le_card (Finset.union_subset_union (vars_subset t1) (vars_subset t2))) ?_
    have : syms t1 ∪ syms t2 ⊆ {sa, sb} := by
      intro x hx
      simp [syms, t1, t2] at hx ⊢
      tauto
    exact le_trans (Finset.card_le_card this) Finset.card_le_two
  calc _ ≤ (2 ^ 2 * 2 + 2) ^ 3 := Nat.pow_le_pow_left (Nat.add_le_add_right (Nat.mul_le_mul_right _ (Nat.pow_le_pow_right (by norm_num) h)) _) 3
    _ < 2 ^ 30 := by norm_num

/-- The greatest common divisor is a + b. -/
example : ∃ cs, polyGcd (eng (Cfg.std 300) 40) (sum [pow a (int 2), prod [mOne, pow b (int 2)]]) (sum [pow a (int 2), prod [int 2, a, b], pow b (int 2)]) =
    .ok (sum [a, b], cs) := M.val_some (by krfl)

/-- The content of a*b + b with respect to a is b. -/
example : ∃ cs, polyContent (eng (Cfg.std 300) 40) (sum [prod [a, b], b]) a = .ok (b, cs) := M.val_some (by krfl)

/-- With the default limit for primes, C55 is false: the greatest common divisor of 324*a and a is never found,
because 1/324 is simplified to 1/36 and the division of 324*a by 324 does not end. -/
theorem C55_false (n : ℕ) : polyGcd (eng (Cfg.std 1000) n) (prod [int 324, a]) a = .error .fuel := by
  have hc : (Cfg.std (D := Hyb) 1000).Ok := Cfg.std_ok 1000
  have hs : sa.id.Ok := by simp only [sa, SymId.Ok, Name.value]; decide
  have hr : Ret (Cfg.std (D := Hyb) 1000) (fun E => E.oneOver (int 324)) (.num (.rat (1 / 36))) := by
    obtain ⟨cs, h1⟩ : ∃ cs, (eng (Cfg.std (D := Hyb) 1000) 30).oneOver (int 324) = .ok (.num (.rat (1 / 36)), cs) := M.val_some (by krfl)
    exact ret_of_val (apiPow_mono _ _) h1
  have hv : EP (.prod [.num (.rat 324), .sym sa] : Expr Hyb) := by
    have := EP.mono (D := Hyb) (m := (324, Key.facs [(sa, 1)])) (K := [(sa, 1)]) (by norm_num) ⟨by
      intro x hx; rw [List.mem_singleton.1 hx]; exact ⟨hs, le_rfl⟩, by simp [Key.Sorted], rfl⟩
    simpa [em, mexpr, rl, Key.facs, fac, prodOf] using this
  have hvp : poly (.prod [.num (.rat 324), .sym sa] : Expr Hyb) = MvPolynomial.C 324 * MvPolynomial.X sa := by
    simp [poly, polyProd]
  have hend := divide_num_endless hc sa hs (w := 324) (i := 1 / 36) (by norm_num) (by norm_num) hr hv (c := 324) (by norm_num) hvp
  refine Endless.all (f := fun E => polyGcd E (prod [int 324, a]) a) ?_ (polyGcd_mono _ _ id Lean.Order.monotone_id) n
  have val : ∀ {α : Type} {f : Eng Hyb → M Hyb α} {x : α}, Lean.Order.monotone f → (M.val (f (eng (Cfg.std 1000) 40)) = some x) →
      Ret (Cfg.std 1000) f x := by
    intro α f x hm h
    obtain ⟨cs, hcs⟩ := M.val_some h
    exact ret_of_val hm hcs
  have hL : Ret (Cfg.std (D := Hyb) 1000) (fun E => listOfSymbols E (prod [int 324, a]) a) [a] := val (listOfSymbols_mono _ _ id Lean.Order.monotone_id) (by krfl)
  unfold polyGcd
  refine endless_bind (a := true) ⟨0, [], fun _ _ => rfl⟩ ?_
  simp only [if_true]
  refine endless_bind hL ?_
  refine endless_succ (f := fun E => gcdL E (prod [int 324, a]) a [a]) (fun _ => rfl) ?_
  unfold gcdL
  refine endless_bind (a := prod [int 324, a]) (val (Eng.expand_mono _ id Lean.Order.monotone_id) (by krfl)) ?_
  refine endless_bind (a := a) (val (Eng.expand_mono _ id Lean.Order.monotone_id) (by krfl)) ?_
  simp only [List.isEmpty_cons, Bool.false_and, Bool.false_eq_true, if_false]
  refine endless_first ?_
  have hraw : ∀ E : Eng Hyb, gcdRaw E (prod [int 324, a]) a (prod [int 324, a]) a [a] = (do
      let g ← gcdViaAlgo E (prod [int 324, a]) a [a]
      pure (some g)) := by
    intro E
    krfl
  simp only [hraw]
  refine endless_first ?_
  unfold gcdViaAlgo
  refine endless_bind (a := int 1) ⟨0, [], fun _ _ => by krfl⟩ ?_
  refine endless_bind (a := int 1) (val (apiPow_mono _ _) (by krfl)) ?_
  refine endless_bind (a := prod [int 324, a]) (val (Eng.prodCreate_mono _ id Lean.Order.monotone_id) (by krfl)) ?_
  refine endless_bind (a := a) (val (Eng.prodCreate_mono _ id Lean.Order.monotone_id) (by krfl)) ?_
  refine endless_first ?_
  unfold gcdAlgo
  refine endless_bind (a := 1) ⟨0, [], fun _ _ => by krfl⟩ ?_
  refine endless_bind (a := 1) ⟨0, [], fun _ _ => by krfl⟩ ?_
  simp only [lt_irrefl, if_false]
  unfold subresGcd
  refine endless_bind (a := int 324) (val (polyContent_mono _ _ id Lean.Order.monotone_id) (by krfl)) ?_
  refine endless_bind (a := int 1) (val (polyContent_mono _ _ id Lean.Order.monotone_id) (by krfl)) ?_
  refine endless_bind (a := int 1) (val (Eng.gcdL_mono _ _ _ id Lean.Order.monotone_id) (by krfl)) ?_
  exact endless_first hend

end PolyEx6

end Tsym
