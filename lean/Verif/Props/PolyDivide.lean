import Verif.PolyDivide
import Verif.Props.PolyPow

set_option autoImplicit false
set_option linter.unusedSectionVars false
set_option linter.unusedSimpArgs false
set_option linter.unusedVariables false

/-!
# C53: pseudo-division, C54: division of expanded polynomials

C41 says what division and pseudo-division give if they give something. For expanded polynomials, they
always give something, and the remainder tells whether the divisor divides the dividend.
-/

namespace Tsym

open Expr

/-! ## Specification -/

/-- The call returns `a`, under conditions that always hold: with all depths of calls from some depth on,
and with smaller depths it does nothing else but stop at the bound. -/
def Returns {D : Type} [Flt D] [LawfulFlt D] {α : Type} (cfg : Cfg D) (f : Eng D → M D α) (a : α) : Prop :=
  ∃ N cs, (∀ c ∈ cs, ∀ σ : Asg, Cond.holds σ c) ∧ (∀ n, N ≤ n → f (eng cfg n) = .ok (a, cs)) ∧
    ∀ n, f (eng cfg n) = .error .fuel ∨ f (eng cfg n) = .ok (a, cs)

/-- The leading coefficient of `p` as a polynomial in `s`: `s` does not occur in it, and without the leading term the degree is
smaller. -/
def IsLead (s : Sym) (p l : MvPolynomial Sym ℚ) : Prop :=
  l.degreeOf s = 0 ∧ (p - l * MvPolynomial.X s ^ p.degreeOf s = 0 ∨
    (p - l * MvPolynomial.X s ^ p.degreeOf s).degreeOf s < p.degreeOf s)

/-- Powers of the coefficients are computed exactly: the limit for primes is less than 324, or no coefficient is divisible by a
fourth power. -/
def ExactCoeffs (max : ℤ) (p : MvPolynomial Sym ℚ) : Prop :=
  max < 324 ∨ ∀ f, p.coeff f ≠ 0 → ∀ k : ℕ, k.Prime → ¬ k ^ 4 ∣ (p.coeff f).num.natAbs ∧ ¬ k ^ 4 ∣ (p.coeff f).den

/-! ## Helpers -/

theorem ExactCoeffs.coeffsOk {max : ℤ} {p : MvPolynomial Sym ℚ} (h : ExactCoeffs max p) : CoeffsOk max p := by
  intro f hf
  rcases h with h | h
  · exact .inl h
  · exact .inr ⟨fun k hk => (h f hf k hk).1, fun k hk => (h f hf k hk).2⟩

theorem isLead_coeff (s : Sym) (p : MvPolynomial Sym ℚ) : IsLead s p ((upoly s p).coeff (p.degreeOf s)) := by
  refine ⟨upoly_coeff_free s _ _, ?_⟩
  by_cases hp : p = 0
  · left; subst hp; simp
  refine step_degree s (r := p) (v := 1) (m := p.degreeOf s) (n := 0) (a := (upoly s p).coeff (p.degreeOf s)) (b := 1) rfl (by simp) (by omega)
    (upoly_coeff_free s _ _) (by simp) (by simp) ?_
  simp

section

variable {D : Type} [Flt D] [ExactLt D] {cfg : Cfg D}

theorem CoefOk.of_coeffs {max : ℤ} {e : Expr D} (he : EP e) (h : CoeffsOk max (poly e)) : CoefOk max e := by
  rcases he.cases with rfl | ⟨m, K, hm, hK, rfl⟩ | ⟨L, hL, h2, rfl⟩
  · rw [zero_eq]; exact fun h => absurd rfl h
  · have hp : (poly (em m)).coeff K.fs = m.1 := by rw [hK.poly]; simp
    have hn : NumOk max m.1 := by
      have := h K.fs (by rw [hp]; exact hm)
      rwa [hp] at this
    unfold em
    rcases mexpr_cases m.1 m.2 with ⟨h0, e⟩ | ⟨f, h1, h2, e⟩ | ⟨h1, h2, e⟩
    · rw [e]; exact fun _ => hn
    · rw [e]
      have : m.2 = K.facs := hK.2.2
      rw [this] at h1
      obtain ⟨x, rfl, rfl⟩ := facs_single h1
      unfold fac
      split <;> trivial
    · rw [e]
      unfold rl
      split
      · rw [List.nil_append]
        have : m.2 = K.facs := hK.2.2
        rw [this, Key.facs_map]
        cases K with
        | nil => trivial
        | cons x K =>
          rw [List.map_cons]
          unfold symFac fac
          split <;> trivial
      · exact fun _ => hn
  · trivial

end

section

variable {D : Type} [Flt D] [LawfulFlt D] {cfg : Cfg D}

theorem Rts.returns {α : Type} {f : Eng D → M D α} {a : α} (h : Rts cfg f a) (hm : Lean.Order.monotone f) : Returns cfg f a := by
  obtain ⟨N, cs, hcs, hN⟩ := h
  refine ⟨N, cs, fun c hc σ => ?_, hN, fun n => ?_⟩
  · obtain ⟨q, hq, rfl⟩ := hcs c hc
    refine ⟨q, by simp, by exact_mod_cast hq⟩
  · rcases hm _ _ (eng_le cfg (Nat.le_max_left n N)) with h1 | h1
    · exact .inl h1
    · right; rw [h1]; exact hN _ (Nat.le_max_right n N)

theorem QTree.ep (hc : cfg.Ok) {t : QTree} (ht : t.Ok cfg.maxPrime) {u : Expr D} (hu : Gives cfg (fun E => t.expanded E) u) :
    EP u ∧ Tsym.poly u = t.poly := by
  obtain ⟨r, hr, er, qr⟩ := t.tot_expanded (D := D) hc ht
  have e1 : r = u := hr.unique hu.1
  subst e1
  exact ⟨er, qr⟩

/-! ## C53 -/

/-- C53. Pseudo-division of expanded polynomials with degrees less than 2^28: it always ends with a result, and so does the function for the remainder alone. The usual
power of the leading coefficient times the dividend is the quotient times the divisor plus the remainder, but if the remainder is zero, the power has one factor
more. The degree of the remainder is less than the one of the divisor. The remainder is zero if and only if the divisor divides the dividend times a power of the leading coefficient. -/
theorem C53_pseudo (hc : cfg.Ok) (t w : QTree) (ht : t.Ok cfg.maxPrime) (hw : w.Ok cfg.maxPrime) (s : Sym) (hs : s.id.Ok) (u v : Expr D)
    (hu : Gives cfg (fun E => t.expanded E) u) (hv : Gives cfg (fun E => w.expanded E) v) (h0 : w.poly ≠ 0)
    (hdeg : ∀ x, t.poly.degreeOf x < 2 ^ 28 ∧ w.poly.degreeOf x < 2 ^ 28) (hco : ExactCoeffs cfg.maxPrime w.poly) :
    ∃ q r l, Returns cfg (fun E => pseudoDivideImpl E u v (.sym s) true) (q, r) ∧ Returns cfg (fun E => pseudoRemainder E u v (.sym s)) r ∧
      Expanded q ∧ Expanded r ∧ IsLead s w.poly l ∧
      (∀ σ : Asg, ∃ a b, den σ q = some a ∧ den σ r = some b ∧
        (r ≠ .num (.rat 0) → pval σ l ^ (t.poly.degreeOf s + 1 - w.poly.degreeOf s) * t.val σ = a * w.val σ + b) ∧
        (r = .num (.rat 0) → pval σ l ^ (t.poly.degreeOf s + 1 - w.poly.degreeOf s + 1) * t.val σ = a * w.val σ)) ∧
      (r = .num (.rat 0) ∨ ∃ k, degree (.sym s) r = .ok k ∧ k < w.poly.degreeOf s) ∧
      (r = .num (.rat 0) ↔ ∃ j : ℕ, w.poly ∣ l ^ j * t.poly) := by
  obtain ⟨eu, pu⟩ := QTree.ep hc ht hu
  obtain ⟨ev, pv⟩ := QTree.ep hc hw hv
  have hbu : ∀ x, ((poly u).degreeOf x : ℤ) < 2 ^ 28 := fun x => by rw [pu]; exact_mod_cast (hdeg x).1
  have hbv : ∀ x, ((poly v).degreeOf x : ℤ) < 2 ^ 28 := fun x => by rw [pv]; exact_mod_cast (hdeg x).2
  have hi : (2 : ℤ) ^ 28 < intMax := by decide
  obtain ⟨lv, l1, l2, l3⟩ := tot_lead (cfg := cfg) hc s ev (lt_trans (hbv s) hi)
  have hcl : CoefOk cfg.maxPrime lv := CoefOk.of_coeffs l2 (by rw [l3, pv]; exact hco.coeffsOk.lead s _)
  have hm : 8 * ((poly u).degreeOf s + 1 : ℤ) < Number.unsignedMax := by
    have := hbu s; unfold Number.unsignedMax; omega
  have hv0 : poly v ≠ 0 := by rw [pv]; exact h0
  obtain ⟨q, r, Q, g1, g2, g3, g4, g5, g6⟩ := tot_pseudoDivide hc hs eu ev hv0 (fun x => lt_trans (hbu x) hi) (fun x => lt_trans (hbv x) hi) hm l1 l2 l3 hcl true
  obtain ⟨q', r', Q', f1, f2, f3, f4, f5, -⟩ := tot_pseudoDivide hc hs eu ev hv0 (fun x => lt_trans (hbu x) hi) (fun x => lt_trans (hbv x) hi) hm l1 l2 l3 hcl false
  obtain ⟨g6, g7⟩ := g6 rfl
  have hl0 : poly lv ≠ 0 := by rw [l3]; exact lead_ne_zero hv0
  have hl1 : (poly lv).degreeOf s = 0 := by rw [l3]; exact upoly_coeff_free s _ _
  -- a multiple of the divisor with a smaller degree
  have hsmall : ∀ p : MvPolynomial Sym ℚ, poly v ∣ p → (p = 0 ∨ p.degreeOf s < (poly v).degreeOf s) → p = 0 := by
    intro p hd hp
    rcases hp with hp | hp
    · exact hp
    · by_contra h
      have := degreeOf_dvd s h hd; omega
  have hrr : r' = r := by
    refine f3.unique g3 ?_
    have h1 : poly r' - poly r = (Q - Q') * poly v := by linear_combination g4 - f4
    refine sub_eq_zero.1 (hsmall _ ⟨_, by rw [h1, mul_comm]⟩ ?_)
    rcases eq_or_ne (poly r' - poly r) 0 with h | h
    · exact .inl h
    right
    refine lt_of_le_of_lt (MvPolynomial.degreeOf_sub_le _ _ _) (max_lt ?_ ?_)
    · rcases f5 with f5 | f5
      · rcases g5 with g5 | g5
        · rw [f5, g5, sub_zero] at h; exact absurd rfl h
        · rw [f5]; simp; omega
      · exact f5
    · rcases g5 with g5 | g5
      · rcases f5 with f5 | f5
        · rw [f5, g5, sub_zero] at h; exact absurd rfl h
        · rw [g5]; simp; omega
      · exact g5
  subst hrr
  have hz : r' = .num (.rat 0) ↔ poly r' = 0 := by
    constructor
    · rintro rfl; rw [poly_ratE, map_zero]
    · intro h; exact g3.eq_num (by rw [h, map_zero])
  refine ⟨q, r', poly lv, g1.rts.returns (pseudoDivideImpl_mono _ _ _ _ id Lean.Order.monotone_id), ?_, g2.expanded, g3.expanded,
    by rw [l3, ← pv]; exact isLead_coeff s _, fun σ => ?_, ?_, ?_⟩
  · refine Rts.returns ?_ (pseudoRemainder_mono _ _ _ id Lean.Order.monotone_id)
    unfold pseudoRemainder
    exact rts_bind f1.rts (tot_pure _).rts
  · refine ⟨_, _, den_poly q g2.polyE, den_poly r' g3.polyE, fun hr => ?_, fun hr => ?_⟩
    · have h := g4
      rw [← g6 fun h => hr (hz.2 h), pu, pv] at h
      have := congrArg (pval σ) h
      simpa [pval, t.val_eq, w.val_eq] using this
    · have h := g4
      rw [hz.1 hr, add_zero] at h
      have h' : poly lv ^ (t.poly.degreeOf s + 1 - w.poly.degreeOf s + 1) * t.poly = poly q * w.poly := by
        rw [g7 (hz.1 hr), ← pu, ← pv, pow_succ]; linear_combination poly lv * h
      have := congrArg (pval σ) h'
      simpa [pval, t.val_eq, w.val_eq] using this
  · rcases g5 with h | h
    · exact .inl (hz.2 h)
    · refine .inr ⟨_, degree_ep s g3 (by have := hbv s; omega), ?_⟩
      rw [← pv]; exact_mod_cast h
  · rw [hz]
    constructor
    · intro h
      refine ⟨(poly u).degreeOf s + 1 - (poly v).degreeOf s, ?_⟩
      rw [← pu, ← pv, g4, h, add_zero]; exact dvd_mul_left _ _
    · rintro ⟨j, hj⟩
      rw [← pu, ← pv] at hj
      have h1 : poly v ∣ poly lv ^ j * poly r' := by
        have : poly lv ^ j * poly r' = poly lv ^ ((poly u).degreeOf s + 1 - (poly v).degreeOf s) * (poly lv ^ j * poly u) - poly v * (poly lv ^ j * Q) := by
          linear_combination - poly lv ^ j * g4
        rw [this]
        exact dvd_sub (Dvd.dvd.mul_left hj _) (dvd_mul_right _ _)
      have h2 := hsmall _ h1 (by
        rcases g5 with h | h
        · left; rw [h, mul_zero]
        · right
          rcases eq_or_ne (poly r') 0 with h3 | h3
          · rw [h3, mul_zero]; simp; omega
          · rw [degreeOf_mul_ne s (pow_ne_zero _ hl0) h3, degreeOf_pow_ne s hl0, hl1]; omega)
      exact (mul_eq_zero.1 h2).resolve_left (pow_ne_zero _ hl0)

/-! ## C54 -/

/-- C54. Division of expanded polynomials: it always ends with a quotient and a remainder, the dividend is the quotient times the divisor plus the
remainder, and the remainder is zero if and only if the divisor divides the dividend. With `k` symbols and degrees up to `d`, (d + 2)^(k + 1) must be
less than 2^31, because the degrees of intermediate results must be of type `int`. -/
theorem C54_divide (hc : cfg.Ok) (t w : QTree) (ht : t.Ok cfg.maxPrime) (hw : w.Ok cfg.maxPrime) (u v : Expr D)
    (hu : Gives cfg (fun E => t.expanded E) u) (hv : Gives cfg (fun E => w.expanded E) v) (h0 : w.poly ≠ 0) (d : ℕ)
    (hdeg : ∀ x, t.poly.degreeOf x ≤ d ∧ w.poly.degreeOf x ≤ d) (hd : (d + 2) ^ ((t.poly.vars ∪ w.poly.vars).card + 1) < 2 ^ 31)
    (hco : ExactCoeffs cfg.maxPrime w.poly) :
    ∃ q r, Returns cfg (fun E => polyDivide E u v) (q, r) ∧ Expanded q ∧ Expanded r ∧
      (∀ σ : Asg, ∃ a b, den σ q = some a ∧ den σ r = some b ∧ t.val σ = a * w.val σ + b) ∧
      (r = .num (.rat 0) ↔ w.poly ∣ t.poly) := by
  obtain ⟨eu, pu⟩ := QTree.ep hc ht hu
  obtain ⟨ev, pv⟩ := QTree.ep hc hw hv
  have hlen := addSymbols_length eu ev
  rw [pu, pv] at hlen
  have hpow : (d + 1) * (d + 2) ^ (t.poly.vars ∪ w.poly.vars).card ≤ (d + 2) ^ ((t.poly.vars ∪ w.poly.vars).card + 1) := by
    rw [pow_succ, mul_comm]; exact Nat.mul_le_mul_left _ (by omega)
  have hd2 : d + 2 ≤ (d + 2) ^ ((t.poly.vars ∪ w.poly.vars).card + 1) := Nat.le_self_pow (by omega) _
  have hi : intMax = 2 ^ 31 - 1 := rfl
  obtain ⟨q, r, g1, g2, g3, g4, g5⟩ := polyDivide_ok hc eu ev (by rw [pv]; exact h0) (by rw [pv]; exact hco.coeffsOk)
    (fun x => by rw [pu]; exact (hdeg x).1) (fun x => by rw [pv]; exact (hdeg x).2) hlen (by
      rw [hi]; zify at hpow hd; push_cast; omega) (by rw [hi]; zify at hd2 hd; omega)
  rw [pu, pv] at g4 g5
  refine ⟨q, r, g1.returns (polyDivide_mono _ _ id Lean.Order.monotone_id), g2.expanded, g3.expanded, fun σ => ?_, ?_⟩
  · refine ⟨_, _, den_poly q g2.polyE, den_poly r g3.polyE, ?_⟩
    have := congrArg (pval σ) g4
    simpa [pval, t.val_eq, w.val_eq] using this
  · constructor
    · rintro rfl
      rw [g4, poly_ratE]; simp
    · intro h
      exact g3.eq_num (by rw [g5 h, map_zero])

end

/-! ## Examples -/

namespace PolyEx5

open ExprEx PolyEx2

/-- A bound of the degrees. -/
def deg : QTree → ℕ
  | .rat _ => 0
  | .var _ => 1
  | .neg t => deg t
  | .add t u => max (deg t) (deg u)
  | .sub t u => max (deg t) (deg u)
  | .mul t u => deg t + deg u
  | .div t _ => deg t
  | .pow t k => k * deg t

/-- The symbols. -/
def syms : QTree → Finset Sym
  | .rat _ => ∅
  | .var s => {s}
  | .neg t => syms t
  | .add t u => syms t ∪ syms u
  | .sub t u => syms t ∪ syms u
  | .mul t u => syms t ∪ syms u
  | .div t _ => syms t
  | .pow t _ => syms t

theorem degreeOf_le_deg (x : Sym) (t : QTree) : t.poly.degreeOf x ≤ deg t := by
  induction t with
  | rat q => simp [QTree.poly, deg]
  | var s =>
    rw [QTree.poly, deg]
    by_cases h : x = s
    · subst h; rw [MvPolynomial.degreeOf_X_self]
    · rw [MvPolynomial.degreeOf_X_of_ne h]; omega
  | neg t h => rw [QTree.poly, MvPolynomial.degreeOf_neg]; exact h
  | add t u h1 h2 => exact le_trans (MvPolynomial.degreeOf_add_le _ _ _) (max_le_max h1 h2)
  | sub t u h1 h2 => exact le_trans (MvPolynomial.degreeOf_sub_le _ _ _) (max_le_max h1 h2)
  | mul t u h1 h2 => exact le_trans (MvPolynomial.degreeOf_mul_le _ _ _) (add_le_add h1 h2)
  | div t q h => exact le_trans (MvPolynomial.degreeOf_mul_le _ _ _) (by simpa [deg] using h)
  | pow t k h => exact le_trans (MvPolynomial.degreeOf_pow_le _ _ _) (Nat.mul_le_mul_left _ h)

theorem vars_subset (t : QTree) : t.poly.vars ⊆ syms t := by
  induction t with
  | rat q => simp [QTree.poly]
  | var s => simp [QTree.poly, syms]
  | neg t h => rw [QTree.poly, MvPolynomial.vars_neg]; exact h
  | add t u h1 h2 => exact (MvPolynomial.vars_add_subset _ _).trans (Finset.union_subset_union h1 h2)
  | sub t u h1 h2 => rw [QTree.poly, sub_eq_add_neg]; exact (MvPolynomial.vars_add_subset _ _).trans (by rw [MvPolynomial.vars_neg]; exact Finset.union_subset_union h1 h2)
  | mul t u h1 h2 => exact (MvPolynomial.vars_mul _ _).trans (Finset.union_subset_union h1 h2)
  | div t q h =>
    refine (MvPolynomial.vars_mul _ _).trans ?_
    simpa [syms] using h
  | pow t k h => exact (MvPolynomial.vars_pow _ _).trans h

/-- a^2 - b^2 -/
def t1 : QTree := .sub (.mul (.var sa) (.var sa)) (.mul (.var sb) (.var sb))

/-- 2*a + 2*b -/
def w1 : QTree := .mul (.rat 2) (.add (.var sa) (.var sb))

theorem t1_ok : t1.Ok 1000 := by
  simp only [t1, QTree.Ok, sa, sb, SymId.Ok, Name.value]
  decide

theorem w1_ok : w1.Ok 1000 := by
  simp only [w1, QTree.Ok, sa, sb, SymId.Ok, Name.value]
  decide

theorem w1_ne : w1.poly ≠ 0 := by
  intro h
  have := congrArg (pval fun _ => 1) h
  simp [w1, QTree.poly, pval] at this

theorem w1_coeffs : ExactCoeffs 1000 w1.poly := by
  right
  intro f hf k hk
  have h2 : w1.poly.coeff f = 0 ∨ w1.poly.coeff f = 2 := by
    simp only [w1, QTree.poly, MvPolynomial.coeff_C_mul, MvPolynomial.coeff_add, MvPolynomial.coeff_X]
    have hne : ¬ (Finsupp.single sa 1 = f ∧ Finsupp.single sb 1 = f) := by
      rintro ⟨rfl, h⟩
      have := Finsupp.single_left_injective one_ne_zero h
      simp [sa, sb] at this
    by_cases h1 : Finsupp.single sa 1 = f
    · have h2 : ¬ Finsupp.single sb 1 = f := fun h => hne ⟨h1, h⟩
      rw [if_pos h1, if_neg h2]; norm_num
    · rw [if_neg h1]
      by_cases h2 : Finsupp.single sb 1 = f
      · rw [if_pos h2]; norm_num
      · rw [if_neg h2]; norm_num
  have h3 := h2.resolve_left hf
  rw [h3]
  have h16 : 2 ^ 4 ≤ k ^ 4 := Nat.pow_le_pow_left hk.two_le 4
  constructor
  · intro h
    have := Nat.le_of_dvd (by norm_num) h
    have e : (2 : ℚ).num.natAbs = 2 := rfl
    omega
  · intro h
    have := Nat.le_of_dvd (by norm_num) h
    have e : (2 : ℚ).den = 1 := rfl
    omega

/-- The expansions, with the default limit for primes. -/
example : t1.expanded (eng (Cfg.std 1000) 30) = .ok (sum [pow a (int 2), prod [mOne, pow b (int 2)]], []) := by krfl

example : w1.expanded (eng (Cfg.std 1000) 30) = .ok (sum [prod [int 2, a], prod [int 2, b]], []) := by krfl

/-- The hypotheses of `C53_pseudo` and `C54_divide` are met for a^2 - b^2 and 2*a + 2*b. -/
example : (∀ x, t1.poly.degreeOf x ≤ 2 ∧ w1.poly.degreeOf x ≤ 2) ∧ (2 + 2) ^ ((t1.poly.vars ∪ w1.poly.vars).card + 1) < 2 ^ 31 := by
  refine ⟨fun x => ⟨degreeOf_le_deg x t1, le_trans (degreeOf_le_deg x w1) (by decide)⟩, ?_⟩
  have h : (t1.poly.vars ∪ w1.poly.vars).card ≤ 2 := by
    refine le_trans (Finset.card_le_card (Finset.union_subset_union (vars_subset t1) (vars_subset w1))) ?_
    have : syms t1 ∪ syms w1 ⊆ {sa, sb} := by
      intro x hx
      simp [syms, t1, w1] at hx ⊢
      tauto
    exact le_trans (Finset.card_le_card this) Finset.card_le_two
  calc (2 + 2) ^ ((t1.poly.vars ∪ w1.poly.vars).card + 1) ≤ (2 + 2) ^ (2 + 1) := Nat.pow_le_pow_right (by norm_num) (by omega)
    _ < 2 ^ 31 := by norm_num

/-- The quotient is (a - b)/2, with remainder zero. The conditions are that 2 is not zero. -/
example : polyDivide (eng (Cfg.std 1000) 40) (sum [pow a (int 2), prod [mOne, pow b (int 2)]]) (sum [prod [int 2, a], prod [int 2, b]]) =
    .ok ((sum [prod [.num (.rat (1 / 2)), a], prod [.num (.rat (-1 / 2)), b]], int 0), [.nz (int 2), .nz (int 2)]) := by krfl

/-- A division with a remainder: a^2 + b^2 = (a - b)/2*(2*a + 2*b) + 2*b^2. -/
example : polyDivide (eng (Cfg.std 1000) 40) (sum [pow a (int 2), pow b (int 2)]) (sum [prod [int 2, a], prod [int 2, b]]) =
    .ok ((sum [prod [.num (.rat (1 / 2)), a], prod [.num (.rat (-1 / 2)), b]], prod [int 2, pow b (int 2)]), [.nz (int 2), .nz (int 2)]) := by krfl

/-- Pseudo-division: b^2*(a^2 + b) = (a*b - 1)*(a*b + 1) + b^3 + 1. -/
example : pseudoDivideImpl (eng (Cfg.std 1000) 40) (sum [pow a (int 2), b]) (sum [int 1, prod [a, b]]) a true =
    .ok ((sum [mOne, prod [a, b]], sum [int 1, pow b (int 3)]), []) := by krfl

/-- With the remainder zero: 2^3*(a^2 - 1) = (4*a - 4)*(2*a + 2), with one factor 2 more than usual. -/
example : pseudoDivideImpl (eng (Cfg.std 1000) 40) (sum [mOne, pow a (int 2)]) (sum [int 2, prod [int 2, a]]) a true =
    .ok ((sum [int (-4), prod [int 4, a]], int 0), []) := by krfl

end PolyEx5

end Tsym
