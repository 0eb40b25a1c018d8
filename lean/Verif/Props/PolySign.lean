import Verif.PolySign
import Verif.Props.RoundTrip
import Verif.Props.Signs

/-!
# C69: what the sign queries answer for polynomials
-/

set_option autoImplicit false
set_option linter.unusedSectionVars false

namespace Tsym

open Expr

/-! ## Specification -/

/-- All coefficients are positive, and in each monomial each symbol is positive or has an even exponent. -/
def PlainlyPositive (p : MvPolynomial Sym ℚ) : Prop :=
  p ≠ 0 ∧ ∀ d : Sym →₀ ℕ, p.coeff d ≠ 0 → 0 < p.coeff d ∧ ∀ s, d s ≠ 0 → s.positive = true ∨ Even (d s)

/-! ## Proofs -/

section

variable {D : Type} [Flt D] [LawfulFlt D] {cfg : Cfg D}

theorem plainly_pos_iff (p : MvPolynomial Sym ℚ) : PlainlyPositive p ↔ p ≠ 0 ∧ ∀ d ∈ p.support, 0 < p.coeff d ∧ evenOrPos d := by
  unfold PlainlyPositive evenOrPos
  simp only [MvPolynomial.mem_support_iff, Nat.even_iff]

theorem plainly_neg_iff (p : MvPolynomial Sym ℚ) : PlainlyPositive (-p) ↔ p ≠ 0 ∧ ∀ d ∈ p.support, p.coeff d < 0 ∧ evenOrPos d := by
  rw [plainly_pos_iff]
  simp only [MvPolynomial.mem_support_iff, MvPolynomial.coeff_neg, neg_ne_zero, Left.neg_pos_iff, ne_eq]

open Classical in
theorem sg_qtree (hc : cfg.Ok) {t : QTree} (ht : t.Ok cfg.maxPrime) {r : Expr D} (hr : Gives cfg (fun E => t.expanded E) r) :
    Tot cfg (fun E => isPos E r) (decide (PlainlyPositive t.poly)) ∧ Tot cfg (fun E => isNeg E r) (decide (PlainlyPositive (-t.poly))) := by
  obtain ⟨er, pr⟩ := QTree.ep hc ht hr
  obtain ⟨v, hv, h1, h2⟩ := er.signs (cfg := cfg)
  rw [pr, ← plainly_pos_iff] at h1
  rw [pr, ← plainly_neg_iff] at h2
  have e1 : decide (v = 1) = decide (PlainlyPositive t.poly) := decide_eq_decide.2 h1
  have e2 : decide (v = -1) = decide (PlainlyPositive (-t.poly)) := decide_eq_decide.2 h2
  exact ⟨e1 ▸ hv.pos, e2 ▸ hv.neg⟩

/-! ## C69 -/

open Classical in
/-- C69. The sign queries of an expanded polynomial always answer, without conditions. The answer to isPositive is yes if and
only if all coefficients are positive and in each monomial each symbol is positive or has an even exponent, the answer to
isNegative if and only if this is so for the negated polynomial. -/
theorem C69_signs (hc : cfg.Ok) (t : QTree) (ht : t.Ok cfg.maxPrime) (r : Expr D) (hr : Gives cfg (fun E => t.expanded E) r) :
    Yields cfg (fun E => Api.isPositive E r) (decide (PlainlyPositive t.poly)) ∧
    Yields cfg (fun E => Api.isNegative E r) (decide (PlainlyPositive (-t.poly))) := by
  obtain ⟨h1, h2⟩ := sg_qtree hc ht hr
  exact ⟨Tot.yields (tot_isPos h1) (Api.isPositive_mono r id fun _ _ h => h), Tot.yields (tot_isNeg h2) (Api.isNegative_mono r id fun _ _ h => h)⟩

open Classical in
/-- C69. The logarithm of a polynomial with two or more monomials: Undefined if and only if isNegative answers yes, otherwise
the logarithm of the expression as it is. -/
theorem C69_log (hc : cfg.Ok) (t : QTree) (ht : t.Ok cfg.maxPrime) (r : Expr D) (hr : Gives cfg (fun E => t.expanded E) r)
    (h2 : ∀ d c, t.poly ≠ MvPolynomial.monomial d c) :
    Yields cfg (fun E => Api.log E r) (if PlainlyPositive (-t.poly) then .undef else .fn .log r) := by
  obtain ⟨-, hn⟩ := sg_qtree hc ht hr
  obtain ⟨er, pr⟩ := QTree.ep hc ht hr
  refine Tot.yields ?_ (Api.log_mono r id fun _ _ h => h)
  have hs : r.isSum = true := er.isSum.2 (by rw [pr]; rintro ⟨d, c, h⟩; exact h2 d c h)
  obtain ⟨L, hL, hl⟩ := er
  match r, hs with
  | .sum l, _ =>
  have hlen : 2 ≤ L.length := by
    match L, hl with
    | [], hl => simp [sumOf, zero] at hl
    | [m], hl =>
      obtain ⟨K, hK⟩ := hL.ks.key m (by simp)
      refine absurd ?_ (h2 K.fs m.1)
      rw [← pr, hl]
      simpa [sumOf] using hK.poly
    | _ :: _ :: _, _ => simp
  have hb := pbase_sum (hL.sl (cfg := cfg) (B := fun _ => True) (by simp)) hlen
  have hl' : Expr.sum l = .sum (L.map em) := by
    rw [hl]
    match L, hlen with
    | _ :: _ :: _, _ => rfl
  have hev : numEval (Expr.sum l) = .ok none := by rw [hl']; exact hb.eval
  refine tot_log ?_
  unfold logCreate isInvalidArg
  by_cases hneg : PlainlyPositive (-t.poly)
  · rw [if_pos hneg]
    simp only [hneg, decide_true] at hn
    refine tot_bind (a := true) ?_ ?_
    · simp only [isUndefined, isZero, isPower, Bool.or_self, Bool.false_eq_true, if_false, Bool.false_and]
      refine tot_whenTrue (tot_bind (tot_isNeg hn) ?_)
      simp only [if_true]; exact tot_pure _
    · simp only [if_true]; exact tot_pure _
  · rw [if_neg hneg]
    simp only [hneg, decide_false] at hn
    refine tot_bind (a := false) ?_ ?_
    · simp only [isUndefined, isZero, isPower, Bool.or_self, Bool.false_eq_true, if_false, Bool.false_and]
      refine tot_whenTrue (tot_bind (tot_isNeg hn) ?_)
      simp only [Bool.false_eq_true, if_false]
      exact tot_bind (tot_lift hev) (tot_pure _)
    · simp only [isOne, Bool.false_eq_true, if_false]; exact tot_pure _

end

/-! ## Examples -/

namespace PolySignEx

open ExprEx RoundTripEx

open PolyEx2 (sa sb)

/-- A symbol marked as positive. -/
def sp : Sym := ⟨.named (ParserEx.name 'p'), true⟩

/-- (a - b)^2 + 2*(a*b + 1) + p, that is 2 + a^2 + b^2 + p. -/
def t2 : QTree := .add (.add (.pow (.sub (.var sa) (.var sb)) 2) (.mul (.rat 2) (.add (.mul (.var sa) (.var sb)) (.rat 1)))) (.var sp)

theorem t2_ok : t2.Ok 323 := by
  simp only [t2, QTree.Ok, sa, sb, sp, SymId.Ok]
  refine ⟨⟨⟨⟨?_, ?_⟩, by norm_num, by norm_num⟩, trivial, ⟨?_, ?_⟩, trivial⟩, ?_⟩ <;> decide

theorem t2_poly : t2.poly = MvPolynomial.C 2 + MvPolynomial.X sa ^ 2 + MvPolynomial.X sb ^ 2 + MvPolynomial.X sp := by
  simp only [t2, QTree.poly, MvPolynomial.C_1]
  have : (MvPolynomial.C (2 : ℚ) : MvPolynomial Sym ℚ) = 2 := rfl
  rw [this]
  ring

/-- The expanded polynomial. -/
def r2 : Expr Hyb := sum [int 2, pow a (int 2), pow b (int 2), .sym sp]

theorem t2_expanded : t2.expanded (eng (Cfg.std 323) 40) = .ok (r2, []) := by krfl

theorem t2_gives : Gives (Cfg.std 323) (fun E => t2.expanded E) r2 := by
  obtain ⟨r, hr, -⟩ := C52_expanded (D := Hyb) (Cfg.std_ok 323) t2 t2_ok
  have e : r = r2 := by
    have h := t2_expanded.symm.trans (hr.2 40 |>.resolve_left fun h => by cases t2_expanded.symm.trans h)
    injection h with h
    exact (Prod.ext_iff.1 h).1.symm
  rw [← e]; exact hr

/-- The hypotheses are met, and the answer is yes although a and b can have any sign. -/
example : Api.isPositive (eng (Cfg.std 323) 40) r2 = .ok (true, []) ∧ PlainlyPositive t2.poly := by
  have h : Api.isPositive (eng (Cfg.std 323) 40) r2 = .ok (true, []) := by krfl
  refine ⟨h, ?_⟩
  have := (C69_signs (Cfg.std_ok 323) t2 t2_ok r2 t2_gives).1.2 40
  beta_reduce at this
  rw [h] at this
  rcases this with this | this
  · cases this
  · injection this with this
    exact @of_decide_eq_true _ (Classical.propDecidable _) (Prod.ext_iff.1 this).1.symm

/-- Its logarithm is left alone. -/
example : Api.log (eng (Cfg.std 323) 40) r2 = .ok (.fn .log r2, []) := by krfl

/-- The hypotheses are met by a polynomial with an odd power, where the answers are no and no. -/
example : ∃ p n : Bool, Yields (Cfg.std 323) (fun E => Api.isPositive E r1) p ∧ Yields (Cfg.std 323) (fun E => Api.isNegative E r1) n :=
  ⟨_, _, C69_signs (Cfg.std_ok 323) t1 t1_ok r1 t1_gives⟩

/-- The answers are about the coefficients and not about the values: a^2 - 2*a*b + b^2 is never negative, and this is not seen. -/
theorem C69_false_complete : Api.isPositive (eng (Cfg.std 323) 40) (sum [int 1, pow a (int 2), prod [int (-2), a, b], pow b (int 2)] : Expr Hyb) = .ok (false, []) ∧
    ∀ σ : Asg, ∃ x : ℝ, den σ (sum [int 1, pow a (int 2), prod [int (-2), a, b], pow b (int 2)] : Expr Hyb) = some x ∧ 0 < x := by
  refine ⟨by krfl, fun σ => ⟨_, den_poly (σ := σ) _ (by decide +kernel), ?_⟩⟩
  simp only [pval, poly, polySum, polyProd, int, a, b]
  norm_num [show Int.toNat 2 = 2 from rfl]
  have := sq_nonneg (σ sa - σ sb)
  simp only [sa, sb] at this
  nlinarith [this]

end PolySignEx
end Tsym
