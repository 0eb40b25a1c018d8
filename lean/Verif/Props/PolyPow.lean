import Verif.PowPoly
import Verif.Props.Polynomials
import Verif.Props.Numbers

set_option autoImplicit false
set_option linter.unusedSectionVars false
set_option linter.unusedSimpArgs false
set_option linter.unusedVariables false

/-!
# C52: polynomials with powers of any subexpression and division by numbers

C47 and C48 for more expressions: any subexpression may be raised to a natural power, and divided by a
number. Powers of numbers are taken apart into primes, which is wrong for some numbers
(`C19_false_integer`, the smallest is 324), so the option `maxPrimeResolution` must be less than 324, or
the number must not be divisible by a fourth power of a prime.
-/

namespace Tsym

open Expr

/-! ## Specification -/

/-- What a user writes. -/
inductive QTree
  | rat (q : ℚ)
  | var (s : Sym)
  | neg (t : QTree)
  | add (t u : QTree)
  | sub (t u : QTree)
  | mul (t u : QTree)
  | div (t : QTree) (q : ℚ)
  | pow (t : QTree) (k : ℕ)

namespace QTree

/-- The value of the tree. -/
noncomputable def val (σ : Asg) : QTree → ℝ
  | rat q => q
  | var s => σ s
  | neg t => - t.val σ
  | add t u => t.val σ + u.val σ
  | sub t u => t.val σ - u.val σ
  | mul t u => t.val σ * u.val σ
  | div t q => t.val σ / q
  | pow t k => t.val σ ^ k

/-- The symbols have names that do not look like the ones of temporary symbols. The divisors are not zero,
and not divisible by a fourth power, or the limit for primes is less than 324. The latter is needed for
powers in any case, and the exponents are less than 2^29. -/
def Ok (max : ℤ) : QTree → Prop
  | rat _ => True
  | var s => s.id.Ok
  | neg t => t.Ok max
  | add t u => t.Ok max ∧ u.Ok max
  | sub t u => t.Ok max ∧ u.Ok max
  | mul t u => t.Ok max ∧ u.Ok max
  | div t q => t.Ok max ∧ q ≠ 0 ∧
      (max < 324 ∨ ∀ p : ℕ, p.Prime → ¬ p ^ 4 ∣ q.num.natAbs ∧ ¬ p ^ 4 ∣ q.den)
  | pow t k => t.Ok max ∧ max < 324 ∧ k < 2 ^ 29

variable {D : Type} [Flt D]

/-- The calls of the library. -/
def run (E : Eng D) : QTree → M D (Expr D)
  | rat q => pure (.num (.rat q))
  | var s => pure (.sym s)
  | neg t => do
    let a ← t.run E
    Api.neg E a
  | add t u => do
    let a ← t.run E
    let b ← u.run E
    Api.add E a b
  | sub t u => do
    let a ← t.run E
    let b ← u.run E
    Api.sub E a b
  | mul t u => do
    let a ← t.run E
    let b ← u.run E
    Api.mul E a b
  | div t q => do
    let a ← t.run E
    Api.div E a (.num (.rat q))
  | pow t k => do
    let a ← t.run E
    Api.pow E a (.int k)

/-- The expansion of the expression of a tree. -/
def expanded (t : QTree) (E : Eng D) : M D (Expr D) := do
  let e ← t.run E
  Api.expand E e

end QTree

/-! ## Proofs -/

/-- The polynomial of a tree. -/
noncomputable def QTree.poly : QTree → MvPolynomial Sym ℚ
  | .rat q => MvPolynomial.C q
  | .var s => MvPolynomial.X s
  | .neg t => - t.poly
  | .add t u => t.poly + u.poly
  | .sub t u => t.poly - u.poly
  | .mul t u => t.poly * u.poly
  | .div t q => t.poly * MvPolynomial.C q⁻¹
  | .pow t k => t.poly ^ k

theorem QTree.val_eq (σ : Asg) (t : QTree) : t.val σ = pval σ t.poly := by
  unfold pval
  induction t with
  | rat q => simp [QTree.val, QTree.poly]
  | var s => simp [QTree.val, QTree.poly]
  | neg t h => simp [QTree.val, QTree.poly, h]
  | add t u h1 h2 => simp [QTree.val, QTree.poly, h1, h2]
  | sub t u h1 h2 => simp [QTree.val, QTree.poly, h1, h2]
  | mul t u h1 h2 => simp [QTree.val, QTree.poly, h1, h2]
  | div t q h => simp [QTree.val, QTree.poly, h, div_eq_mul_inv]
  | pow t k h => simp [QTree.val, QTree.poly, h]

section

variable {D : Type} [Flt D] [ExactLt D] {cfg : Cfg D}

theorem QTree.tot (hc : cfg.Ok) (t : QTree) (h : t.Ok cfg.maxPrime) :
    ∃ e, Tot cfg (fun E => t.run E) e ∧ Pol cfg e ∧ Tsym.poly e = t.poly := by
  induction t with
  | rat q => exact ⟨_, tot_pure _, Pol.rat q, by simp [QTree.poly, poly_ratE]⟩
  | var s => exact ⟨_, tot_pure _, Pol.sym h, by simp [QTree.poly, Tsym.poly]⟩
  | neg t ih =>
    obtain ⟨e, he, pe, qe⟩ := ih h
    obtain ⟨r, hr, pr, qr⟩ := tot_minus_pol hc pe
    exact ⟨r, tot_bind he hr, pr, by rw [qr, qe, QTree.poly]⟩
  | add t u ih1 ih2 =>
    obtain ⟨e, he, pe, qe⟩ := ih1 h.1
    obtain ⟨f, hf, pf, qf⟩ := ih2 h.2
    obtain ⟨r, hr, pr, qr⟩ := tot_sum_pol hc (es := [e, f]) (by simp) (by simpa using ⟨pe, pf⟩)
    exact ⟨r, tot_bind he (tot_bind hf (tot_sum hr)), pr, by rw [qr]; simp [qe, qf, QTree.poly]⟩
  | sub t u ih1 ih2 =>
    obtain ⟨e, he, pe, qe⟩ := ih1 h.1
    obtain ⟨f, hf, pf, qf⟩ := ih2 h.2
    obtain ⟨g, hg, pg, qg⟩ := tot_minus_pol hc pf
    obtain ⟨r, hr, pr, qr⟩ := tot_sum_pol hc (es := [e, g]) (by simp) (by simpa using ⟨pe, pg⟩)
    exact ⟨r, tot_bind he (tot_bind hf (tot_bind hg (tot_sum hr))), pr, by
      rw [qr]; simp [qe, qf, qg, QTree.poly, sub_eq_add_neg]⟩
  | mul t u ih1 ih2 =>
    obtain ⟨e, he, pe, qe⟩ := ih1 h.1
    obtain ⟨f, hf, pf, qf⟩ := ih2 h.2
    obtain ⟨r, hr, pr, qr⟩ := tot_prod_pol hc (es := [e, f]) (by simp) (by simpa using ⟨pe, pf⟩)
    exact ⟨r, tot_bind he (tot_bind hf (tot_prod hr)), pr, by rw [qr]; simp [qe, qf, QTree.poly]⟩
  | div t q ih =>
    obtain ⟨h1, h2, h3⟩ := h
    obtain ⟨e, he, pe, qe⟩ := ih h1
    have hq : NumOk cfg.maxPrime q := by
      rcases h3 with h3 | h3
      · exact .inl h3
      · exact .inr ⟨fun p hp => (h3 p hp).1, fun p hp => (h3 p hp).2⟩
    have hi := tot_powNum (D := D) hc (q := q) (n := -1) (.inl h2) (by unfold Number.unsignedMax; norm_num) (fun _ => hq)
    obtain ⟨r, hr, pr, qr⟩ := tot_prod_pol hc (es := [e, .num (.rat (q ^ (-1 : ℤ)))]) (by simp) (by
      intro x hx
      rcases List.mem_cons.1 hx with rfl | hx
      · exact pe
      · rw [List.mem_singleton.1 hx]; exact Pol.rat _)
    refine ⟨r, tot_bind he (tot_bind (tot_pow ?_) (tot_prod hr)), pr, by rw [qr]; simp [qe, QTree.poly, poly_ratE]⟩
    have : (Expr.mOne : Expr D) = int (-1) := by simp [Expr.mOne, int]
    rw [this]; exact hi
  | pow t k ih =>
    obtain ⟨h1, h2, h3⟩ := h
    obtain ⟨e, he, pe, qe⟩ := ih h1
    obtain ⟨r, hr, pr, qr⟩ := tot_pow_pol hc pe (k := k) (by
      have h4 : (k : ℤ) < 2 ^ 29 := by exact_mod_cast h3
      unfold Number.unsignedMax; omega) (coefOk_small h2 e)
    exact ⟨r, tot_bind he (tot_pow hr), pr, by rw [qr, qe, QTree.poly]⟩

open Lean.Order in
theorem QTree.run_mono (t : QTree) : monotone fun E : Eng D => t.run E := by
  induction t with
  | rat q => simp only [QTree.run]; monotonicity
  | var s => simp only [QTree.run]; monotonicity
  | neg t h =>
    simp only [QTree.run, Api.neg]
    refine monotone_bind (m := M D) _ _ h (monotone_of_monotone_apply _ fun a => ?_)
    repeat' monotonicity
  | add t u h1 h2 =>
    simp only [QTree.run, Api.add]
    refine monotone_bind (m := M D) _ _ h1 (monotone_of_monotone_apply _ fun a => ?_)
    refine monotone_bind (m := M D) _ _ h2 (monotone_of_monotone_apply _ fun b => ?_)
    repeat' monotonicity
  | sub t u h1 h2 =>
    simp only [QTree.run, Api.sub]
    refine monotone_bind (m := M D) _ _ h1 (monotone_of_monotone_apply _ fun a => ?_)
    refine monotone_bind (m := M D) _ _ h2 (monotone_of_monotone_apply _ fun b => ?_)
    repeat' monotonicity
  | mul t u h1 h2 =>
    simp only [QTree.run, Api.mul]
    refine monotone_bind (m := M D) _ _ h1 (monotone_of_monotone_apply _ fun a => ?_)
    refine monotone_bind (m := M D) _ _ h2 (monotone_of_monotone_apply _ fun b => ?_)
    repeat' monotonicity
  | div t q h =>
    simp only [QTree.run, Api.div]
    refine monotone_bind (m := M D) _ _ h (monotone_of_monotone_apply _ fun a => ?_)
    repeat' monotonicity
  | pow t k h =>
    simp only [QTree.run, Api.pow]
    refine monotone_bind (m := M D) _ _ h (monotone_of_monotone_apply _ fun a => ?_)
    repeat' monotonicity

open Lean.Order in
theorem QTree.expanded_mono (t : QTree) : monotone fun E : Eng D => t.expanded E := by
  simp only [QTree.expanded, Api.expand]
  refine monotone_bind (m := M D) _ _ t.run_mono (monotone_of_monotone_apply _ fun a => ?_)
  repeat' monotonicity

theorem QTree.tot_expanded (hc : cfg.Ok) (t : QTree) (h : t.Ok cfg.maxPrime) :
    ∃ r, Tot cfg (fun E => t.expanded E) r ∧ EP r ∧ Tsym.poly r = t.poly := by
  obtain ⟨e, he, pe, qe⟩ := t.tot hc h
  obtain ⟨r, hr, pr, qr⟩ := tot_expand_pol hc pe
  exact ⟨r, tot_bind he (tot_expand hr), pr, by rw [qr, qe]⟩

end

/-! ## C52 -/

section

variable {D : Type} [Flt D] [LawfulFlt D] {cfg : Cfg D}

/-- C52. Such an expression always has a result, that result has the value of the expression for all values
of the symbols, and nothing is assumed about them. All expressions in it have the shape of C16. -/
theorem C52_value (hc : cfg.Ok) (t : QTree) (h : t.Ok cfg.maxPrime) :
    ∃ e, Gives cfg (fun E => t.run E) e ∧ (∀ σ : Asg, den σ e = some (t.val σ)) ∧ ∀ x, Occurs x e → ShapeOk x := by
  obtain ⟨e, he, pe, qe⟩ := t.tot hc h
  exact ⟨e, he.gives t.run_mono, fun σ => by rw [den_poly e pe.polyE, qe, t.val_eq], fun x hx => pe.allOk x hx⟩

/-- C52. Its expansion is a sum of monomials with the same value. -/
theorem C52_expanded (hc : cfg.Ok) (t : QTree) (h : t.Ok cfg.maxPrime) :
    ∃ r, Gives cfg (fun E => t.expanded E) r ∧ Expanded r ∧ ∀ σ : Asg, den σ r = some (t.val σ) := by
  obtain ⟨r, hr, er, qr⟩ := t.tot_expanded (D := D) hc h
  exact ⟨r, hr.gives t.expanded_mono, er.expanded, fun σ => by rw [den_poly r er.polyE, qr, t.val_eq]⟩

/-- C52. Two such expressions have equal expansions if and only if they have the same value for all values
of the symbols. -/
theorem C52_identity (hc : cfg.Ok) (t u : QTree) (ht : t.Ok cfg.maxPrime) (hu : u.Ok cfg.maxPrime) (r s : Expr D)
    (hr : Gives cfg (fun E => t.expanded E) r) (hs : Gives cfg (fun E => u.expanded E) s) :
    isEqual r s = true ↔ ∀ σ : Asg, σ.Respects → t.val σ = u.val σ := by
  obtain ⟨r', hr', er, qr⟩ := t.tot_expanded (D := D) hc ht
  obtain ⟨s', hs', es, qs⟩ := u.tot_expanded (D := D) hc hu
  have e1 : r' = r := hr'.unique hr.1
  have e2 : s' = s := hs'.unique hs.1
  subst e1 e2
  rw [isEqual_eq _ (isPolyE_exact _ er.polyE) _ (isPolyE_exact _ es.polyE)]
  constructor
  · intro e σ _
    rw [t.val_eq, u.val_eq, ← qr, ← qs, e]
  · intro hv
    refine er.unique es ?_
    rw [qr, qs]
    exact pval_inj fun σ hσ => by rw [← t.val_eq, ← u.val_eq, hv σ hσ]

/-- C19 for integer exponents: the power of a rational number is the right rational number, unless it is
zero and the exponent negative. Missing: other exponents, and numbers that are divisible by a fourth power,
where it is false (`C19_false_integer`). -/
theorem C19_integer_partial (hc : cfg.Ok) (q : ℚ) (n : ℤ) (hq : q ≠ 0 ∨ 0 ≤ n) (hn : n.natAbs < 2 ^ 29)
    (h : cfg.maxPrime < 324 ∨ ∀ p : ℕ, p.Prime → ¬ p ^ 4 ∣ q.num.natAbs ∧ ¬ p ^ 4 ∣ q.den) :
    Gives cfg (fun E => Api.pow E (.num (.rat q)) (.int n)) (.num (.rat (q ^ n))) := by
  refine Tot.gives (tot_pow (tot_powNum hc hq ?_ fun _ => ?_)) (apiPow_mono _ _)
  · have h4 : (n.natAbs : ℤ) < 2 ^ 29 := by exact_mod_cast hn
    unfold Number.unsignedMax; omega
  · rcases h with h3 | h3
    · exact .inl h3
    · exact .inr ⟨fun p hp => (h3 p hp).1, fun p hp => (h3 p hp).2⟩

end

/-! ## Examples -/

namespace PolyEx4

open ExprEx PolyEx2

/-- ((a + b)^2*3/2)^2 -/
def t1 : QTree := .pow (.div (.mul (.pow (.add (.var sa) (.var sb)) 2) (.rat 3)) 2) 2

theorem t1_ok : t1.Ok 323 := by
  simp only [t1, QTree.Ok, sa, sb, SymId.Ok, Name.value]
  norm_num
  decide

/-- Powers of powers are put together, and numbers are computed. -/
example : t1.run (eng (Cfg.std 323) 30) = .ok (prod [.num (.rat (9 / 4)), pow (sum [a, b]) (int 4)], []) := by krfl

/-- The expansion with the five monomials. -/
example : t1.expanded (eng (Cfg.std 323) 40) = .ok (sum [prod [.num (.rat (9 / 4)), pow a (int 4)],
    prod [int 9, pow a (int 3), b], prod [.num (.rat (27 / 2)), pow a (int 2), pow b (int 2)], prod [int 9, a, pow b (int 3)],
    prod [.num (.rat (9 / 4)), pow b (int 4)]], []) := by krfl

/-- The limit for primes is needed: with the default limit 1000 the square of 324 is computed as the fourth
power of 6. -/
theorem C52_false : (QTree.pow (.rat 324) 2).run (eng (Cfg.std 1000) 30) = .ok ((int 1296 : Expr Hyb), [.fail]) ∧
    ∀ σ : Asg, (QTree.pow (.rat 324) 2).val σ = 104976 := by
  refine ⟨by krfl, fun σ => ?_⟩
  simp [QTree.val]; norm_num

example : (QTree.pow (.rat 324) 2).run (eng (Cfg.std 323) 30) = .ok ((int 104976 : Expr Hyb), []) := by krfl

end PolyEx4

end Tsym
