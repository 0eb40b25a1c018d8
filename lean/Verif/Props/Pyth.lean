import Verif.Pyth
import Verif.Props.TrigPoly

set_option autoImplicit false
set_option linter.unusedSectionVars false

/-!
# C80: sums of multiples of the squares of sine and cosine of a polynomial
-/

namespace Tsym

open Expr

/-! ## Specification -/

namespace SqSpec

variable {D : Type}

/-- The square of a function of `y`. -/
def square (f : Fn) (y : Expr D) : Expr D := .pow (.fn f y) (.num (.rat 2))

/-- A multiple of it, as a list of summands. -/
def term (q : ℚ) (f : Fn) (y : Expr D) : List (Expr D) :=
  if q = 0 then [] else if q = 1 then [square f y] else [.prod [.num (.rat q), square f y]]

/-- The multiples of the squares of sine and cosine, the latter first. -/
def terms (a b : ℚ) (y : Expr D) : List (Expr D) := term b .cos y ++ term a .sin y

/-- The expression with the given summands. -/
def sumOf : List (Expr D) → Expr D
  | [] => .num (.rat 0)
  | [t] => t
  | l => .sum l

/-- What one expects of a sin²(y) + b cos²(y): a number if a = b. -/
def squares (a b : ℚ) (y : Expr D) : Expr D := if a = b then .num (.rat a) else sumOf (terms a b y)

end SqSpec

/-- q f(r)², by the functions of the library. -/
def sqTerm {D : Type} [Flt D] (E : Eng D) (q : ℚ) (f : Fn) (r : Expr D) : M D (Expr D) := do
  let s ← Api.trig E f r
  let p ← Api.pow E s (.int 2)
  Api.mul E (.num (.rat q)) p

/-- a f(r)² + b g(r)². -/
def twoSquares {D : Type} [Flt D] (E : Eng D) (a : ℚ) (f : Fn) (b : ℚ) (g : Fn) (r : Expr D) : M D (Expr D) := do
  let u ← sqTerm E a f r
  let v ← sqTerm E b g r
  Api.add E u v

/-- p + (a f(r)² + b g(r)²). -/
def numPlusSquares {D : Type} [Flt D] (E : Eng D) (p a : ℚ) (f : Fn) (b : ℚ) (g : Fn) (r : Expr D) : M D (Expr D) := do
  let s ← twoSquares E a f b g r
  Api.add E (.num (.rat p)) s

/-- (p + a f(r)²) + b g(r)². -/
def squaresFromLeft {D : Type} [Flt D] (E : Eng D) (p a : ℚ) (f : Fn) (b : ℚ) (g : Fn) (r : Expr D) : M D (Expr D) := do
  let u ← sqTerm E a f r
  let s ← Api.add E (.num (.rat p)) u
  let v ← sqTerm E b g r
  Api.add E s v

/-! ## Proofs -/

section

variable {D : Type} [Flt D] [LawfulFlt D] {cfg : Cfg D}

theorem twoSquares_mono (a : ℚ) (f : Fn) (b : ℚ) (g : Fn) (r : Expr D) : Lean.Order.monotone fun E : Eng D => twoSquares E a f b g r := by
  unfold twoSquares sqTerm Api.trig Api.pow Api.mul Api.add; repeat' mono_step
theorem numPlusSquares_mono (p a : ℚ) (f : Fn) (b : ℚ) (g : Fn) (r : Expr D) : Lean.Order.monotone fun E : Eng D => numPlusSquares E p a f b g r := by
  unfold numPlusSquares twoSquares sqTerm Api.trig Api.pow Api.mul Api.add; repeat' mono_step
theorem squaresFromLeft_mono (p a : ℚ) (f : Fn) (b : ℚ) (g : Fn) (r : Expr D) : Lean.Order.monotone fun E : Eng D => squaresFromLeft E p a f b g r := by
  unfold squaresFromLeft sqTerm Api.trig Api.pow Api.mul Api.add; repeat' mono_step

theorem SqSpec.term_eq (q : ℚ) (f : Fn) (y : Expr D) : term q f y = if q = 0 then [] else [Pyth.tm q f y] := by
  unfold term Pyth.tm
  by_cases h : q = 0 <;> by_cases h1 : q = 1 <;> simp [h, h1, square]

theorem SqSpec.terms_eq (a b : ℚ) (y : Expr D) : terms a b y = Pyth.terms a b y := by
  unfold terms Pyth.terms; rw [term_eq, term_eq]

theorem SqSpec.squares_eq (a b : ℚ) (y : Expr D) : squares a b y = Pyth.two a b y := by
  unfold squares Pyth.two
  rw [terms_eq]
  split
  · rfl
  · generalize Pyth.terms a b y = l
    match l with
    | [] => exact zero_eq.symm
    | [_] => rfl
    | _ :: _ :: _ => rfl

/-- The multiples of the squares. -/
theorem tot_sqTerm (hc : cfg.Ok) (t : QTree) (ht : t.Ok cfg.maxPrime) (r y : Expr D) (hr : Gives cfg (fun E => t.expanded E) r)
    (hn : NotConstant t.poly) (hy : Yields cfg (fun E => Api.trig E .cos r) (.fn .cos y)) :
    Exact y ∧ ∀ (q : ℚ) (f : Fn), f = .sin ∨ f = .cos → Tot cfg (fun E => sqTerm E q f r) (Pyth.tm q f y) := by
  have h := QTree.nc hc ht hr hn
  obtain ⟨r', hr', -⟩ := C52_expanded (D := D) hc (QTree.neg t) ht
  obtain ⟨e', p'⟩ := QTree.neg_ep hc ht hr hr'
  have n' := h.neg e' p'
  by_cases hs : AllNeg (Tsym.poly r)
  · have hcos := tot_trig (h.tot_trig_neg hc (cfg := cfg) e' p' hs .cos)
    have : y = r' := by
      have := Tot.unique (cfg := cfg) (f := fun E => Api.trig E .cos r) hy.1 hcos
      injection this
    subst this
    refine ⟨n'.exact, fun q f hf => ?_⟩
    unfold sqTerm
    rcases hf with rfl | rfl
    · refine tot_bind (tot_trig (h.tot_trig_neg hc (cfg := cfg) e' p' hs .sin)) (tot_bind (tot_pow (tot_square_mfn (cfg := cfg) hc n'.eval (.inl rfl))) (tot_prod ?_))
      rw [two_eq]; exact Pyth.tot_tm q .sin
    · refine tot_bind hcos (tot_bind (tot_pow (tot_square_fn (cfg := cfg) n'.eval (.inr rfl))) (tot_prod ?_))
      rw [two_eq]; exact Pyth.tot_tm q .cos
  · have hcos := tot_trig (h.tot_trig hc (cfg := cfg) hs .cos)
    have : y = r := by
      have := Tot.unique (cfg := cfg) (f := fun E => Api.trig E .cos r) hy.1 hcos
      injection this
    subst this
    refine ⟨h.exact, fun q f hf => ?_⟩
    unfold sqTerm
    refine tot_bind (tot_trig (h.tot_trig hc (cfg := cfg) hs f)) (tot_bind (tot_pow (tot_square_fn (cfg := cfg) h.eval hf)) (tot_prod ?_))
    rw [two_eq]; exact Pyth.tot_tm q f

/-! ## C80 -/

/-- C80. The sum of multiples of the squares of sine and cosine of a polynomial that is not a number. If the factors are equal, the
sum is a number. The order of the summands does not matter. Here cos(y) is the cosine of the polynomial: y is the polynomial, or
the negated one (C70). -/
theorem C80_two (hc : cfg.Ok) (t : QTree) (ht : t.Ok cfg.maxPrime) (r y : Expr D) (hr : Gives cfg (fun E => t.expanded E) r)
    (hn : NotConstant t.poly) (hy : Yields cfg (fun E => Api.trig E .cos r) (.fn .cos y)) (a b : ℚ) :
    Yields cfg (fun E => twoSquares E a .sin b .cos r) (SqSpec.squares a b y) ∧
    Yields cfg (fun E => twoSquares E b .cos a .sin r) (SqSpec.squares a b y) := by
  obtain ⟨ey, k⟩ := tot_sqTerm hc t ht r y hr hn hy
  have h1 := k a .sin (.inl rfl)
  have h2 := k b .cos (.inr rfl)
  rw [SqSpec.squares_eq]
  exact ⟨Tot.yields (tot_bind h1 (tot_bind h2 (tot_sum (Pyth.tot_two_sum ey a b).1))) (twoSquares_mono _ _ _ _ _),
    Tot.yields (tot_bind h2 (tot_bind h1 (tot_sum (Pyth.tot_two_sum ey a b).2))) (twoSquares_mono _ _ _ _ _)⟩

/-- C80. If a number is added to this sum, and the sum is a number, the result is a number. Otherwise the number is the first
summand. -/
theorem C80_number (hc : cfg.Ok) (t : QTree) (ht : t.Ok cfg.maxPrime) (r y : Expr D) (hr : Gives cfg (fun E => t.expanded E) r)
    (hn : NotConstant t.poly) (hy : Yields cfg (fun E => Api.trig E .cos r) (.fn .cos y)) (p a b : ℚ) (hp : p ≠ 0) :
    Yields cfg (fun E => numPlusSquares E p a .sin b .cos r) (if a = b then .num (.rat (p + a)) else .sum (.num (.rat p) :: SqSpec.terms a b y)) ∧
    Yields cfg (fun E => numPlusSquares E p b .cos a .sin r) (if a = b then .num (.rat (p + a)) else .sum (.num (.rat p) :: SqSpec.terms a b y)) := by
  have key : Tot cfg (fun E => E.sumCreate [num (.rat p), SqSpec.squares a b y]) (if a = b then .num (.rat (p + a)) else .sum (.num (.rat p) :: SqSpec.terms a b y)) := by
    obtain ⟨ey, -⟩ := tot_sqTerm hc t ht r y hr hn hy
    by_cases hab : a = b
    · simp only [SqSpec.squares, hab, if_true]; exact tot_sum_num p b
    · rw [if_neg hab, SqSpec.squares_eq, SqSpec.terms_eq]; exact tot_sum (Pyth.tot_right ey hp hab)
  obtain ⟨h1, h2⟩ := C80_two hc t ht r y hr hn hy a b
  exact ⟨Tot.yields (tot_bind (f := fun E => twoSquares E a .sin b .cos r) h1.1 key) (numPlusSquares_mono _ _ _ _ _ _),
    Tot.yields (tot_bind (f := fun E => twoSquares E b .cos a .sin r) h2.1 key) (numPlusSquares_mono _ _ _ _ _ _)⟩

/-- C80. In the other order, with the number added to the first square: if the factors are different the result is the same. If they
are equal, the result is a sum of two numbers, that are not added. -/
theorem C80_left (hc : cfg.Ok) (t : QTree) (ht : t.Ok cfg.maxPrime) (r y : Expr D) (hr : Gives cfg (fun E => t.expanded E) r)
    (hn : NotConstant t.poly) (hy : Yields cfg (fun E => Api.trig E .cos r) (.fn .cos y)) (p a b : ℚ) (hp : p ≠ 0) (ha : a ≠ 0) (hb : b ≠ 0) :
    Yields cfg (fun E => squaresFromLeft E p a .sin b .cos r) (.sum (.num (.rat p) :: if a = b then [.num (.rat a)] else SqSpec.terms a b y)) ∧
    Yields cfg (fun E => squaresFromLeft E p b .cos a .sin r) (.sum (.num (.rat p) :: if a = b then [.num (.rat a)] else SqSpec.terms a b y)) := by
  obtain ⟨ey, k⟩ := tot_sqTerm hc t ht r y hr hn hy
  have h1 := k a .sin (.inl rfl)
  have h2 := k b .cos (.inr rfl)
  have e : (SqSpec.terms a b y : List (Expr D)) = [Pyth.tm b .cos y, Pyth.tm a .sin y] := by
    rw [SqSpec.terms_eq]; simp [Pyth.terms, ha, hb]
  rw [e]
  obtain ⟨l1, l2⟩ := Pyth.tot_left (cfg := cfg) ey hp ha hb
  exact ⟨Tot.yields (tot_bind h1 (tot_bind (tot_sum (Pyth.tot_num_sum hp ha .sin)) (tot_bind h2 (tot_sum l2)))) (squaresFromLeft_mono _ _ _ _ _ _),
    Tot.yields (tot_bind h2 (tot_bind (tot_sum (Pyth.tot_num_sum hp hb .cos)) (tot_bind h1 (tot_sum l1)))) (squaresFromLeft_mono _ _ _ _ _ _)⟩

/-- C80. So addition is not associative: the two results are not equal for the library, for all polynomials and all numbers. -/
theorem C80_not_associative (hc : cfg.Ok) (t : QTree) (ht : t.Ok cfg.maxPrime) (r y : Expr D) (hr : Gives cfg (fun E => t.expanded E) r)
    (hn : NotConstant t.poly) (hy : Yields cfg (fun E => Api.trig E .cos r) (.fn .cos y)) (p a : ℚ) (hp : p ≠ 0) (ha : a ≠ 0) :
    ∃ u v : Expr D, Yields cfg (fun E => numPlusSquares E p a .sin a .cos r) u ∧ Yields cfg (fun E => squaresFromLeft E p a .sin a .cos r) v ∧
      isEqual u v = false ∧ v.isZero = false := by
  have h1 := (C80_number hc t ht r y hr hn hy p a a hp).1
  have h2 := (C80_left hc t ht r y hr hn hy p a a hp ha ha).1
  simp only [if_true] at h1 h2
  exact ⟨_, _, h1, h2, rfl, rfl⟩

/-- C80. The expansion adds the two numbers. -/
theorem C80_expand (p a : ℚ) : Yields cfg (fun E => Api.expand E (.sum [.num (.rat p), .num (.rat a)])) (.num (.rat (p + a)) : Expr D) := by
  refine Tot.yields (tot_expand ?_) (by unfold Api.expand; repeat' mono_step)
  unfold expand
  exact tot_bind (a := [num (.rat p), num (.rat a)]) (tot_bind (tot_expand (tot_pure _)) (tot_bind (tot_bind (tot_expand (tot_pure _)) (tot_bind (tot_pure _) (tot_pure _))) (tot_pure _))) (tot_sum_num p a)

theorem SqSpec.den_term (σ : Asg) {y : Expr D} {v : ℝ} (hy : den σ y = some v) (q : ℚ) {f : Fn} {w : ℝ} (hf : Spec.fn f v = some w) :
    denSum σ (term q f y) = some (q * w ^ 2) := by
  have hq : den σ (square f y) = some (w ^ 2) := by
    have : Spec.pow w ((2 : ℚ) : ℝ) = some (w ^ 2) := by
      have := Spec.pow_nat (x := w) (n := 2) (by decide)
      simpa using this
    simp only [square, den, hy, Option.bind_some, hf, Number.val, this]
  unfold term
  split
  · next h => simp [denSum, h]
  · split
    · next h => simp [denSum, hq, h]
    · simp [denSum, den, denProd, hq, Number.val]

/-- C80. The results have the right values. -/
theorem C80_value (σ : Asg) (y : Expr D) {v : ℝ} (hy : den σ y = some v) (p a b : ℚ) :
    den σ (SqSpec.squares a b y) = some (a * Real.sin v ^ 2 + b * Real.cos v ^ 2) ∧
    den σ (.sum (.num (.rat p) :: SqSpec.terms a b y) : Expr D) = some (p + (a * Real.sin v ^ 2 + b * Real.cos v ^ 2)) ∧
    den σ (.sum [.num (.rat p), .num (.rat a)] : Expr D) = some (p + (a * Real.sin v ^ 2 + a * Real.cos v ^ 2)) ∧
    den σ (.num (.rat (p + a)) : Expr D) = some (p + (a * Real.sin v ^ 2 + a * Real.cos v ^ 2)) := by
  have hT : denSum σ (SqSpec.terms a b y) = some (a * Real.sin v ^ 2 + b * Real.cos v ^ 2) := by
    unfold SqSpec.terms
    rw [denSum_append, SqSpec.den_term σ hy b (f := .cos) (w := Real.cos v) rfl, SqSpec.den_term σ hy a (f := .sin) (w := Real.sin v) rfl]
    simp [add_comm]
  have e : ∀ q : ℝ, q * Real.sin v ^ 2 + q * Real.cos v ^ 2 = q := fun q => by rw [← mul_add, Real.sin_sq_add_cos_sq, mul_one]
  have hS : ∀ l : List (Expr D), den σ (SqSpec.sumOf l) = denSum σ l := by
    intro l
    match l with
    | [] => simp [SqSpec.sumOf, denSum, Number.val]
    | [t] => cases h : den σ t <;> simp [SqSpec.sumOf, denSum, h]
    | _ :: _ :: _ => rfl
  refine ⟨?_, ?_, ?_, ?_⟩
  · unfold SqSpec.squares
    split
    · next h => rw [← h, e]; rfl
    · rw [hS, hT]
  · rw [den, denSum, hT]; rfl
  · rw [e]; simp [den, denSum, Number.val]
  · rw [e]; simp [den, Number.val]

end

namespace PythEx

open ExprEx TrigPolyEx PolySignEx

/-- The hypotheses are met, for a polynomial with negative coefficients and for the negated one. -/
theorem t3_cos : Yields (Cfg.std 323) (fun E => Api.trig E .cos r3) (.fn .cos r2) :=
  (C70_symmetry (Cfg.std_ok 323) t3 t2_ok r3 r2 t3_gives (by
    obtain ⟨r, hr, -⟩ := C52_expanded (D := Hyb) (Cfg.std_ok 323) (QTree.neg t3) t2_ok
    have h0 : (QTree.neg t3).expanded (eng (Cfg.std 323) 40) = .ok (r2, []) := by krfl
    have e : r = r2 := by
      have h := h0.symm.trans (hr.2 40 |>.resolve_left fun h => by cases h0.symm.trans h)
      injection h with h
      exact (Prod.ext_iff.1 h).1.symm
    rw [← e]; exact hr) t3_nc t3_neg).1

example : Yields (Cfg.std 323) (fun E => twoSquares E (3 / 2) .sin (3 / 2) .cos r3) (SqSpec.squares (3 / 2) (3 / 2) r2) ∧
    Yields (Cfg.std 323) (fun E => numPlusSquares E 5 (3 / 2) .sin (-1) .cos r3) (if (3 / 2 : ℚ) = -1 then .num (.rat (5 + 3 / 2)) else .sum (.num (.rat 5) :: SqSpec.terms (3 / 2) (-1) r2)) ∧
    Yields (Cfg.std 323) (fun E => squaresFromLeft E (-1) 1 .sin 1 .cos r3) (.sum (.num (.rat (-1)) :: if (1 : ℚ) = 1 then [.num (.rat 1)] else SqSpec.terms 1 1 r2)) :=
  ⟨(C80_two (Cfg.std_ok 323) t3 t2_ok r3 r2 t3_gives t3_nc t3_cos _ _).1, (C80_number (Cfg.std_ok 323) t3 t2_ok r3 r2 t3_gives t3_nc t3_cos _ _ _ (by decide)).1,
    (C80_left (Cfg.std_ok 323) t3 t2_ok r3 r2 t3_gives t3_nc t3_cos _ _ _ (by decide) (by decide) (by decide)).1⟩

/-- The results for the symbol a: sin²(a) + cos²(a) - 1 is zero, (cos²(a) - 1) + sin²(a) is a sum of -1 and 1. -/
example : numPlusSquares (eng (Cfg.std 323) 40) (-1) 1 .sin 1 .cos (a : Expr Hyb) = .ok (.int 0, []) ∧
    squaresFromLeft (eng (Cfg.std 323) 40) (-1) 1 .cos 1 .sin (a : Expr Hyb) = .ok (.sum [.int (-1), .int 1], []) ∧
    twoSquares (eng (Cfg.std 323) 40) 2 .sin 3 .cos (a : Expr Hyb) =
      .ok (.sum [.prod [.int 3, .pow (.fn .cos a) (.int 2)], .prod [.int 2, .pow (.fn .sin a) (.int 2)]], []) := by
  refine ⟨?_, ?_, ?_⟩ <;> krfl

end PythEx
end Tsym
