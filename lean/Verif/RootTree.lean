import Verif.Props.Values

set_option autoImplicit false
set_option linter.unusedSectionVars false
set_option linter.unusedSimpArgs false
set_option linter.unusedVariables false

/-!
# Specification for C74: expressions with rational exponents
-/

namespace Tsym

open Expr

/-- What a user writes: rational numbers, symbols, the four operators and powers with rational exponents. -/
inductive RootTree
  | rat (q : ℚ)
  | var (s : Sym)
  | neg (t : RootTree)
  | add (t u : RootTree)
  | sub (t u : RootTree)
  | mul (t u : RootTree)
  | div (t u : RootTree)
  | pow (t : RootTree) (k : ℚ)

namespace RootTree

/-- The value of the tree. There is none for a division by zero, for zero to a power that is not positive, and
for a negative number to a power that is no integer. -/
noncomputable def val (σ : Asg) : RootTree → Option ℝ
  | rat q => some q
  | var s => some (σ s)
  | neg t => (t.val σ).map fun x => - x
  | add t u => (t.val σ).bind fun x => (u.val σ).map fun y => x + y
  | sub t u => (t.val σ).bind fun x => (u.val σ).map fun y => x - y
  | mul t u => (t.val σ).bind fun x => (u.val σ).map fun y => x * y
  | div t u => (t.val σ).bind fun x => (u.val σ).bind fun y => if y = 0 then none else some (x / y)
  | pow t k => (t.val σ).bind fun x => Spec.pow x k

variable {D : Type} [Flt D]

/-- The calls of the library. -/
def run (E : Eng D) : RootTree → M D (Expr D)
  | rat q => pure (.num (.rat q))
  | var s => pure (.sym s)
  | neg t => do
    let a ← t.run E
    Api.neg E a
  | add t u => do
    let a ← t.run E
    let b ← u.run E
    Api.add E a b
  | sub t u => do
    let a ← t.run E
    let b ← u.run E
    Api.sub E a b
  | mul t u => do
    let a ← t.run E
    let b ← u.run E
    Api.mul E a b
  | div t u => do
    let a ← t.run E
    let b ← u.run E
    Api.div E a b
  | pow t k => do
    let a ← t.run E
    Api.pow E a (.num (.rat k))

/-- The calls of the library: the operations of the tree, then the expansion. -/
def expanded (t : RootTree) (E : Eng D) : M D (Expr D) := do
  let e ← t.run E
  Api.expand E e

/-- An exponent the powers of numbers are computed for. -/
def ExpOk (k : ℤ) : Prop := 8 * (k.natAbs : ℤ) < 4294967295

/-- Products, quotients and rational powers of positive symbols. -/
inductive PosMon : RootTree → Prop
  | var (s : Sym) (h : s.id.Ok) (hp : s.positive = true) : PosMon (var s)
  | mul {t u : RootTree} (h : PosMon t) (h' : PosMon u) : PosMon (mul t u)
  | div {t u : RootTree} (h : PosMon t) (h' : PosMon u) : PosMon (div t u)
  | pow {t : RootTree} (h : PosMon t) (k : ℚ) : PosMon (pow t k)

/-- The exponents of the symbols in a product of powers. -/
noncomputable def exponents : RootTree → Sym →₀ ℚ
  | var s => Finsupp.single s 1
  | mul t u => t.exponents + u.exponents
  | div t u => t.exponents - u.exponents
  | pow t k => k • t.exponents
  | _ => 0

/-- Monomials: products, quotients and integer powers of numbers, symbols and rational powers of positive
symbols. -/
inductive Mon : RootTree → Prop
  | rat (q : ℚ) : Mon (rat q)
  | var (s : Sym) (h : s.id.Ok) : Mon (var s)
  | pos {t : RootTree} (h : PosMon t) : Mon t
  | neg {t : RootTree} (h : Mon t) : Mon (neg t)
  | mul {t u : RootTree} (h : Mon t) (h' : Mon u) : Mon (mul t u)
  | div {t u : RootTree} (h : Mon t) (h' : Mon u) : Mon (div t u)
  | pow {t : RootTree} (h : Mon t) (k : ℤ) (hk : ExpOk k) : Mon (pow t k)

/-- Puiseux polynomials: sums and products of monomials, divided by monomials. -/
inductive Puiseux : RootTree → Prop
  | mon {t : RootTree} (h : Mon t) : Puiseux t
  | neg {t : RootTree} (h : Puiseux t) : Puiseux (neg t)
  | add {t u : RootTree} (h : Puiseux t) (h' : Puiseux u) : Puiseux (add t u)
  | sub {t u : RootTree} (h : Puiseux t) (h' : Puiseux u) : Puiseux (sub t u)
  | mul {t u : RootTree} (h : Puiseux t) (h' : Puiseux u) : Puiseux (mul t u)
  | div {t u : RootTree} (h : Puiseux t) (h' : Mon u) : Puiseux (div t u)
  | pow {t : RootTree} (h : Puiseux t) (k : ℕ) (hk : ExpOk k) : Puiseux (pow t k)

end RootTree

/-- A symbol, or a power of a symbol with a rational exponent other than zero and one; the exponent is an
integer if the symbol is not positive. -/
inductive SymRatPower {D : Type} [Flt D] : Expr D → Prop
  | sym (s : Sym) : SymRatPower (.sym s)
  | pow (s : Sym) (k : ℚ) : k ≠ 0 → k ≠ 1 → (s.positive = true ∨ k.den = 1) → SymRatPower (.pow (.sym s) (.num (.rat k)))

/-- A number, a power of a symbol, or a product of such: at most one number, different from one, in front. -/
inductive PuiseuxMonomial {D : Type} [Flt D] : Expr D → Prop
  | num (q : ℚ) : PuiseuxMonomial (.num (.rat q))
  | power {e : Expr D} : SymRatPower e → PuiseuxMonomial e
  | prod {l : List (Expr D)} : 2 ≤ l.length → (∀ e ∈ l, SymRatPower e) → PuiseuxMonomial (.prod l)
  | scaled {q : ℚ} {l : List (Expr D)} : q ≠ 1 → l ≠ [] → (∀ e ∈ l, SymRatPower e) → PuiseuxMonomial (.prod (.num (.rat q) :: l))

/-- A monomial or a sum of at least two. -/
inductive PuiseuxExpanded {D : Type} [Flt D] : Expr D → Prop
  | mono {e : Expr D} : PuiseuxMonomial e → PuiseuxExpanded e
  | sum {l : List (Expr D)} : 2 ≤ l.length → (∀ e ∈ l, PuiseuxMonomial e) → PuiseuxExpanded (.sum l)

end Tsym
