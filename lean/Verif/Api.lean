import Verif.Engine

set_option autoImplicit false

/-!
# The functions a user of the library calls

Every function takes the record `E` with the functions of the library; the theorems use `E = eng cfg n`.
-/

namespace Tsym

namespace Api

open Expr

variable {D : Type} [Flt D] (E : Eng D)

/-- operator+ (var.cpp:114-119, 207-212). -/
def add (a b : Expr D) : M D (Expr D) := E.sumCreate [a, b]

/-- operator- with one argument (var.cpp:147-150). -/
def neg (a : Expr D) : M D (Expr D) := E.minus a

/-- operator- with two arguments (var.cpp:121-126, 214-219). -/
def sub (a b : Expr D) : M D (Expr D) := do
  let m ← E.minus b
  E.sumCreate [a, m]

/-- operator* (var.cpp:128-133, 221-226). -/
def mul (a b : Expr D) : M D (Expr D) := E.prodCreate [a, b]

/-- operator/ (var.cpp:135-140, 228-233). -/
def div (a b : Expr D) : M D (Expr D) := do
  let r ← E.oneOver b
  E.prodCreate [a, r]

/-- pow (functions.cpp:60-63). -/
def pow (b e : Expr D) : M D (Expr D) := E.powCreate b e

/-- sqrt (functions.cpp:53-58). -/
def sqrt (b : Expr D) : M D (Expr D) := E.powCreate b half

/-- log (functions.cpp:65-68). -/
def log (a : Expr D) : M D (Expr D) := E.logCreate a

/-- sin, cos, tan, asin, acos, atan (functions.cpp:70-98). -/
def trig (f : Fn) (a : Expr D) : M D (Expr D) := E.trigCreate f a

/-- atan2 (functions.cpp:100-103). -/
def atan2 (y x : Expr D) : M D (Expr D) := E.atan2Create y x

/-- subst (functions.cpp:105-108). -/
def subst (arg orig repl : Expr D) : M D (Expr D) := E.subst orig repl arg

/-- expand (functions.cpp:110-113). -/
def expand (a : Expr D) : M D (Expr D) := E.expand a

/-- Base::diff (base.cpp:170-178) and diff (functions.cpp:151-154). -/
def diff (arg x : Expr D) : M D (Expr D) := if isSymbol x then E.diff x arg else pure .undef

/-- isPositive (functions.cpp:161-164). -/
def isPositive (a : Expr D) : M D Bool := E.isPos a

/-- isNegative (functions.cpp:166-169). -/
def isNegative (a : Expr D) : M D Bool := E.isNeg a

/-- complexity (functions.cpp:171-174); the type unsigned has 32 bits. -/
def complexity (a : Expr D) : Nat := a.complexity % 2 ^ 32

/-- The loop in simplify (functions.cpp:129-135), started with the last two results. -/
def normalLoop (last next : Expr D) : M D (Expr D) :=
  M.loop E.steps (fun s : Expr D × Expr D =>
    if isEqual s.2 s.1 then pure (.inr s.2)
    else (do
      let n ← E.normal s.2
      pure (.inl (s.2, n)))) (last, next)

/-- The choice between three representations (functions.cpp:138-141). -/
def simplest (expanded expandedNext normalized : Expr D) : Expr D :=
  let s := if complexity expandedNext < complexity expanded then expandedNext else expanded
  if complexity normalized < complexity s then normalized else s

/-- simplify (functions.cpp:115-149). -/
def simplify (a : Expr D) : M D (Expr D) := do
  let expanded ← E.expand a
  let next ← E.normal a
  if isUndefined next then pure next
  else (do
    let n ← normalLoop E a next
    let en ← E.expand n
    pure (simplest expanded en n))

/-- normalToFraction (functions.cpp:19-32). -/
def normalToFraction (a : Expr D) : M D (Frac D) := do
  let p ← M.capture (E.normalFrac a ⟨[], a.tmpIds⟩)
  let d ← M.capture (replaceBack E p.1.2.entries p.1.1.denom)
  let n ← M.capture (replaceBack E p.1.2.entries p.1.1.num)
  M.emit ((p.2 ++ d.2 ++ n.2).map (Cond.within p.1.2.bindings))
  pure ⟨n.1, d.1⟩

/-- numerator (functions.cpp:176-179). -/
def numerator (a : Expr D) : M D (Expr D) := do
  let f ← normalToFraction E a
  pure f.num

/-- denominator (functions.cpp:181-184). -/
def denominator (a : Expr D) : M D (Expr D) := do
  let f ← normalToFraction E a
  pure f.denom

end Api

end Tsym
