import Verif.Trig

set_option autoImplicit false

/-!
# Expansion, substitution, coefficients and derivatives
-/

namespace Tsym

open Expr

variable {D : Type} [Flt D] (E : Eng D)

/-- defScalarAndSums (baseptrlistfct.cpp:97-111): the factors that are no sums, and the sums. -/
def defScalarAndSums : List (Expr D) → M D (List (Expr D) × List (Expr D))
  | [] => pure ([], [])
  | a :: l => do
    let x ← E.expand a
    let r ← defScalarAndSums l
    pure (if x.isSum then (r.1, x :: r.2) else (x :: r.1, r.2))

/-- expandProductOf for a list of sums (baseptrlistfct.cpp:113-135). The code takes the operands of
the first element even if it is not a sum (a product of two sums can be a number); the rule is wrong
then. -/
def expandSums : Expr D → List (Expr D) → M D (Expr D)
  | first, [] => pure first
  | first, second :: l => do
    M.logIf (!first.isSum) .fail
    let summands ← M.mapL (fun item => do
      let p ← E.prodCreate [item, second]
      E.expand p) first.operands
    let s ← E.sumCreate summands
    expandSums s l

/-- expandProductOf for a scalar and a sum (baseptrlistfct.cpp:137-149). -/
def expandScalarSum (scalar : Expr D) (ops : List (Expr D)) : M D (Expr D) := do
  let summands ← M.mapL (fun item => do
    let p ← E.prodCreate [scalar, item]
    E.expand p) ops
  E.sumCreate summands

/-- expandAsProduct (baseptrlistfct.cpp:153-179) without the cache. -/
def expandAsProduct (l : List (Expr D)) : M D (Expr D) := do
  let p ← defScalarAndSums E l
  let scalar ← (if p.1.isEmpty then pure one else E.prodCreate p.1)
  match p.2 with
  | [] => pure scalar
  | s :: sums => do
    let second ← expandSums E s sums
    match second with
    | .sum ops => expandScalarSum E scalar ops
    | _ => E.prodCreate [scalar, second]

/-- Power::expandSumBaseIntExp (power.cpp:159-173). -/
def expandSumBaseIntExp (b e : Expr D) : M D (Expr D) := do
  let n ← NumTrigo.evalE e
  let r ← E.expandAsProduct (List.replicate n.numerator.natAbs b)
  if n.numerator < 0 then E.oneOver r else pure r

/-- The expand methods (base.cpp:81-84, sum.cpp:183-191, product.cpp:189-192, power.cpp:140-157). -/
def expand : Expr D → M D (Expr D)
  | .sum l => do
    let r ← M.mapL E.expand l
    E.sumCreate r
  | .prod l => E.expandAsProduct l
  | .pow b e => do
    let i ← M.lift (isInteger e)
    if i then (match b with
      | .sum _ => expandSumBaseIntExp E b e
      | _ => E.powCreate b e)
    else pure (.pow b e)
  | e => pure e

/-- The subst methods (base.cpp:86-92, undefined.cpp:80-86, sum.cpp:193-201, product.cpp:194-202,
power.cpp:175-181, logarithm.cpp:112-118, trigonometric.cpp:492-500): `x` is replaced by `r`. -/
def subst (x r : Expr D) : Expr D → M D (Expr D)
  | .undef => pure (if x.isUndefined then r else .undef)
  | .sum l => if isEqual (.sum l) x then pure r else do
    let m ← substList E x r l
    E.sumCreate m
  | .prod l => if isEqual (.prod l) x then pure r else do
    let m ← substList E x r l
    E.prodCreate m
  | .pow b e => if isEqual (.pow b e) x then pure r else do
    let b' ← E.subst x r b
    let e' ← E.subst x r e
    E.powCreate b' e'
  | .fn .log a => if isEqual (.fn .log a) x then pure r else do
    let a' ← E.subst x r a
    E.logCreate a'
  | .fn f a => if isEqual (.fn f a) x then pure r else do
    let a' ← E.subst x r a
    E.trigCreate f a'
  | .atan2 y z => if isEqual (.atan2 y z) x then pure r else do
    let y' ← E.subst x r y
    let z' ← E.subst x r z
    E.atan2Create y' z'
  | e => pure (if isEqual e x then r else e)

/-- Product::coeffFactorMatch (product.cpp:214-230): the list without the first match. -/
def removeFirst (p : Expr D) : List (Expr D) → Option (List (Expr D))
  | [] => none
  | a :: l => if isEqual a p then some l else (removeFirst p l).map (a :: ·)

/-- The coeff methods (base.cpp:94-102, sum.cpp:203-221, product.cpp:204-230, power.cpp:183-194). -/
def coeff (x : Expr D) (n : ℤ) : Expr D → M D (Expr D)
  | .sum l =>
    if isEqual (.sum l) x then pure (if n = 1 then one else zero)
    else if !has x (.sum l) && n == 0 then pure (.sum l)
    else M.foldL (fun acc a => do
      let c ← E.coeff x n a
      E.sumCreate [acc, c]) zero l
  | .prod l =>
    if isEqual (.prod l) x then pure (if n = 1 then one else zero)
    else if !has x (.prod l) && n == 0 then pure (.prod l)
    else do
      let p ← M.silent (E.powCreate x (.int n))
      match removeFirst p l with
      | some m => E.prodCreate m
      | none => pure zero
  | .pow b e =>
    if isEqual (.pow b e) x then pure (if n = 1 then one else zero)
    else do
      let p ← M.silent (E.powCreate x (.int n))
      if isEqual (.pow b e) p then pure one
      else if !isEqual b x then pure (if n = 0 then .pow b e else zero)
      else pure zero
  | e =>
    if isEqual e x then pure (if n = 1 then one else zero)
    else if !has x e && n == 0 then pure e
    else pure zero

/-- Base::leadingCoeff (base.cpp:104-107). -/
def leadingCoeff (x e : Expr D) : M D (Expr D) := do
  let n ← M.lift (degree x e)
  E.coeff x n e

/-- Trigonometric::innerDiff (trigonometric.cpp:463-490), but for atan2. -/
def innerDiff (f : Fn) (a : Expr D) : M D (Expr D) :=
  match f with
  | .sin => E.trigCreate .cos a
  | .cos => do
    let s ← E.trigCreate .sin a
    E.minus s
  | .tan => do
    let t ← E.trigCreate .tan a
    let s ← square E t
    E.sumCreate [one, s]
  | .asin => do
    let s ← square E a
    let m ← E.minus s
    let t ← E.sumCreate [one, m]
    E.powCreate t (.ratE (-1 / 2))
  | .acos => do
    let s ← square E a
    let m ← E.minus s
    let t ← E.sumCreate [one, m]
    let p ← E.powCreate t (.ratE (-1 / 2))
    E.minus p
  | .atan => do
    let s ← square E a
    let t ← E.sumCreate [one, s]
    E.oneOver t
  | .log => M.err .ub

/-- Trigonometric::diffWrtSymbol with the argument and the inner derivative
(trigonometric.cpp:455-461). -/
def diffTrig (x arg : Expr D) (inner : M D (Expr D)) : M D (Expr D) := do
  let outer ← E.diff x arg
  let i ← inner
  let p ← E.prodCreate [i, outer]
  E.normal p

/-- The summands in Product::diffWrtSymbol (product.cpp:109-118); `before` are the operands before
the current one. -/
def diffProd (x : Expr D) (before : List (Expr D)) : List (Expr D) → M D (List (Expr D))
  | [] => pure []
  | a :: l => do
    let d ← E.diff x a
    let p ← E.prodCreate (d :: (before ++ l))
    let r ← diffProd x (before ++ [a]) l
    pure (p :: r)

/-- The diffWrtSymbol methods (numeric.cpp:98-101, symbol.cpp:118-121, constant.cpp:64-67,
undefined.cpp:46-49, sum.cpp:103-111, product.cpp:104-121, power.cpp:105-111, logarithm.cpp:107-110,
trigonometric.cpp:447-490). `x` is a symbol. -/
def diff (x : Expr D) : Expr D → M D (Expr D)
  | .num _ => pure zero
  | .sym s => pure (if isEqual (.sym s) x then one else zero)
  | .cst _ => pure zero
  | .undef => pure .undef
  | .sum l => do
    let r ← M.mapL (E.diff x) l
    E.sumCreate r
  | .prod l => do
    let r ← diffProd E x [] l
    E.sumCreate r
  | .pow b e => do
    let lg ← E.logCreate b
    let de ← E.diff x e
    let s1 ← E.prodCreate [lg, de]
    let o ← E.oneOver b
    let db ← E.diff x b
    let s2 ← E.prodCreate [e, o, db]
    let s ← E.sumCreate [s1, s2]
    E.prodCreate [.pow b e, s]
  | .fn .log a => do
    let o ← E.oneOver a
    let d ← E.diff x a
    E.prodCreate [o, d]
  | .fn f a => diffTrig E x a (innerDiff E f a)
  | .atan2 y z => do
    let q ← atan2ArgEval E y z
    diffTrig E x q (do
      let q ← atan2ArgEval E y z
      let s ← square E q
      let t ← E.sumCreate [one, s]
      E.oneOver t)

/-- Base::diff (base.cpp:170-178). In Sum::diffWrtSymbol (sum.cpp:108) the operands are derived with
this function, too; there the argument is a symbol. -/
def diffTop (x e : Expr D) : M D (Expr D) := if x.isSymbol then E.diff x e else pure .undef

end Tsym
