import Verif.Eng

set_option autoImplicit false

/-!
# Sums (src/sumsimpl.cpp, Sum::create of src/sum.cpp) and the terms of an expression

The cache of simplifySum (sumsimpl.cpp:238-249) is not modelled here, see Verif/Cache.lean.
-/

namespace Tsym

open Expr

variable {D : Type} [Flt D] (E : Eng D)

/-- getConstElements (baseptrlistfct.cpp:76-83). -/
def constElements (l : List (Expr D)) : List (Expr D) := l.filter isConst

/-- getNonConstElements (baseptrlistfct.cpp:85-93). -/
def nonConstElements (l : List (Expr D)) : List (Expr D) := l.filter fun e => !isConst e

/-- numericTerm (base.cpp:61-64, numeric.cpp:133-136, product.cpp:158-163). `ops.front()` of a product
without operands is undefined behaviour. -/
def numericTerm : Expr D → M D (Expr D)
  | .num n => pure (.num n)
  | .prod [] => M.err .ub
  | .prod (a :: _) => pure (if a.isNumeric then a else one)
  | _ => pure one

/-- nonNumericTerm (base.cpp:66-69, numeric.cpp:138-141, product.cpp:165-173). -/
def nonNumericTerm : Expr D → M D (Expr D)
  | .num _ => pure one
  | .prod [] => M.err .ub
  | .prod (a :: l) => if a.isNumeric then E.prodCreate l else pure (.prod (a :: l))
  | e => pure e

/-- constTerm (base.cpp:71-74, numeric.cpp:143-146, function.cpp:32-35, product.cpp:175-180). -/
def constTerm : Expr D → M D (Expr D)
  | .num n => pure (.num n)
  | .prod l => if (constElements l).isEmpty then pure one else E.prodCreate (constElements l)
  | e => pure (if e.isConst then e else one)

/-- nonConstTerm (base.cpp:76-79, numeric.cpp:148-151, function.cpp:37-40, product.cpp:182-187). -/
def nonConstTerm : Expr D → M D (Expr D)
  | .num _ => pure one
  | .prod l => if (nonConstElements l).isEmpty then pure one else E.prodCreate (nonConstElements l)
  | e => pure (if e.isConst then one else e)

/-- haveEqualNonConstTerms (sumsimpl.cpp:134-143). -/
def haveEqualNonConstTerms (s1 s2 : Expr D) : M D Bool := do
  let n1 ← nonConstTerm E s1
  let n2 ← nonConstTerm E s2
  pure (if n1.isOne || n2.isOne then false else isEqual n1 n2)

/-- The end of simplTwoSummandsWithoutSum and simplEqualNonConstTerms: the summands in order
(sumsimpl.cpp:118-121, 155-158). -/
def ordered (s1 s2 : Expr D) : List (Expr D) := if doPermute s1 s2 then [s2, s1] else [s1, s2]

/-- simplEqualNonConstTerms (sumsimpl.cpp:145-159). -/
def simplEqualNonConstTerms (s1 s2 : Expr D) : M D (List (Expr D)) := do
  let c1 ← constTerm E s1
  let c2 ← constTerm E s2
  let sum ← E.sumCreate [c1, c2]
  if !sum.isSum then do
    let n ← nonConstTerm E s1
    let p ← E.prodCreate [sum, n]
    pure [p]
  else pure (ordered s1 s2)

/-- haveEqualNonNumericTerms (sumsimpl.cpp:161-168). -/
def haveEqualNonNumericTerms (s1 s2 : Expr D) : M D Bool := do
  let n1 ← nonNumericTerm E s1
  let n2 ← nonNumericTerm E s2
  pure (isEqual n1 n2)

/-- simplEqualNonNumericTerms (sumsimpl.cpp:170-180). -/
def simplEqualNonNumericTerms (s1 s2 : Expr D) : M D (List (Expr D)) := do
  let c1 ← numericTerm s1
  let c2 ← numericTerm s2
  let n ← E.sumCreate [c1, c2]
  let t ← nonNumericTerm E s1
  let p ← E.prodCreate [n, t]
  pure (if p.isZero then [] else [p])

/-- `numericEval() == n` for a number (an empty optional is not equal to a number). -/
def evalsTo (e : Expr D) (n : Number D) : M D Bool := do
  let x ← M.lift (numEval e)
  match x with
  | some y => pure (y.eqv n)
  | none => pure false

/-- areSinAndCos (sumsimpl.cpp:205-214). -/
def areSinAndCos : Expr D → Expr D → Bool
  | .fn .sin _, .fn .cos _ => true
  | .fn .cos _, .fn .sin _ => true
  | _, _ => false

/-- areSinAndCosSquare (sumsimpl.cpp:195-203). -/
def areSinAndCosSquare (s1 s2 : Expr D) : M D Bool :=
  if !s1.isPower || !s2.isPower then pure false
  else do
    let b1 ← evalsTo s1.exp 2
    if b1 then do
      let b2 ← evalsTo s2.exp 2
      pure (b2 && areSinAndCos s1.base s2.base)
    else pure false

/-- haveEqualFirstOperands (sumsimpl.cpp:216-222). Called for powers of sine and cosine only. -/
def haveEqualFirstOperands (p1 p2 : Expr D) : M D Bool :=
  match p1.base.operands, p2.base.operands with
  | a1 :: _, a2 :: _ =>
    if isEqual a1 a2 then pure true
    else do
      let n1 ← E.normal a1
      let n2 ← E.normal a2
      pure (isEqual n1 n2)
  | _, _ => M.err .ub

/-- haveContractableSinCos (sumsimpl.cpp:182-193). -/
def haveContractableSinCos (s1 s2 : Expr D) : M D Bool := do
  let n1 ← nonConstTerm E s1
  let n2 ← nonConstTerm E s2
  let c1 ← constTerm E s1
  let c2 ← constTerm E s2
  if isEqual c1 c2 then do
    let b ← areSinAndCosSquare n1 n2
    if b then haveEqualFirstOperands E n1 n2 else pure false
  else pure false

/-- simplTwoNumerics (sumsimpl.cpp:124-132). -/
def addNumerics (a b : Number D) : List (Expr D) :=
  if (a.add b).eqv 0 then [] else [.num (a.add b)]

/-- The part of simplTwoSummandsWithoutSum after the test for two numbers
(sumsimpl.cpp:108-121). The conditions of a test matter only if it succeeds. -/
def simplTwoOther (s1 s2 : Expr D) : M D (List (Expr D)) := do
  let b ← M.whenTrue (haveEqualNonConstTerms E s1 s2)
  if b then simplEqualNonConstTerms E s1 s2
  else do
    let b ← M.whenTrue (haveEqualNonNumericTerms E s1 s2)
    if b then simplEqualNonNumericTerms E s1 s2
    else do
      let b ← M.whenTrue (haveContractableSinCos E s1 s2)
      if b then do
        let c ← constTerm E s1
        pure [c]
      else pure (ordered s1 s2)

/-- simplTwoSummandsWithoutSum (sumsimpl.cpp:100-122). -/
def simplTwoSummandsWithoutSum (s1 s2 : Expr D) : M D (List (Expr D)) :=
  if s1.isZero then pure [s2]
  else if s2.isZero then pure [s1]
  else match s1, s2 with
    | .num a, .num b => pure (addNumerics a b)
    | _, _ => simplTwoOther E s1 s2

/-- `isSum(*s) ? s->operands() : BasePtrList{s}` (sumsimpl.cpp:58-59). -/
def summands : Expr D → List (Expr D)
  | .sum l => l
  | e => [e]

/-- simplTwoSummands (sumsimpl.cpp:48-62). -/
def simplTwoSummands (s1 s2 : Expr D) : M D (List (Expr D)) :=
  if s1.isSum || s2.isSum then E.mergeSum (summands s1) (summands s2)
  else simplTwoSummandsWithoutSum E s1 s2

/-- merge and mergeNonEmpty (sumsimpl.cpp:64-98). The last case is the error exit, which loses the
operands. -/
def mergeSum : List (Expr D) → List (Expr D) → M D (List (Expr D))
  | [], l2 => pure l2
  | p1 :: pRest, [] => pure (p1 :: pRest)
  | p1 :: pRest, q1 :: qRest => do
    let res ← simplTwoSummands E p1 q1
    match res with
    | [] => E.mergeSum pRest qRest
    | [r] => if r.isZero then E.mergeSum pRest qRest else do
      let m ← E.mergeSum pRest qRest
      pure (r :: m)
    | r1 :: r2 :: rs =>
      if areEqual (r1 :: r2 :: rs) [p1, q1] then do
        let m ← E.mergeSum pRest (q1 :: qRest)
        pure (p1 :: m)
      else if areEqual (r1 :: r2 :: rs) [q1, p1] then do
        let m ← E.mergeSum (p1 :: pRest) qRest
        pure (q1 :: m)
      else do
        M.log .fail
        pure []

/-- simplWithoutCache and simplNSummands (sumsimpl.cpp:33-39, 224-234). `front()` of an empty list is
undefined behaviour. A list with one element never gets here (sum.cpp:28-29); simplNSummands would
call itself with an empty list. -/
def simplSum : List (Expr D) → M D (List (Expr D))
  | [] => M.err .ub
  | [s1, s2] => simplTwoSummands E s1 s2
  | u1 :: rest => do
    let r ← E.simplSum rest
    E.mergeSum (summands u1) r

/-- Sum::create and createSimplifiedSum (sum.cpp:24-44). -/
def sumCreate (l : List (Expr D)) : M D (Expr D) :=
  if l.any isUndefined then pure .undef
  else match l with
    | [s] => pure s
    | l => do
      let res ← E.sumSimplify l
      match res with
      | [] => pure zero
      | [r] => pure r
      | r => pure (.sum r)

end Tsym
