import Verif.Expand

set_option autoImplicit false

/-!
# Polynomials (src/polyinfo.cpp, src/poly.cpp, src/gcd.cpp, src/subresultantgcd.cpp)
-/

namespace Tsym

open Expr

variable {D : Type} [Flt D] (E : Eng D)

/-- `fitsInto<int>` for integers. -/
def fitsInt (n : ℤ) : Bool := decide (intMin ≤ n ∧ n ≤ intMax)

mutual
/-- hasValidType and isValidPower (polyinfo.cpp:57-79). -/
def hasValidType : Expr D → Except Err Bool
  | .sym _ => pure true
  | .num n => pure n.isRational
  | .pow b e => do
    let x ← numEval e
    let v ← hasValidType b
    match x with
    | some n => pure (v && (n.isInt && fitsInt n.numerator && Number.lt 0 n))
    | none => pure false
  | .sum l => hasValidOperands l
  | .prod l => hasValidOperands l
  | _ => pure false
/-- hasValidOperands (polyinfo.cpp:81-87). -/
def hasValidOperands : List (Expr D) → Except Err Bool
  | [] => pure true
  | a :: l => do
    let v ← hasValidType a
    if v then hasValidOperands l else pure false
end

/-- poly::isInputValid (polyinfo.cpp:91-97). -/
def isPolyInputValid (u v : Expr D) : Except Err Bool :=
  if u.isZero && v.isZero then pure false
  else do
    let a ← hasValidType u
    if a then hasValidType v else pure false

/-- addIfNotAlreadyStored (polyinfo.cpp:115-122). -/
def addIfNotAlreadyStored (l : List (Expr D)) (s : Expr D) : List (Expr D) :=
  if l.any (fun o => isEqual s o) then l else l ++ [s]

mutual
/-- addSymbols and addSymbolsNonScalar (polyinfo.cpp:105-132). -/
def addSymbols (acc : List (Expr D)) : Expr D → List (Expr D)
  | .sym s => addIfNotAlreadyStored acc (.sym s)
  | .sum l => addSymbolsList acc l
  | .prod l => addSymbolsList acc l
  | .pow b _ => addSymbols acc b
  | _ => acc
/-- addSymbols for lists (polyinfo.cpp:134-140). -/
def addSymbolsList (acc : List (Expr D)) : List (Expr D) → List (Expr D)
  | [] => acc
  | a :: l => addSymbolsList (addSymbols acc a) l
end

/-- The minimum of the degrees in ComparePolyVariables (polyinfo.cpp:36-37). -/
def minDegreeOf (u v x : Expr D) : Except Err ℤ := do
  let a ← degree x u
  let b ← degree x v
  pure (min a b)

/-- ComparePolyVariables (polyinfo.cpp:34-47), given the degrees. -/
def comparePolyVariables (deg : Expr D → ℤ) (l r : Expr D) : Bool :=
  if deg l ≠ 0 ∧ deg r ≠ 0 then decide (deg l < deg r)
  else if deg l = 0 ∧ deg r = 0 then Name.lt l.name r.name
  else decide (deg l ≠ 0)

/-- Compute the degrees for all variables. In the code this happens in the comparison; an exception
would leave the sorting of two or more elements. -/
def checkDegrees (u v : Expr D) : List (Expr D) → Except Err Unit
  | [] => pure ()
  | x :: l => do
    let _ ← minDegreeOf u v x
    checkDegrees u v l

/-- The degree, where an exception has been excluded before. -/
def degreeOr (u v x : Expr D) : ℤ :=
  match minDegreeOf u v x with
  | .ok n => n
  | .error _ => 0

/-- poly::listOfSymbols (polyinfo.cpp:144-154). -/
def listOfSymbols (u v : Expr D) : M D (List (Expr D)) := do
  let l := addSymbols (addSymbols [] u) v
  let _ ← (if l.length < 2 then pure () else M.lift (checkDegrees u v l))
  pure (E.cfg.sort (comparePolyVariables (degreeOr u v)) l)

/-- divideEmptyList (poly.cpp:28-36). -/
def divideEmptyList (u v : Expr D) : M D (Expr D × Expr D) := do
  let q ← M.capture (do
    let o ← E.oneOver v
    E.prodCreate [u, o])
  let n ← M.lift (numEval q.1)
  match n with
  | some x =>
    if x.isRational then do
      M.emit q.2
      M.log (.nz v)
      pure (q.1, zero)
    else pure (zero, u)
  | none => pure (zero, u)

/-- One round of the loop in divideNonEmpty (poly.cpp:49-67); the state is quotient, remainder and
the degree m. -/
def divideStep (v x : Expr D) (n : ℤ) (R : List (Expr D)) (s : Expr D × Expr D × ℤ) :
    M D ((Expr D × Expr D × ℤ) ⊕ (Expr D × Expr D)) :=
  if s.2.2 < n then do
    let q ← E.expand s.1
    pure (.inr (q, s.2.1))
  else if s.2.2 < 0 ∨ n < 0 then M.err .assert
  else do
    let lr ← leadingCoeff E x s.2.1
    let lv ← leadingCoeff E x v
    let d ← E.divideL lr lv R
    if !d.2.isZero then do
      let q ← E.expand s.1
      pure (.inr (q, s.2.1))
    else do
      let tmp ← E.powCreate x (.int (s.2.2 - n))
      let ct ← E.prodCreate [d.1, tmp]
      let quotient ← E.sumCreate [s.1, ct]
      let m ← E.prodCreate [mOne, d.1, v, tmp]
      let r ← E.sumCreate [s.2.1, m]
      let remainder ← E.expand r
      if remainder.isZero then do
        let q ← E.expand quotient
        pure (.inr (q, remainder))
      else do
        let k ← M.lift (degree x remainder)
        pure (.inl (quotient, remainder, k))

/-- divideNonEmpty (poly.cpp:38-70). -/
def divideNonEmpty (u v x : Expr D) (R : List (Expr D)) : M D (Expr D × Expr D) := do
  let m ← M.lift (degree x u)
  let n ← M.lift (degree x v)
  if !x.isSymbol then M.err .assert
  else M.loop E.steps (divideStep E v x n R) (zero, u, m)

/-- poly::divide with a list of symbols (poly.cpp:225-242). -/
def divideL (u v : Expr D) (L : List (Expr D)) : M D (Expr D × Expr D) := do
  let ok ← M.lift (isPolyInputValid u v)
  if !ok then pure (.undef, .undef)
  else match L with
    | [] => divideEmptyList E u v
    | x :: R =>
      if isEqual v u then pure (one, zero)
      else if u.isZero then pure (zero, zero)
      else divideNonEmpty E u v x R

/-- poly::divide (poly.cpp:212-223) without the cache. -/
def polyDivide (u v : Expr D) : M D (Expr D × Expr D) := do
  let L ← listOfSymbols E u v
  E.divideL u v L

/-- One round of the loop in pseudoDivideChecked (poly.cpp:94-109); the state is quotient, remainder,
the degree m, and sigma. -/
def pseudoDivideStep (v x lv : Expr D) (n : ℤ) (computeQuotient : Bool)
    (s : Expr D × Expr D × ℤ × ℤ) :
    M D ((Expr D × Expr D × ℤ × ℤ) ⊕ (Expr D × Expr D × ℤ)) :=
  if s.2.2.1 < n then pure (.inr (s.1, s.2.1, s.2.2.2))
  else do
    let lr ← E.coeff x s.2.2.1 s.2.1
    let p ← E.powCreate x (.int (s.2.2.1 - n))
    let tmp ← E.prodCreate [lr, p]
    let quotient ← (if computeQuotient then do
        let q ← E.prodCreate [lv, s.1]
        E.sumCreate [q, tmp]
      else pure s.1)
    let a ← E.prodCreate [lv, s.2.1]
    let b ← minus2 E v tmp
    let c ← E.sumCreate [a, b]
    let remainder ← E.expand c
    if remainder.isZero then pure (.inr (quotient, remainder, s.2.2.2))
    else do
      let k ← M.lift (degree x remainder)
      pure (.inl (quotient, remainder, k, s.2.2.2 + 1))

/-- pseudoDivideChecked (poly.cpp:82-117). -/
def pseudoDivideChecked (u v x : Expr D) (computeQuotient : Bool) : M D (Expr D × Expr D) := do
  let lv ← leadingCoeff E x v
  let n ← M.lift (degree x v)
  let ue ← E.expand u
  let m ← M.lift (degree x u)
  let ve ← M.silent (E.expand v)
  if ve.isZero then M.err .assert
  else do
    let r ← M.loop E.steps (pseudoDivideStep E v x lv n computeQuotient) (zero, ue, m, 0)
    let tmp ← E.powCreate lv (.int (max (m - n + 1) 0 - r.2.2))
    let a ← E.prodCreate [tmp, r.2.1]
    let remainder ← E.expand a
    let quotient ← (if computeQuotient then do
        let b ← E.prodCreate [tmp, r.1]
        E.expand b
      else pure zero)
    pure (quotient, remainder)

/-- pseudoDivideImpl (poly.cpp:72-80); with `true`, this is poly::pseudoDivide (poly.cpp:244-248). -/
def pseudoDivideImpl (u v x : Expr D) (computeQuotient : Bool) : M D (Expr D × Expr D) := do
  let ok ← M.lift (isPolyInputValid u v)
  if ok then pseudoDivideChecked E u v x computeQuotient else pure (.undef, .undef)

/-- poly::pseudoRemainder (poly.cpp:250-253). -/
def pseudoRemainder (u v x : Expr D) : M D (Expr D) := do
  let r ← pseudoDivideImpl E u v x false
  pure r.2

mutual
/-- poly::minDegree (poly.cpp:174-208, 301-318). -/
def minDegree (x : Expr D) : Expr D → Except Err ℤ
  | .num _ => pure 0
  | .pow b e =>
    if isEqual (.pow b e) x then pure 1
    else do
      let n ← numEval e
      match n with
      | none => .error .ub
      | some k =>
        if !fitsInt k.numerator then pure 0
        else if isEqual b x then pure k.numerator
        else do
          let d ← minDegree x b
          pure (k.numerator * d)
  | .sum l =>
    if isEqual (.sum l) x then pure 1
    else match l with
      | [] => .error .ub
      | a :: l => do
        let d ← minDegree x a
        minDegreeMin x d l
  | .prod l => if isEqual (.prod l) x then pure 1 else minDegreeAdd x 0 l
  | e => pure (if isEqual e x then 1 else 0)
/-- The minimum in minDegreeOfSum (poly.cpp:192-200). -/
def minDegreeMin (x : Expr D) (acc : ℤ) : List (Expr D) → Except Err ℤ
  | [] => pure acc
  | a :: l => do
    let d ← minDegree x a
    minDegreeMin x (min acc d) l
/-- The sum in minDegreeOfProduct (poly.cpp:202-208). -/
def minDegreeAdd (x : Expr D) (acc : ℤ) : List (Expr D) → Except Err ℤ
  | [] => pure acc
  | a :: l => do
    let d ← minDegree x a
    minDegreeAdd x (acc + d) l
end

/-- The loop of integerGcd; the second number gets smaller in every round. -/
def integerGcdAux : Nat → ℤ → ℤ → ℤ
  | 0, u, _ => u
  | n + 1, u, v => if v = 0 then u else integerGcdAux n v (u.tmod v)

/-- Gcd::integerGcd (gcd.cpp:68-74). `%` truncates. -/
def integerGcd (u v : ℤ) : ℤ := integerGcdAux (v.natAbs + 1) u v

/-- Gcd::computeNumerics (gcd.cpp:54-66). -/
def computeNumerics (u v : Number D) : M D (Expr D) :=
  if !(u.isRational && v.isRational) then M.err .assert
  else if u.isInt && v.isInt then pure (.int (integerGcd u.numerator v.numerator))
  else pure one

/-- Gcd::haveCommonSymbol (gcd.cpp:76-83). -/
def haveCommonSymbol (u v : Expr D) (L : List (Expr D)) : Bool := L.any fun x => has x u && has x v

/-- The numeric term (product.cpp:158-163 and the numericTerm methods of the other classes), as a
number: gcd.cpp:119. -/
def numericFactor : Expr D → Except Err (Number D)
  | .num n => pure n
  | .prod (.num n :: _) => pure n
  | .prod [] => .error .ub
  | _ => pure 1

mutual
/-- Gcd::integerContent for one polynomial (gcd.cpp:112-122). -/
def integerContent : Expr D → Except Err (Number D)
  | .sum l => do
    let r ← integerContentOfSum 0 l
    pure (.rat r)
  | e => do
    let n ← numericFactor e
    pure (if n.abs.isInt then n.abs else 1)
/-- Gcd::integerContentOfSum (gcd.cpp:124-138). -/
def integerContentOfSum (acc : ℤ) : List (Expr D) → Except Err ℤ
  | [] => pure acc
  | a :: l => do
    let c ← integerContent a
    if !c.isInt then .error .assert
    else integerContentOfSum (integerGcd acc c.numerator) l
end

/-- Gcd::integerContent for two polynomials (gcd.cpp:98-110). -/
def integerContent2 (u v : Expr D) : M D (Expr D) := do
  let a ← M.lift (integerContent u)
  let b ← M.lift (integerContent v)
  if !a.isInt || !b.isInt then pure one
  else pure (.int (integerGcd a.numerator b.numerator))

/-- Gcd::normalizationFactor (gcd.cpp:150-172); the list of symbols in reversed order. For an empty
list and an argument that is not a number the code calls itself forever. -/
def normalizationFactor : List (Expr D) → Expr D → M D ℤ
  | [], arg => match arg with
    | .num n => M.lift n.sign
    | _ => M.err .loop
  | x :: L, arg => do
    let c ← leadingCoeff E x arg
    match c with
    | .num n => M.lift n.sign
    | _ => normalizationFactor L c

/-- Gcd::normalize (gcd.cpp:140-148). -/
def normalizeGcd (r : Expr D) (L : List (Expr D)) : M D (Expr D) := do
  let f ← normalizationFactor E L.reverse r
  E.prodCreate [.int f, r]

/-- Gcd::compute (gcd.cpp:16-24): poly::gcd (poly.cpp:268-283) without the cache. -/
def polyGcd (u v : Expr D) : M D (Expr D) := do
  let ok ← M.lift (isPolyInputValid u v)
  if ok then do
    let L ← listOfSymbols E u v
    E.gcdL u v L
  else pure .undef

/-- nonTrivialContent (poly.cpp:162-172): the loop over `k` exponents from `i`. -/
def contentLoop (e x : Expr D) : Nat → ℤ → Expr D → M D (Expr D)
  | 0, _, acc => pure acc
  | k + 1, i, acc => do
    let c ← E.coeff x i e
    let g ← polyGcd E c acc
    contentLoop e x k (i + 1) g

/-- poly::content (poly.cpp:285-299). -/
def polyContent (p x : Expr D) : M D (Expr D) := do
  let e ← E.expand p
  match e with
  | .num n => pure (.num n.abs)
  | _ => do
    let lo ← M.lift (minDegree x e)
    let hi ← M.lift (degree x e)
    contentLoop E e x (hi - lo + 1).toNat lo zero

/-- The state of the loop in SubresultantGcd::gcd (subresultantgcd.cpp:29-36). -/
structure SubresState (D : Type) where
  U : Expr D
  V : Expr D
  delta : ℤ
  beta : Expr D
  psi : Expr D
  first : Bool

/-- One round of the loop (subresultantgcd.cpp:38-64): the last U, or nothing for an undefined
remainder. -/
def subresStep (x : Expr D) (L R : List (Expr D)) (s : SubresState D) :
    M D (SubresState D ⊕ Option (Expr D)) := do
  let remainder ← pseudoRemainder E s.U s.V x
  if remainder.isZero then pure (.inr (some s.V))
  else if remainder.isUndefined then pure (.inr none)
  else do
    let t ← (if s.first then pure (s.delta, s.psi, s.beta) else do
      let du ← M.lift (degree x s.U)
      let dv ← M.lift (degree x s.V)
      let delta := du - dv + 1
      let lu ← leadingCoeff E x s.U
      let tmp ← E.minus lu
      let p1 ← E.powCreate tmp (.int (s.delta - 1))
      let p1 ← E.expand p1
      let p2 ← E.powCreate s.psi (.int (s.delta - 2))
      let p2 ← E.expand p2
      let q ← E.divideL p1 p2 R
      let pp ← E.powCreate q.1 (.int (delta - 1))
      let b ← E.prodCreate [tmp, pp]
      let beta ← E.expand b
      pure (delta, q.1, beta))
    let q ← E.divideL remainder t.2.2 L
    pure (.inl ⟨s.V, q.1, t.1, t.2.2, t.2.1, false⟩)

/-- SubresultantGcd::gcd (subresultantgcd.cpp:22-71). -/
def subresGcd (u v x : Expr D) (R : List (Expr D)) : M D (Expr D) := do
  let uc ← polyContent E u x
  let vc ← polyContent E v x
  let d ← E.gcdL uc vc R
  let U ← E.divideL u uc (x :: R)
  let V ← E.divideL v vc (x :: R)
  let lu ← leadingCoeff E x U.1
  let lv ← leadingCoeff E x V.1
  let g ← E.gcdL lu lv R
  let du ← M.lift (degree x U.1)
  let dv ← M.lift (degree x V.1)
  let beta ← E.powCreate mOne (.int (du - dv + 1))
  let r ← M.loop E.steps (subresStep E x (x :: R) R) ⟨U.1, V.1, du - dv + 1, beta, mOne, true⟩
  match r with
  | none => pure one
  | some U => do
    let l ← leadingCoeff E x U
    let t ← E.divideL l g R
    let t ← E.divideL U t.1 (x :: R)
    let c ← polyContent E t.1 x
    let t ← E.divideL t.1 c (x :: R)
    let p ← E.prodCreate [d, t.1]
    E.expand p

/-- SubresultantGcd::gcdAlgo (subresultantgcd.cpp:11-20). -/
def gcdAlgo (u v : Expr D) : List (Expr D) → M D (Expr D)
  | [] => M.err .ub
  | x :: R => do
    let du ← M.lift (degree x u)
    let dv ← M.lift (degree x v)
    if du < dv then subresGcd E v u x R else subresGcd E u v x R

/-- Gcd::gcdViaAlgo (gcd.cpp:85-96). -/
def gcdViaAlgo (u v : Expr D) (L : List (Expr D)) : M D (Expr D) := do
  let c ← integerContent2 u v
  let f ← E.oneOver c
  let ur ← E.prodCreate [f, u]
  let vr ← E.prodCreate [f, v]
  let g ← gcdAlgo E ur vr L
  E.prodCreate [c, g]

/-- The middle part of Gcd::compute with a list of symbols (gcd.cpp:34-49): nothing stands for the
early exit. -/
def gcdRaw (u v ue ve : Expr D) (L : List (Expr D)) : M D (Option (Expr D)) :=
  if ue.isOne || ve.isOne then pure (some one)
  else if ue.isZero && ve.isZero then pure none
  else if ue.isZero then pure (some ve)
  else if ve.isZero then pure (some ue)
  else if isEqual ue ve then pure (some ue)
  else match ue, ve with
    | .num a, .num b => do
      let g ← computeNumerics a b
      pure (some g)
    | _, _ =>
      if !haveCommonSymbol u v L then do
        let c ← integerContent2 u v
        pure (some c)
      else do
        let g ← gcdViaAlgo E ue ve L
        pure (some g)

/-- Gcd::compute with a list of symbols (gcd.cpp:26-52), with the algorithm of class SubresultantGcd,
which is the default (poly.cpp:155-160). -/
def gcdL (u v : Expr D) (L : List (Expr D)) : M D (Expr D) := do
  let ue ← E.expand u
  let ve ← E.expand v
  if L.isEmpty && !(ue.isNumeric && ve.isNumeric) then M.err .assert
  else do
    let r ← gcdRaw E u v ue ve L
    match r with
    | none => pure .undef
    | some g => normalizeGcd E g L

end Tsym
