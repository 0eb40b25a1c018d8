import Verif.PrimeFac

/-!
# Simplification of numeric powers (src/numpowersimpl.h, src/numpowersimpl.cpp)

`preFactor * base^exp` is rewritten by prime factorisation. The member functions of the class work
on the member `result`; here they are functions from a payload to a payload.
-/

namespace Tsym

/-- NumPowerSimpl::Payload (numpowersimpl.h:32-36). -/
structure Payload (D : Type) where
  base : Number D
  exp : Number D
  preFactor : Number D
  deriving DecidableEq, Repr

namespace NumPowerSimpl

variable {D : Type} [Flt D]

/-- isInputValid (numpowersimpl.cpp:23-26). -/
def isInputValid (p : Payload D) : Bool := !(p.base.lt 0 && !p.exp.isInt)

/-- computeNonRational (numpowersimpl.cpp:53-62). -/
def computeNonRational (p : Payload D) : Except Err (Payload D) := do
  let b ← p.base.toThe p.exp
  pure ⟨b.mul p.preFactor, 1, 1⟩

/-- shiftNegBase (numpowersimpl.cpp:104-112). -/
def shiftNegBase (p : Payload D) : Except Err (Payload D) := do
  let extraction ← (Number.neg 1 : Number D).toThe p.exp
  pure ⟨p.base.mul (Number.neg 1), p.exp, p.preFactor.mul extraction⟩

/-- areValuesSmallEnough (numpowersimpl.cpp:139-147). -/
def areValuesSmallEnough (max : ℤ) (p : Payload D) : Bool :=
  if (p.base.numerator.natAbs : ℤ) > max ∨ p.base.denominator > max then false
  else if (p.preFactor.numerator.natAbs : ℤ) > max ∨ p.preFactor.denominator > max then false
  else true

/-- adjustExpGreaterThanOne (numpowersimpl.cpp:211-223). Integer division truncates. -/
def adjustExpGreaterThanOne (p : Payload D) : Except Err (Payload D) :=
  if Number.lt 1 p.exp || p.exp.lt (Number.neg 1) then do
    let expFloor : Number D := .rat (p.exp.numerator.tdiv p.exp.denominator : ℤ)
    let baseExtraction ← p.base.toThe expFloor
    pure ⟨p.base, p.exp.sub expFloor, p.preFactor.mul baseExtraction⟩
  else pure p

/-- defPreFacPrimesInPower (numpowersimpl.cpp:169-184): the primes of the prefactor moved below the
power, and the new prefactor. -/
def defPreFacPrimesInPower (p : Payload D) : Except Err (PrimeFac × Payload D) := do
  let ex ← Number.ofInts 1 p.exp.numerator
  let preFacInPower ← p.preFactor.toThe ex
  if preFacInPower.isDouble then pure (PrimeFac.one, p)
  else do
    let pf ← PrimeFac.ofNumber preFacInPower
    let pf ← pf.toThe p.exp.denominator
    pure (pf, ⟨p.base, p.exp, 1⟩)

/-- primesToComponents (numpowersimpl.cpp:200-209). -/
def primesToComponents (nb : PrimeFac) (p : Payload D) : Except Err (Payload D) := do
  let b : Number D ← nb.eval
  if b.eqv 1 then
    if p.exp.eqv 1 then pure ⟨p.preFactor, p.exp, b⟩ else .error .assert
  else pure ⟨b, p.exp, p.preFactor⟩

/-- Ghost check, not part of the code: does the number of equal primes found by `getEqualCount`
apply to all primes? `collectToNewExp` takes that for granted. -/
def collectExact (nb : PrimeFac) : Bool :=
  match nb.equalCount with
  | .ok c => c ≤ 1 || (PrimeFac.dup c c (PrimeFac.unique nb.num) == nb.num &&
      PrimeFac.dup c c (PrimeFac.unique nb.den) == nb.den)
  | .error _ => true

/-- cancel (numpowersimpl.cpp:149-162) with defNewBasePrimes (164-167), cancelAndExtract (186-193)
and collectPrimesInPower (195-198). The Boolean is the ghost check. -/
def cancel (p : Payload D) : Except Err (Payload D × Bool) := do
  let nb ← PrimeFac.ofNumber p.base
  let (pf, p) ← defPreFacPrimesInPower p
  let nb := nb.multiply pf
  let (pf, nb) ← nb.extract p.exp
  let pfNum ← pf.eval
  let p : Payload D := ⟨p.base, p.exp, p.preFactor.mul pfNum⟩
  let ghost := collectExact nb
  let (nb, newExp) ← nb.collectToNewExp p.exp
  let p ← primesToComponents nb ⟨p.base, newExp, p.preFactor⟩
  let p ← adjustExpGreaterThanOne p
  pure (p, ghost)

/-- shiftPreFacSignBack (numpowersimpl.cpp:234-243). -/
def shiftPreFacSignBack (isPreFacNegative : Bool) (p : Payload D) : Payload D :=
  if !isPreFacNegative then p
  else if p.exp.eqv 1 then ⟨p.base.mul (Number.neg 1), p.exp, p.preFactor⟩
  else ⟨p.base, p.exp, p.preFactor.mul (Number.neg 1)⟩

/-- computeAllPos (numpowersimpl.cpp:129-137). -/
def computeAllPos (max : ℤ) (isPreFacNegative : Bool) (p : Payload D) :
    Except Err (Payload D × Bool) := do
  let (p, g) ←
    (if areValuesSmallEnough max p then cancel p
    else if p.exp.isInt then do pure (← adjustExpGreaterThanOne p, true)
    else pure (p, true))
  pure (shiftPreFacSignBack isPreFacNegative p, g)

/-- computePosExpPosBase and shiftNegPreFac (numpowersimpl.cpp:114-127). -/
def computePosExpPosBase (max : ℤ) (p : Payload D) : Except Err (Payload D × Bool) :=
  if p.preFactor.lt 0 then
    computeAllPos max true ⟨p.base, p.exp, p.preFactor.mul (Number.neg 1)⟩
  else computeAllPos max false p

/-- computePosExp (numpowersimpl.cpp:96-102). -/
def computePosExp (max : ℤ) (p : Payload D) : Except Err (Payload D × Bool) := do
  let p ← (if p.base.lt 0 then shiftNegBase p else pure p)
  computePosExpPosBase max p

/-- computeNegExp (numpowersimpl.cpp:78-94). -/
def computeNegExp (max : ℤ) (p : Payload D) : Except Err (Payload D × Bool) := do
  let pre ← p.preFactor.toThe (Number.neg 1)
  let (p, g) ← computePosExp max ⟨p.base, p.exp.mul (Number.neg 1), pre⟩
  let pre ← p.preFactor.toThe (Number.neg 1)
  let p : Payload D := ⟨p.base, p.exp, pre⟩
  if p.base.eqv 0 then pure (p, g)
  else if p.exp.eqv 1 then do
    let b ← p.base.toThe (Number.neg 1)
    pure (⟨b, p.exp, p.preFactor⟩, g)
  else pure (⟨p.base, p.exp.mul (Number.neg 1), p.preFactor⟩, g)

/-- adjustExpSignAndBase (numpowersimpl.cpp:225-232). -/
def adjustExpSignAndBase (p : Payload D) : Except Err (Payload D) :=
  if (p.base.numerator == 1 && !p.exp.eqv 1) || (p.exp.lt 0 && p.base.isFraction) then do
    let b ← p.base.toThe (Number.neg 1)
    pure ⟨b, p.exp.mul (Number.neg 1), p.preFactor⟩
  else pure p

/-- computeRational and computeNegOrPosExp (numpowersimpl.cpp:64-76). -/
def computeRational (max : ℤ) (p : Payload D) : Except Err (Payload D × Bool) := do
  let (p, g) ← (if p.exp.lt 0 then computeNegExp max p else computePosExp max p)
  pure (← adjustExpSignAndBase p, g)

/-- compute (numpowersimpl.cpp:43-51). For invalid input the payload stays as it is (an error is
logged). The Boolean is ghost data: `false` if a collection of primes was not exact. -/
def compute (max : ℤ) (p : Payload D) : Except Err (Payload D × Bool) :=
  if !isInputValid p then pure (p, true)
  else if p.base.isDouble || p.exp.isDouble then do pure (← computeNonRational p, true)
  else computeRational max p

end NumPowerSimpl

end Tsym
