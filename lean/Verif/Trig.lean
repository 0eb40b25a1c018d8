import Verif.NumTrigo

set_option autoImplicit false

/-!
# Trigonometric functions (src/trigonometric.cpp)
-/

namespace Tsym

open Expr

variable {D : Type} [Flt D] (E : Eng D)

/-- square (trigonometric.cpp:21-24). -/
def square (e : Expr D) : M D (Expr D) := E.powCreate e two

/-- atan2ArgEval (trigonometric.cpp:33-36). -/
def atan2ArgEval (y x : Expr D) : M D (Expr D) := do
  let o ← E.oneOver x
  E.prodCreate [y, o]

/-- eval for fractions (fraction.cpp:12-15). -/
def evalFrac (f : Frac D) : M D (Expr D) := do
  let o ← E.oneOver f.denom
  E.prodCreate [f.num, o]

/-- haveAllNegativePrefactors (trigonometric.cpp:144-151). -/
def haveAllNegativePrefactors : List (Expr D) → M D Bool
  | [] => pure true
  | a :: l => do
    let c ← constTerm E a
    let p ← E.isPos c
    if p then pure false else haveAllNegativePrefactors l

/-- doesSymmetryApply (trigonometric.cpp:134-142). -/
def doesSymmetryApply : Expr D → M D Bool
  | .sum l => haveAllNegativePrefactors E l
  | .prod l => do
    let x ← E.expand (.prod l)
    let c ← constTerm E x
    E.isNeg c
  | _ => pure false

/-- createBySymmetry (trigonometric.cpp:153-163). -/
def createBySymmetry (f : Fn) (negativeArg : Expr D) : M D (Expr D) := do
  let positiveArg ← E.minus negativeArg
  let r ← E.trigCreate f positiveArg
  match f with
  | .cos => pure r
  | .acos => do
    let p ← timesPi E 1
    let m ← E.minus r
    E.sumCreate [p, m]
  | _ => E.minus r

/-- createNumericallyBySymmetry (trigonometric.cpp:179-192). -/
def createNumericallyBySymmetry (f : Fn) (arg : Expr D) : M D (Expr D) := do
  let positiveArg ← E.minus arg
  match f with
  | .cos => pure (.fn f positiveArg)
  | .acos => do
    let p ← timesPi E 1
    let m ← E.minus (.fn f positiveArg)
    E.sumCreate [p, m]
  | _ => E.minus (.fn f positiveArg)

/-- createNumerically (trigonometric.cpp:165-177). -/
def createNumerically (f : Fn) (arg : Expr D) : M D (Expr D) := do
  let r ← NumTrigo.simplify E f arg
  match r with
  | some x => pure x
  | none => do
    let n ← M.silent (E.isNeg arg)
    if n then createNumericallyBySymmetry E f arg else pure (.fn f arg)

/-- isOtherTheInverse (trigonometric.cpp:233-245). -/
def isOtherTheInverse : Fn → Fn → Bool
  | .sin, .asin => true
  | .cos, .acos => true
  | .tan, .atan => true
  | _, _ => false

/-- The first loop of shiftArgIntoRange (trigonometric.cpp:280-281). -/
def shiftBelow (upper arg : Expr D) : M D (Expr D) :=
  M.loop E.steps (fun a => do
    let n ← M.lift (numEval a)
    let t ← M.lift (numEval upper)
    if optGe n t then do
      let m ← timesPi E (-2)
      let s ← E.sumCreate [a, m]
      pure (.inl s)
    else pure (.inr a)) arg

/-- The second loop of shiftArgIntoRange (trigonometric.cpp:283-284). -/
def shiftAbove (lower arg : Expr D) : M D (Expr D) :=
  M.loop E.steps (fun a => do
    let n ← M.lift (numEval a)
    let t ← M.lift (numEval lower)
    M.logIf (n.isNone || t.isNone) .fail
    if optLt n t then do
      let m ← timesPi E 2
      let s ← E.sumCreate [a, m]
      pure (.inl s)
    else pure (.inr a)) arg

/-- `fail` if an expression cannot be evaluated numerically. -/
def needsEval (e : Expr D) : M D Unit := do
  let n ← M.lift (numEval e)
  M.logIf n.isNone .fail

/-- interval (trigonometric.cpp:259-265). -/
def interval (f : Fn) : M D (Expr D × Expr D) :=
  match f with
  | .acos => do
    let p ← timesPi E 1
    pure (zero, p)
  | _ => do
    let l ← timesPi E (-1 / 2)
    let u ← timesPi E (1 / 2)
    pure (l, u)

/-- shiftArgIntoRange (trigonometric.cpp:269-290). -/
def shiftArgIntoRange (f : Fn) (arg : Expr D) : M D (Expr D) := do
  let i ← interval E f
  let a ← shiftBelow E i.2 arg
  needsEval a
  let b ← shiftAbove E i.1 a
  needsEval b
  let n ← M.lift (numEval b)
  let t ← M.lift (numEval i.2)
  if optGe n t then do
    let endFactor : Expr D := match f with
      | .atan => mOne
      | _ => one
    let p ← E.prodCreate [endFactor, two, i.2]
    let m ← minus2 E endFactor b
    E.sumCreate [p, m]
  else pure b

/-- normalFrac (trigonometric.cpp:294-297). -/
def normalOfFrac (num denom : Expr D) : M D (Expr D) := do
  let f ← evalFrac E ⟨num, denom⟩
  E.normal f

/-- createFromTrigoNoInverse (trigonometric.cpp:301-326), for the argument `other` with the operands
`a1` and `a2` (the same one but for atan2). `g` is nothing for atan2. -/
def createFromTrigoNoInverse (f : Fn) (g : Option Fn) (other a1 a2 : Expr D) : M D (Expr D) := do
  let aux1 ← M.capture (do
    let s ← square E a1
    let m ← E.minus s
    let r ← E.sumCreate [one, m]
    E.sqrt r)
  let aux2 ← M.capture (do
    let s ← square E a1
    let r ← E.sumCreate [one, s]
    E.sqrt r)
  let aux3 ← M.capture (do
    let s1 ← square E a1
    let s2 ← square E a2
    let r ← E.sumCreate [s1, s2]
    E.sqrt r)
  match f, g with
  | .sin, some .acos => do
    M.emit aux1.2
    pure aux1.1
  | .cos, some .asin => do
    M.emit aux1.2
    pure aux1.1
  | .sin, some .atan => do
    M.emit aux2.2
    normalOfFrac E a1 aux2.1
  | .sin, none => do
    M.emit aux3.2
    normalOfFrac E a1 aux3.1
  | .cos, some .atan => do
    M.emit aux2.2
    normalOfFrac E one aux2.1
  | .cos, none => do
    M.emit aux3.2
    normalOfFrac E a2 aux3.1
  | .tan, some .asin => do
    M.emit aux1.2
    normalOfFrac E a1 aux1.1
  | .tan, some .acos => do
    M.emit aux1.2
    normalOfFrac E aux1.1 a1
  | _, _ => pure (.fn f other)

/-- createFromTrigo for an argument other than atan2 (trigonometric.cpp:215-231). -/
def createFromTrigo (f g : Fn) (a : Expr D) : M D (Expr D) :=
  if isOtherTheInverse f g then pure a
  else do
    let n ← (if isOtherTheInverse g f then M.lift (numEval (.fn g a)) else pure none)
    match n with
    | some _ => shiftArgIntoRange E f a
    | none => createFromTrigoNoInverse E f (some g) (.fn g a) a a

/-- Trigonometric::create (trigonometric.cpp:115-127) with createFromFunction
(trigonometric.cpp:194-202). -/
def trigCreate (f : Fn) (arg : Expr D) : M D (Expr D) :=
  match arg with
  | .undef => pure .undef
  | .fn .log a => pure (.fn f (.fn .log a))
  | .fn g a => createFromTrigo E f g a
  | .atan2 y x => (match f with
    | .tan => atan2ArgEval E y x
    | _ => createFromTrigoNoInverse E f none (.atan2 y x) y x)
  | arg => do
    let s ← M.silent (doesSymmetryApply E arg)
    if s then createBySymmetry E f arg
    else do
      let n ← M.lift (numEval arg)
      match n with
      | some _ => createNumerically E f arg
      | none => pure (.fn f arg)

/-- The first loop of shiftAtanResultIntoRange (trigonometric.cpp:381-382). -/
def shiftAtanUp (increment result : Expr D) : M D (Expr D) :=
  M.loop E.steps (fun a => do
    let n ← M.silent (E.isNeg a)
    if n then do
      let s ← E.sumCreate [a, increment]
      pure (.inl s)
    else pure (.inr a)) result

/-- The second loop of shiftAtanResultIntoRange (trigonometric.cpp:384-387). -/
def shiftAtanDown (increment result : Expr D) : M D (Expr D) :=
  M.loop E.steps (fun a => do
    let n ← NumTrigo.evalE a
    let t ← NumTrigo.evalE increment
    if !n.lt t then do
      let m ← E.minus increment
      let s ← E.sumCreate [a, m]
      pure (.inl s)
    else pure (.inr a)) result

/-- The assertion in shiftAtanResultIntoRange (trigonometric.cpp:372). -/
def assertEval (e : Expr D) : M D (Number D) := do
  let n ← M.lift (numEval e)
  match n with
  | some x => pure x
  | none => M.err .assert

/-- shiftAtanResultIntoRange (trigonometric.cpp:368-390). The result is the principal value only if
it is not negative. -/
def shiftAtanResultIntoRange (result summand : Expr D) : M D (Expr D) := do
  let inc ← timesPi E 2
  let _ ← assertEval result
  let numeric := result.isNumeric && !result.isZero
  let increment ← (if numeric then do
      let n ← NumTrigo.evalE inc
      pure (.num n)
    else pure inc)
  let summand' ← (if numeric then do
      let n ← NumTrigo.evalE summand
      pure (.num n)
    else pure summand)
  let r ← E.sumCreate [result, summand']
  let a ← shiftAtanUp E increment r
  let b ← shiftAtanDown E increment a
  let n ← NumTrigo.evalE b
  M.logIf (n.lt 0) .fail
  pure b

/-- simplAtan2 (trigonometric.cpp:350-366). The rules are wrong for an argument that is a tangent, for
y < 0 if there is an exact value, and for x < 0 if there is none. -/
def simplAtan2 (y x : Expr D) (yNum xNum : Number D) (increment : Expr D) : M D (Expr D) := do
  let arg ← atan2ArgEval E y x
  match arg with
  | .fn .tan a => do
    M.log .fail
    pure a
  | _ => do
    let arg' ← atan2ArgEval E y x
    let r ← NumTrigo.simplAtan E arg'
    match r with
    | some (s, _) => do
      M.logIf (yNum.lt 0) .fail
      shiftAtanResultIntoRange E s increment
    | none => do
      M.logIf (xNum.lt 0) .fail
      let n ← M.silent (E.isNeg arg)
      if n then createBySymmetry E .atan arg else pure (.fn .atan arg)

/-- createAtan2Numerically (trigonometric.cpp:328-348). The angle for x = 0 and y < 0 is not the
principal value. -/
def createAtan2Numerically (yNum xNum : Number D) (y x : Expr D) : M D (Expr D) :=
  if xNum.eqv 0 && Number.lt 0 yNum then timesPi E (1 / 2)
  else if xNum.eqv 0 && yNum.lt 0 then do
    M.log .fail
    timesPi E (3 / 2)
  else if xNum.eqv 0 && yNum.eqv 0 then pure .undef
  else do
    let increment ← (if Number.lt 0 xNum then pure zero
      else if !yNum.lt 0 then timesPi E 1
      else timesPi E (-1))
    simplAtan2 E y x yNum xNum increment

/-- Trigonometric::createAtan2 (trigonometric.cpp:104-113). Both arguments are evaluated, x first. -/
def atan2Create (y x : Expr D) : M D (Expr D) :=
  if x.isUndefined || y.isUndefined then pure .undef
  else do
    let xNum ← M.lift (numEval x)
    let yNum ← M.lift (numEval y)
    match xNum, yNum with
    | some a, some b => createAtan2Numerically E b a y x
    | _, _ => pure (.atan2 y x)

end Tsym
