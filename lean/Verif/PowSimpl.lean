import Verif.ProdSimpl

set_option autoImplicit false

/-!
# Powers (src/powersimpl.cpp, Power::create), logarithms (src/logarithm.cpp), and the sign queries
-/

namespace Tsym

open Expr

variable {D : Type} [Flt D] (E : Eng D)

/-- doesInvolveComplexNumbers (powersimpl.cpp:33-39). The library takes "negative" for the sign of
an expression that may be zero, and its exponent may be an integer that has been computed as a
double, so that the rule needs conditions. -/
def doesInvolveComplexNumbers (base exp : Expr D) : M D Bool :=
  M.whenTrue (do
    let nExp ← M.lift (numEval exp)
    let neg ← E.isNeg base
    match nExp with
    | some n =>
      if neg && !n.isInt then do
        M.log (.nz base)
        M.logIf n.isDouble (.nint exp)
        pure true
      else pure false
    | none => pure false)

/-- simplifyNumericPower (powersimpl.cpp:59-71). Nothing is claimed if one of the numbers is zero
(Power::create excludes this). -/
def simplifyNumericPower (base exp : Number D) : M D (Expr D × Expr D) := do
  let r ← M.lift (NumPowerSimpl.compute E.cfg.maxPrime ⟨base, exp, 1⟩)
  M.logIf (!r.2 || base.eqv 0 || exp.eqv 0) .fail
  if (Expr.num r.1.preFactor).isOne then pure (.num r.1.base, .num r.1.exp)
  else do
    let p ← E.powCreate (.num r.1.base) (.num r.1.exp)
    let q ← E.prodCreate [.num r.1.preFactor, p]
    pure (q, one)

/-- areTwoFractionExpWithOddDenom (powersimpl.cpp:118-130). -/
def areTwoFractionExpWithOddDenom : Expr D → Expr D → Bool
  | .num a, .num b => a.isFraction && b.isFraction && a.denominator % 2 != 0 && b.denominator % 2 != 0
  | _, _ => false

/-- doContractExpFirst (powersimpl.cpp:106-116). -/
def doContractExpFirst (base e1 e2 : Expr D) : M D Bool := do
  let i1 ← M.lift (isInteger e1)
  let i2 ← (if i1 then M.lift (isInteger e2) else pure false)
  if i2 then pure true
  else if areTwoFractionExpWithOddDenom e1 e2 then pure true
  else M.whenTrue (E.isPos base)

/-- doesChangeSign (powersimpl.cpp:132-140). -/
def doesChangeSign (base e1 : Expr D) : M D Bool :=
  M.whenTrue (do
    let n ← E.isNeg base
    if n then pure (match e1 with
      | .num a => a.isEvenInt
      | _ => false)
    else pure false)

/-- doContractExpSecond for numbers (powersimpl.cpp:153-165). -/
def doContractExpSecondN (e1 e2 : Number D) : Bool :=
  if e1.isOddInt then !(e1.mul e2).abs.eqv 1
  else if e1.isEvenInt then (e1.mul e2).isEvenInt
  else if e1.isFraction && (e2.isInt || e2.isFraction) then (e1.mul e2).isFraction
  else !e1.isEvenInt

/-- doContractExpSecond (powersimpl.cpp:142-151). For an exponent that is a double the rule
is only right if the base is not negative or the exponent is no integer. -/
def doContractExpSecond (base e1 e2 : Expr D) : M D Bool := do
  let n1 ← M.lift (numEval e1)
  let n2 ← M.lift (numEval e2)
  match n1, n2 with
  | some a, some b =>
    if doContractExpSecondN a b then do
      M.logIf (!a.isRational) (.or (.nn base) (.nint e1))
      pure true
    else pure false
  | _, _ => pure false

/-- The choice of the new base in simplifyPowerBase (powersimpl.cpp:86-95). -/
def newPowerBase (base e1 e2 : Expr D) : M D (Option (Expr D)) := do
  let b ← doContractExpFirst E base e1 e2
  if b then pure (some base)
  else do
    let b ← doesChangeSign E base e1
    if b then do
      let m ← E.minus base
      pure (some m)
    else do
      let b ← doContractExpSecond base e1 e2
      if b then pure (some base) else pure none

/-- simplifyPowerBase (powersimpl.cpp:78-104), for the power with base `base` and exponent `e1`. -/
def simplifyPowerBase (base e1 e2 : Expr D) : M D (Expr D × Expr D) := do
  let nb ← newPowerBase E base e1 e2
  match nb with
  | none => pure (.pow base e1, e2)
  | some newBase => do
    let newExp ← E.prodCreate [e1, e2]
    if newExp.isZero then pure (one, one) else E.simplPow newBase newExp

/-- The loop of simplifyProductBase (powersimpl.cpp:174-178): the factors that are pulled out of the
power, the resulting powers, and the factors that stay. -/
def splitFactors (all : Bool) (exp : Expr D) :
    List (Expr D) → M D (List (Expr D) × List (Expr D) × List (Expr D))
  | [] => pure ([], [], [])
  | f :: l => do
    let b ← (if all then pure true else M.whenTrue (E.isPos f))
    if b then do
      let p ← E.powCreate f exp
      let r ← splitFactors all exp l
      pure (f :: r.1, p :: r.2.1, r.2.2)
    else do
      let r ← splitFactors all exp l
      pure (r.1, r.2.1, f :: r.2.2)

/-- simplifyProductBase (powersimpl.cpp:167-186). If the exponent is not a number known to be an
integer, the rule needs the factors that are pulled out to be different from zero, or the rest to be
not negative. -/
def simplifyProductBase (ops : List (Expr D)) (exp : Expr D) : M D (Expr D × Expr D) := do
  let all ← M.lift (isInteger exp)
  let r ← splitFactors E all exp ops
  if r.2.1.isEmpty then pure (.prod ops, exp)
  else do
    M.logIf (!(all || r.2.2.isEmpty)) (.or (.nz (.prod r.1)) (.nn (.prod r.2.2)))
    let k ← E.prodCreate r.2.2
    let kp ← E.powCreate k exp
    let p ← E.prodCreate (r.2.1 ++ [kp])
    pure (p, one)

/-- Is this a logarithm? (Not in the code, used for a condition.) -/
def isLog : Expr D → Bool
  | .fn .log _ => true
  | _ => false

/-- isBaseEulerConstantAndExpLogarithm and simplifyConstantBase (powersimpl.cpp:188-202). The rule is
wrong if the exponent is not a logarithm itself (only equal to one). -/
def simplifyConstantBase (c : Cst) (exp : Expr D) : M D (Expr D × Expr D) :=
  if isEqual (.cst c) (.cst .e : Expr D) && exp.isFunction then
    match exp.operands with
    | a :: _ => do
      let l ← M.silent (E.logCreate a)
      if isEqual exp l then do
        M.logIf (!isLog exp) .fail
        pure (a, one)
      else pure (.cst c, exp)
    | [] => M.err .ub
  else pure (.cst c, exp)

/-- simplifyPower (powersimpl.cpp:206-223) with simplifyNumericBase (powersimpl.cpp:41-47). -/
def simplPow (base exp : Expr D) : M D (Expr D × Expr D) := do
  let c ← doesInvolveComplexNumbers E base exp
  if c then pure (.undef, one)
  else match base with
    | .num b => (match exp with
      | .num e => simplifyNumericPower E b e
      | e => pure (.num b, e))
    | .pow b e1 => simplifyPowerBase E b e1 exp
    | .prod ops => simplifyProductBase E ops exp
    | .undef => pure (.undef, one)
    | .cst k => simplifyConstantBase E k exp
    | b => pure (b, exp)

/-- Power::createNonTrivial (power.cpp:63-80). -/
def powCreateNonTrivial (b e : Expr D) : M D (Expr D) := do
  let r ← E.simplPow b e
  pure (if r.2.isOne then r.1 else if r.1.isOne then one else .pow r.1 r.2)

/-- Power::create and createNotUndefined (power.cpp:29-61). -/
def powCreate (b e : Expr D) : M D (Expr D) :=
  if e.isUndefined || b.isUndefined then pure .undef
  else if e.isZero || b.isOne then pure one
  else if b.isZero then do
    let n ← M.whenTrue (E.isNeg e)
    pure (if n then .undef else zero)
  else if e.isOne then pure b
  else powCreateNonTrivial E b e

/-- Logarithm::isInvalidArg (logarithm.cpp:43-64). -/
def isInvalidArg (arg : Expr D) : M D Bool :=
  if arg.isUndefined || arg.isZero then pure true
  else if arg.isPower && isEqual arg.base (.cst .e) then pure false
  else M.whenTrue (do
    let n ← E.isNeg arg
    if n then pure true else evalsTo arg 0)

/-- Logarithm::create (logarithm.cpp:22-36, 66-89). The rule for powers needs a positive base. -/
def logCreate (arg : Expr D) : M D (Expr D) := do
  let inv ← isInvalidArg E arg
  if inv then pure .undef
  else if arg.isOne then pure zero
  else match arg with
    | .num n => pure (if n.isRational then .fn .log arg else .num (.ofDouble (Flt.log n.toDouble)))
    | .cst c => pure (if isEqual (.cst c) (.cst .e : Expr D) then one else .fn .log arg)
    | .pow b e => do
      M.log (.pos b)
      let l ← E.logCreate b
      E.prodCreate [e, l]
    | _ => pure (.fn .log arg)

/-! ## Signs -/

/-- Sum::signOfNumericParts (sum.cpp:154-164). -/
def signOfNumericParts (acc : Number D) : List (Expr D) → Except Err ℤ
  | [] => acc.sign
  | a :: l => do
    let n ← numEval a
    match n with
    | some x => signOfNumericParts (acc.add x) l
    | none => signOfNumericParts acc l

/-- Sum::signOfSymbolicParts (sum.cpp:166-181). -/
def signOfSymbolicParts (acc : ℤ) : List (Expr D) → M D ℤ
  | [] => pure acc
  | a :: l => do
    let n ← M.lift (numEval a)
    match n with
    | some _ => signOfSymbolicParts acc l
    | none => do
      let p ← M.whenTrue (E.isPos a)
      if p && decide (0 ≤ acc) then signOfSymbolicParts 1 l
      else do
        let m ← M.whenTrue (E.isNeg a)
        if m && decide (acc ≤ 0) then signOfSymbolicParts (-1) l else pure 0

/-- Sum::sign (sum.cpp:139-152). -/
def signOfSum (l : List (Expr D)) : M D ℤ := do
  let n ← M.lift (signOfNumericParts 0 l)
  let s ← signOfSymbolicParts E 0 l
  pure (if n = 0 then n + s else if 1 < n + s then 1 else if n + s < -1 then -1 else 0)

/-- Product::sign (product.cpp:143-156). -/
def signOfProduct (acc : ℤ) : List (Expr D) → M D ℤ
  | [] => pure acc
  | a :: l => do
    let p ← M.whenTrue (E.isPos a)
    if p then signOfProduct acc l
    else do
      let m ← M.whenTrue (E.isNeg a)
      if m then signOfProduct (acc * -1) l else pure 0

/-- `numericEval() > 0` where there is a value. -/
def evalIsPos (e : Expr D) : M D Bool := do
  let n ← M.lift (numEval e)
  match n with
  | some x => pure (Number.lt 0 x)
  | none => pure false

/-- `numericEval() < 0` where there is a value. -/
def evalIsNeg (e : Expr D) : M D Bool := do
  let n ← M.lift (numEval e)
  match n with
  | some x => pure (x.lt 0)
  | none => pure false

/-- The isPositive methods (numeric.cpp:103-106, symbol.cpp:123-126, constant.cpp:69-72,
undefined.cpp:51-54, sum.cpp:113-119, product.cpp:123-126, power.cpp:113-121, logarithm.cpp:120-130,
trigonometric.cpp:502-510). -/
def isPos : Expr D → M D Bool
  | .num n => pure (Number.lt 0 n)
  | .sym s => pure s.positive
  | .cst _ => pure true
  | .undef => pure false
  | .sum l => do
    let n ← M.lift (numEval (.sum l))
    match n with
    | some x => pure (Number.lt 0 x)
    | none => do
      let s ← signOfSum E l
      pure (decide (s = 1))
  | .prod l => do
    let s ← signOfProduct E 1 l
    pure (decide (s = 1))
  | .pow b e => do
    let p ← M.whenTrue (E.isPos b)
    if p then pure true
    else do
      let n ← M.lift (numEval e)
      match n with
      | some x => pure (x.isRational && x.numerator % 2 == 0)
      | none => pure false
  | .fn .log a => do
    let s ← E.sumCreate [a, mOne]
    E.isPos s
  | .fn .atan a => E.isPos a
  | .fn f a => evalIsPos (.fn f a)
  | .atan2 y x => evalIsPos (.atan2 y x)

/-- The isNegative methods (numeric.cpp:108-111, symbol.cpp:128-131, constant.cpp:74-77,
undefined.cpp:56-59, sum.cpp:121-127, product.cpp:128-131, power.cpp:123-128, logarithm.cpp:125-135,
trigonometric.cpp:512-520). -/
def isNeg : Expr D → M D Bool
  | .num n => pure (n.lt 0)
  | .sym _ => pure false
  | .cst _ => pure false
  | .undef => pure false
  | .sum l => do
    let n ← M.lift (numEval (.sum l))
    match n with
    | some x => pure (x.lt 0)
    | none => do
      let s ← signOfSum E l
      pure (decide (s = -1))
  | .prod l => do
    let s ← signOfProduct E 1 l
    pure (decide (s = -1))
  | .pow _ _ => pure false
  | .fn .log a => do
    let s ← E.sumCreate [a, mOne]
    E.isNeg s
  | .fn .atan a => E.isNeg a
  | .fn f a => evalIsNeg (.fn f a)
  | .atan2 y x => evalIsNeg (.atan2 y x)

end Tsym
