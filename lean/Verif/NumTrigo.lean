import Verif.PowSimpl

set_option autoImplicit false

/-!
# Trigonometric functions of numbers (src/numtrigosimpl.cpp)
-/

namespace Tsym

open Expr

variable {D : Type} [Flt D] (E : Eng D)

/-- A rational number as an expression (Numeric::create(num, denom)). -/
def Expr.ratE (q : ℚ) : Expr D := .num (.rat q)

/-- The constant π. -/
def Expr.piE : Expr D := .cst .pi

/-- timesPi (numtrigosimpl.cpp:16-19, trigonometric.cpp:26-31). -/
def timesPi (q : ℚ) : M D (Expr D) := E.prodCreate [.ratE q, .piE]

/-- Product::minus with two arguments (product.h:16-19). -/
def minus2 (a b : Expr D) : M D (Expr D) := E.prodCreate [.mOne, a, b]

/-- `>=` for two optional numbers. -/
def optGe : Option (Number D) → Option (Number D) → Bool
  | _, none => true
  | none, some _ => false
  | some a, some b => !a.lt b

/-- `<` for two optional numbers. -/
def optLt : Option (Number D) → Option (Number D) → Bool
  | _, none => false
  | none, some _ => true
  | some a, some b => a.lt b

namespace NumTrigo

/-- An entry of a table: the argument, the value of the function, and the conditions that have been
recorded when both were created. -/
structure Entry (D : Type) where
  key : Expr D
  value : Expr D
  conds : List (Cond D)

/-- Create an entry. -/
def entry (key value : M D (Expr D)) : M D (Entry D) := do
  let p ← M.capture (do
    let k ← key
    let v ← value
    pure (k, v))
  pure ⟨p.1.1, p.1.2, p.2⟩

/-- sineTable (numtrigosimpl.cpp:21-51). The code builds the table once; the model builds it whenever
it is used, with the same creation functions. -/
def sineTable : M D (List (Entry D)) :=
  M.mapL (fun p => entry p.1 p.2) [
    (pure zero, pure zero),
    (timesPi E (1 / 12), do
      let a ← E.sqrt (.ratE 6)
      let b ← E.sqrt two
      let m ← E.minus b
      let s ← E.sumCreate [a, m]
      E.prodCreate [fourth, s]),
    (timesPi E (1 / 8), do
      let b ← E.sqrt two
      let m ← E.minus b
      let s ← E.sumCreate [two, m]
      let r ← E.sqrt s
      E.prodCreate [half, r]),
    (timesPi E (1 / 6), pure half),
    (timesPi E (1 / 4), do
      let b ← E.sqrt two
      E.oneOver b),
    (timesPi E (1 / 3), do
      let b ← E.sqrt three
      E.prodCreate [half, b]),
    (timesPi E (3 / 8), do
      let b ← E.sqrt two
      let s ← E.sumCreate [two, b]
      let r ← E.sqrt s
      E.prodCreate [half, r]),
    (timesPi E (5 / 12), do
      let a ← E.sqrt (.ratE 6)
      let b ← E.sqrt two
      let s ← E.sumCreate [a, b]
      E.prodCreate [fourth, s]),
    (timesPi E (1 / 2), pure one)]

/-- tanTable (numtrigosimpl.cpp:53-80). -/
def tanTable : M D (List (Entry D)) :=
  M.mapL (fun p => entry p.1 p.2) [
    (pure zero, pure zero),
    (timesPi E (1 / 12), do
      let b ← E.sqrt three
      let m ← E.minus b
      E.sumCreate [two, m]),
    (timesPi E (1 / 8), do
      let b ← E.sqrt two
      let m ← E.minus one
      E.sumCreate [b, m]),
    (timesPi E (1 / 6), do
      let b ← E.sqrt three
      E.oneOver b),
    (timesPi E (1 / 4), pure one),
    (timesPi E (1 / 3), E.sqrt three),
    (timesPi E (3 / 8), do
      let b ← E.sqrt two
      E.sumCreate [b, one]),
    (timesPi E (5 / 12), do
      let b ← E.sqrt three
      E.sumCreate [two, b]),
    (timesPi E (1 / 2), pure .undef)]

/-- The value of an expression that is dereferenced without a check. -/
def evalE (e : Expr D) : M D (Number D) := do
  let n ← M.lift (numEval e)
  match n with
  | some x => pure x
  | none => M.err .ub

/-- getValueNumEval (numtrigosimpl.cpp:264-274). The code traverses an unordered map, the model the
list: the values of the keys are different from each other, so that at most one entry matches. -/
def getValueNumEval (n : Number D) : List (Entry D) → M D (Option (Expr D))
  | [] => pure none
  | t :: l => do
    let b ← evalsTo t.key n
    if b then do
      M.emit t.conds
      pure (some t.value)
    else getValueNumEval n l

/-- getValue (numtrigosimpl.cpp:253-262). -/
def getValue (arg : Expr D) (table : List (Entry D)) : M D (Option (Expr D)) :=
  match table.find? (fun t => isEqual t.key arg) with
  | some t => do
    M.emit t.conds
    pure (some t.value)
  | none => do
    let n ← evalE arg
    getValueNumEval n table

/-- getKey (numtrigosimpl.cpp:405-418). -/
def getKey (arg : Expr D) (n : Option (Number D)) : List (Entry D) → M D (Option (Expr D))
  | [] => pure none
  | t :: l =>
    if t.value.isUndefined then getKey arg n l
    else if isEqual arg t.value then do
      M.emit t.conds
      pure (some t.key)
    else do
      let m ← M.lift (numEval t.value)
      let b := match n, m with
        | some x, some y => x.eqv y
        | none, none => true
        | _, _ => false
      if b then do
        M.emit t.conds
        pure (some t.key)
      else getKey arg n l

/-- The first loop of adjustArgRange (numtrigosimpl.cpp:168-170). -/
def adjustUp (twoPi arg : Expr D) : M D (Expr D) :=
  M.loop E.steps (fun a => do
    let n ← M.silent (E.isNeg a)
    if n then do
      let s ← E.sumCreate [a, twoPi]
      pure (.inl s)
    else pure (.inr a)) arg

/-- The second loop of adjustArgRange (numtrigosimpl.cpp:172-173). -/
def adjustDown (twoPi arg : Expr D) : M D (Expr D) :=
  M.loop E.steps (fun a => do
    let n ← M.lift (numEval a)
    let t ← M.lift (numEval twoPi)
    if optGe n t then do
      let m ← E.minus twoPi
      let s ← E.sumCreate [a, m]
      pure (.inl s)
    else pure (.inr a)) arg

/-- adjustArgRange (numtrigosimpl.cpp:164-174). -/
def adjustArgRange (arg : Expr D) : M D (Expr D) := do
  let twoPi ← timesPi E 2
  let a ← adjustUp E twoPi arg
  adjustDown E twoPi a

/-- getQuadrant (numtrigosimpl.cpp:198-213). -/
def getQuadrant (arg : Expr D) : M D Nat := do
  let o ← E.oneOver .piE
  let p ← E.prodCreate [arg, o]
  let fac ← evalE p
  if fac.lt 0 || !fac.lt 2 then M.err .assert
  else if fac.lt (.rat (1 / 2)) then pure 1
  else if fac.lt 1 then pure 2
  else if fac.lt (.rat (3 / 2)) then pure 3
  else pure 4

/-- The loop of shiftToFirstQuadrant (numtrigosimpl.cpp:229-230). -/
def shiftDown (piHalf : Expr D) : Nat → Expr D → M D (Expr D)
  | 0, arg => pure arg
  | n + 1, arg => do
    let m ← E.minus piHalf
    let a ← E.sumCreate [arg, m]
    shiftDown piHalf n a

/-- shiftToFirstQuadrant (numtrigosimpl.cpp:223-234). -/
def shiftToFirstQuadrant (quadrant : Nat) (arg : Expr D) : M D (Expr D) := do
  let piHalf ← timesPi E (1 / 2)
  let a ← shiftDown E piHalf (quadrant - 1) arg
  if quadrant = 2 ∨ quadrant = 4 then do
    let m ← E.minus a
    E.sumCreate [piHalf, m]
  else pure a

/-- setTimesSign and resultTimesSign (numtrigosimpl.cpp:246-251, 295-298). -/
def timesSign (sign : ℤ) (e : Expr D) : M D (Expr D) := E.prodCreate [.int sign, e]

/-- compNumericalSin (numtrigosimpl.cpp:276-284) with compNumerically (numtrigosimpl.cpp:286-293). -/
def compNumericalSin (sign : ℤ) (arg : Expr D) : M D (Expr D) := do
  let o ← E.oneOver .piE
  let a ← E.prodCreate [arg, o]
  let b ← E.prodCreate [a, .num (.ofDouble Flt.pi)]
  match b with
  | .num n => timesSign E sign (.num (.ofDouble (Flt.sin n.toDouble)))
  | _ => M.err .assert

/-- sin and compShiftedSin (numtrigosimpl.cpp:188-196, 215-221, 236-244). -/
def sin (origArg arg : Expr D) : M D (Option (Expr D)) := do
  let q ← getQuadrant E arg
  let sign : ℤ := if 2 < q then -1 else 1
  let a ← shiftToFirstQuadrant E q arg
  let table ← sineTable E
  let r ← getValue a table
  match r with
  | some v => do
    let x ← timesSign E sign v
    pure (some x)
  | none =>
    if origArg.isDoubleNumeric then do
      let x ← compNumericalSin E sign a
      pure (some x)
    else pure none

/-- cos (numtrigosimpl.cpp:300-309). -/
def cos (origArg arg : Expr D) : M D (Option (Expr D)) := do
  let h ← timesPi E (1 / 2)
  let s ← E.sumCreate [arg, h]
  let a ← adjustArgRange E s
  sin E origArg a

/-- isArgRationalNonZeroNumeric and prepareSinCosTan (numtrigosimpl.cpp:131-174): nothing if there is
no simplification, otherwise the shifted argument. -/
def prepare (arg : Expr D) : M D (Option (Expr D)) := do
  let r ← (if arg.isZero then pure false else M.lift (isRationalNumeric arg))
  if r then pure none
  else do
    let a ← (match arg with
      | .num n => do
        let q ← M.lift (n.div (.ofDouble Flt.pi))
        E.prodCreate [.num q, .piE]
      | a => pure a)
    let b ← adjustArgRange E a
    pure (some b)

/-- simplify for the sine (numtrigosimpl.cpp:96-139, 176-186). -/
def simplSin (arg : Expr D) : M D (Option (Expr D)) := do
  let a ← prepare E arg
  match a with
  | some b => sin E arg b
  | none => pure none

/-- simplify for the cosine (numtrigosimpl.cpp:96-139, 176-186). -/
def simplCos (arg : Expr D) : M D (Option (Expr D)) := do
  let a ← prepare E arg
  match a with
  | some b => cos E arg b
  | none => pure none

/-- tanViaSinCos (numtrigosimpl.cpp:331-350). -/
def tanViaSinCos (origArg : Expr D) : M D (Option (Expr D)) := do
  let s ← simplSin E origArg
  let c ← simplCos E origArg
  match c with
  | none => pure none
  | some cosine =>
    if cosine.isZero then pure (some .undef)
    else match s with
      | none => pure none
      | some sine => do
        let o ← E.oneOver cosine
        let p ← E.prodCreate [sine, o]
        let r ← timesSign E 1 p
        pure (some r)

/-- tan (numtrigosimpl.cpp:311-329). -/
def tan (origArg arg : Expr D) : M D (Option (Expr D)) := do
  let q ← getQuadrant E arg
  let sign : ℤ := if q = 1 ∨ q = 3 then 1 else -1
  let table ← tanTable E
  let r ← getValue arg table
  match r with
  | some v => do
    let x ← timesSign E sign v
    pure (some x)
  | none => tanViaSinCos E origArg

/-- simplify for the tangent. -/
def simplTan (arg : Expr D) : M D (Option (Expr D)) := do
  let a ← prepare E arg
  match a with
  | some b => tan E arg b
  | none => pure none

/-- prepareAsinAcosAtan (numtrigosimpl.cpp:375-381): the sign and the argument. -/
def prepareInverse (arg : Expr D) : M D (ℤ × Expr D) := do
  let n ← M.lift (numEval arg)
  if optLt n (some 0) then do
    let m ← E.minus arg
    pure (-1, m)
  else pure (1, arg)

/-- isInverseArgOutOfRange (numtrigosimpl.cpp:363-373) for asin and acos. -/
def isInverseArgOutOfRange (arg : Expr D) : M D Bool := do
  let n ← evalE arg
  pure (n.lt (.rat (-1)) || Number.lt 1 n)

/-- asin (numtrigosimpl.cpp:395-403). getKey takes two expressions for equal if neither can be
evaluated; that would be wrong. -/
def asin (origArg : Expr D) (sign : ℤ) (arg : Expr D) : M D (Option (Expr D)) := do
  let n ← M.lift (numEval arg)
  M.logIf n.isNone .fail
  let table ← sineTable E
  let r ← getKey arg n table
  match r with
  | some k => do
    let x ← timesSign E sign k
    pure (some x)
  | none =>
    match origArg with
    | .num o =>
      if o.isDouble then (do
        let x ← timesSign E 1 (.num (.ofDouble (Flt.asin o.toDouble)))
        pure (some x))
      else pure none
    | _ => pure none

/-- simplify for asin (numtrigosimpl.cpp:352-361). -/
def simplAsin (arg : Expr D) : M D (Option (Expr D)) := do
  let o ← isInverseArgOutOfRange arg
  if o then pure (some .undef)
  else do
    let p ← prepareInverse E arg
    asin E arg p.1 p.2

/-- acosFromAsinResult (numtrigosimpl.cpp:431-439). -/
def acosFromAsinResult : Expr D → M D (Expr D)
  | .num (.dbl d) =>
    pure (.num (((Number.rat (1 / 2)).mul (.ofDouble Flt.pi)).sub (.dbl d)))
  | e => do
    let piHalf ← timesPi E (1 / 2)
    let m ← E.minus e
    E.sumCreate [piHalf, m]

/-- simplify for acos (numtrigosimpl.cpp:352-361, 420-429). -/
def simplAcos (arg : Expr D) : M D (Option (Expr D)) := do
  let o ← isInverseArgOutOfRange arg
  if o then pure (some .undef)
  else do
    let p ← prepareInverse E arg
    let r ← asin E arg p.1 p.2
    match r with
    | some x => do
      let y ← acosFromAsinResult E x
      pure (some y)
    | none => pure none

/-- The function that is evaluated numerically in atan (numtrigosimpl.cpp:447-450). -/
def atanShifted (d : D) : D :=
  if Flt.lt (Flt.atan d) (Flt.ofRat 0) then Flt.add (Flt.mul (Flt.ofRat 2) Flt.pi) (Flt.atan d)
  else Flt.atan d

/-- simplify for atan (numtrigosimpl.cpp:352-361, 441-452). The flag says that the result may be by
2π too large. -/
def simplAtan (arg : Expr D) : M D (Option (Expr D × Bool)) := do
  let p ← prepareInverse E arg
  let n ← M.lift (numEval p.2)
  M.logIf n.isNone .fail
  let table ← tanTable E
  let r ← getKey p.2 n table
  match r with
  | some k => do
    let x ← timesSign E p.1 k
    pure (some (x, false))
  | none =>
    match arg with
    | .num o =>
      if o.isDouble then (do
        let x ← timesSign E 1 (.num (.ofDouble (atanShifted o.toDouble)))
        pure (some (x, Flt.lt (Flt.atan o.toDouble) (Flt.ofRat 0))))
      else pure none
    | _ => pure none

/-- NumTrigoSimpl::simplify (numtrigosimpl.cpp:96-101). The rule for atan of a negative double is
wrong. -/
def simplify (f : Fn) (arg : Expr D) : M D (Option (Expr D)) :=
  match f with
  | .sin => simplSin E arg
  | .cos => simplCos E arg
  | .tan => simplTan E arg
  | .asin => simplAsin E arg
  | .acos => simplAcos E arg
  | .atan => do
    let r ← simplAtan E arg
    match r with
    | some (x, wrong) => do
      M.logIf wrong .fail
      pure (some x)
    | none => pure none
  | .log => M.err .ub

end NumTrigo

end Tsym
