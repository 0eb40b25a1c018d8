import Mathlib.Data.Rat.Defs
import Mathlib.Data.Rat.Lemmas
import Verif.Res

/-!
# Number (src/number.h, src/number.cpp, src/numberfct.cpp)

`Number` is a variant of `boost::rational<cpp_int>` and `double`. Normalised
rationals are Lean's `ℚ`. The type `D` of doubles and everything that is computed
with it are a parameter (`Flt`).
-/

namespace Tsym

/-- The floating point operations the library uses, as parameters. -/
class Flt (D : Type) where
  /-- `boost::rational_cast<double>` -/
  ofRat : ℚ → D
  add : D → D → D
  mul : D → D → D
  neg : D → D
  /-- `std::pow` -/
  pow : D → D → D
  /-- `1.0/static_cast<double>(n)` (number.cpp:255) -/
  recip : ℤ → D
  lt : D → D → Bool
  /-- `areEqual`, the comparison with tolerance (number.cpp:301-313) -/
  near : D → D → Bool
  /-- Number::tryDoubleToFraction (number.cpp:54-74): the fraction with denominator
  10000 that replaces the double, if there is one -/
  toFrac : D → Option ℚ
  /-- The floating point part of `tryGetBase` (number.cpp:225-235): the integer candidate
  for the root, or nothing if the early exits are taken. It is not negative, because `std::pow` of a
  positive number is not. -/
  rootGuess : ℤ → ℤ → Option ℕ
  sin : D → D
  cos : D → D
  tan : D → D
  asin : D → D
  acos : D → D
  atan : D → D
  atan2 : D → D → D
  log : D → D
  /-- `M_PI` -/
  pi : D
  /-- `M_E` -/
  e : D

/-- `Number::rep` (number.h:43-44): `std::variant<boost::rational<Int>, double>`. -/
inductive Number (D : Type) where
  | rat (q : ℚ)
  | dbl (d : D)
  deriving DecidableEq, Repr

namespace Number

variable {D : Type} [Flt D]

instance (n : Nat) : OfNat (Number D) n := ⟨rat n⟩

/-- Number::Number(double) (number.cpp:24-29). -/
def ofDouble (d : D) : Number D :=
  match Flt.toFrac d with
  | some q => rat q
  | none => dbl d

/-- Number::Number(const Int&, const Int&) (number.cpp:35-40). `boost::rational` throws for a
zero denominator. The sign is moved to the numerator and `boost::rational` reduces the fraction,
which is what `/` on `ℚ` does. -/
def ofInts (n d : ℤ) : Except Err (Number D) :=
  if d = 0 then .error .badRational
  else .ok (rat ((if d < 0 then (-n : ℤ) else n : ℤ) / (d.natAbs : ℤ)))

/-- Number::isRational (number.cpp:260-263). -/
def isRational : Number D → Bool
  | rat _ => true
  | dbl _ => false

/-- Number::isDouble (number.cpp:265-268). -/
def isDouble : Number D → Bool
  | rat _ => false
  | dbl _ => true

/-- Number::numerator (number.cpp:270-276). -/
def numerator : Number D → ℤ
  | rat q => q.num
  | dbl _ => 0

/-- Number::denominator (number.cpp:283-289). -/
def denominator : Number D → ℤ
  | rat q => q.den
  | dbl _ => 1

/-- Number::toDouble (number.cpp:291-297). -/
def toDouble : Number D → D
  | rat q => Flt.ofRat q
  | dbl d => d

/-- operator== (number.cpp:317-323). -/
def eqv : Number D → Number D → Bool
  | rat p, rat q => p.num == q.num && p.den == q.den
  | a, b => Flt.near a.toDouble b.toDouble

/-- operator< (number.cpp:325-328), by conversion to double, also for two rationals. -/
def lt (a b : Number D) : Bool := Flt.lt a.toDouble b.toDouble

/-- operator+= (number.cpp:81-91) with `Operate` (number.h:46-61). -/
def add : Number D → Number D → Number D
  | rat p, rat q => rat (p + q)
  | a, b => ofDouble (Flt.add a.toDouble b.toDouble)

/-- operator*= (number.cpp:98-108). -/
def mul : Number D → Number D → Number D
  | rat p, rat q => rat (p * q)
  | a, b => ofDouble (Flt.mul a.toDouble b.toDouble)

/-- unary operator- (number.cpp:122-128). -/
def neg : Number D → Number D
  | rat q => rat (-q)
  | dbl d => ofDouble (Flt.neg d)

/-- operator-= (number.cpp:93-96). -/
def sub (a b : Number D) : Number D := add a (neg b)

/-- isInt (numberfct.cpp:8-11). -/
def isInt (n : Number D) : Bool := n.isRational && n.denominator == 1

/-- isOddInt (numberfct.cpp:13-16). C++ `%` truncates; only the comparison with zero matters. -/
def isOddInt (n : Number D) : Bool := n.isInt && n.numerator % 2 != 0

/-- isEvenInt (numberfct.cpp:18-21). -/
def isEvenInt (n : Number D) : Bool := n.isInt && n.numerator % 2 == 0

/-- isFraction (numberfct.cpp:23-26). -/
def isFraction (n : Number D) : Bool := n.denominator != 1

/-- abs (numberfct.cpp:28-31). -/
def abs (n : Number D) : Number D := if n.lt 0 then n.neg else n

/-- sign (numberfct.cpp:33-43). -/
def sign (n : Number D) : Except Err ℤ :=
  if n.lt 0 then .ok (-1)
  else if Number.lt 0 n then .ok 1
  else if n.eqv 0 then .ok 0
  else .error .assert

/-- `std::numeric_limits<unsigned>::max()` (32 bit). -/
def unsignedMax : ℤ := 4294967295

/-- computeTrivialPower (number.cpp:142-157) with computeMinusOneToThe (number.cpp:159-164).
`none` means "not trivial". -/
def trivialPower (b ex : Number D) : Except Err (Option (Number D)) :=
  if b.eqv 0 && decide (ex.numerator < 0) then .error .overflow
  else if b.eqv 0 || b.eqv 1 || ex.eqv 1 then .ok (some b)
  else if ex.eqv 0 then .ok (some 1)
  else if b.lt 0 && !ex.isInt then .error .overflow
  else if b.eqv (neg 1) then
    if ex.isInt then .ok (some (if ex.numerator % 2 = 0 then 1 else neg 1))
    else .error .assert
  else .ok none

/-- computeNumPower (number.cpp:197-210). -/
def numPower (b : Number D) (n : ℤ) : Except Err (Number D) :=
  if unsignedMax < (n.natAbs : ℤ) then .error .assert
  else
    let newDenom := b.denominator ^ n.natAbs
    let newNum := b.numerator ^ n.natAbs
    if n < 0 then ofInts newDenom newNum else ofInts newNum newDenom

/-- tryGetBase (number.cpp:214-240): candidate from floating point, exact check. -/
def tryGetBase (D : Type) [Flt D] (n d : ℤ) : Except Err ℤ :=
  match Flt.rootGuess D n d with
  | none => .ok 0
  | some base =>
    if 0 < d ∧ d ≤ unsignedMax then .ok (if (base : ℤ) ^ d.toNat = n then (base : ℤ) else 0)
    else .error .assert

/-- computeDenomPower (number.cpp:244-258). -/
def denomPower (d : ℤ) (r : Number D) : Except Err (Number D) := do
  let numTest ← tryGetBase D r.numerator d
  let denomTest ← tryGetBase D r.denominator d
  if d = 1 then pure r
  else if numTest = 0 ∨ denomTest = 0 then pure (ofDouble (Flt.pow r.toDouble (Flt.recip d)))
  else ofInts numTest denomTest

/-- computeIrrationalPower and computeRationalPower (number.cpp:180-195). -/
def posPower (b ex : Number D) : Except Err (Number D) :=
  if b.isDouble || ex.isDouble then .ok (ofDouble (Flt.pow b.toDouble ex.toDouble))
  else do
    let r ← numPower b ex.numerator
    denomPower ex.denominator r

/-- Number::toThe (number.cpp:130-140) with computeNegBasePower (number.cpp:166-178). The C++
functions call each other; the first argument bounds the depth. The recursive calls have the bases
-1 and |b|; a third level is entered only if neither b nor |b| compares greater than zero, and then
the C++ recursion does not end. -/
def toTheAux : Nat → Number D → Number D → Except Err (Number D)
  | 0, _, _ => .error .loop
  | k + 1, b, ex => do
    match ← trivialPower b ex with
    | some r => pure r
    | none =>
      if Number.lt 0 b then posPower b ex
      else if ex.isInt then do
        let preFac ← toTheAux k (neg 1) ex
        let r ← toTheAux k b.abs ex
        pure (mul r preFac)
      else .error .assert

/-- Number::toThe (number.cpp:130-140). -/
def toThe (b ex : Number D) : Except Err (Number D) := toTheAux 3 b ex

/-- operator/= (number.cpp:110-115). -/
def div (a b : Number D) : Except Err (Number D) := do
  pure (mul a (← toThe b (neg 1)))

end Number

end Tsym
