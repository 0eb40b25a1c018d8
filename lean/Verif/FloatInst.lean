import Verif.Number

/-!
# IEEE doubles as the floating point unit, for running the model

Used to try the model on inputs of the unit tests. No theorem depends on this instance.
-/

namespace Tsym

/-- `std::numeric_limits<double>::epsilon()`. -/
def floatEps : Float := 2.220446049250313e-16

/-- Truncation of a double to an integer. -/
def floatTrunc (x : Float) : Int :=
  if x < 0 then - ((-x).floor.toUInt64.toNat : Int) else (x.floor.toUInt64.toNat : Int)

/-- Number::tryDoubleToFraction (number.cpp:54-74), without the overflow guard; values above 10^15
are left alone here. -/
def floatToFrac (x : Float) : Option ℚ :=
  let inc : Float := if x > 0 then 0.5 else -0.5
  if x.abs > 1e15 then none
  else
    let t := floatTrunc (x * 10000 + inc)
    if (Float.ofInt t / 10000 - x).abs < floatEps then some ((t : ℚ) / 10000) else none

/-- tryGetBase, floating point part (number.cpp:225-235). -/
def floatRootGuess (n d : ℤ) : Option ℕ :=
  let exact := Float.pow (Float.ofInt n) (1.0 / Float.ofInt d)
  if exact > 2147483647 then none
  else
    let base := floatTrunc (exact + 0.1)
    if (exact - Float.ofInt base).abs > 1e-6 then none else some base.toNat

instance : Flt Float where
  ofRat q := Float.ofInt q.num / Float.ofInt q.den
  add x y := x + y
  mul x y := x * y
  neg x := -x
  pow := Float.pow
  recip n := 1.0 / Float.ofInt n
  lt x y := decide (x < y)
  near x y :=
    let m : Float := 1.0
    let m := if x.abs > m then x.abs else m
    let m := if y.abs > m then y.abs else m
    decide ((x - y).abs < 100 * floatEps * m)
  toFrac := floatToFrac
  rootGuess := floatRootGuess
  sin := Float.sin
  cos := Float.cos
  tan := Float.tan
  asin := Float.asin
  acos := Float.acos
  atan := Float.atan
  atan2 := Float.atan2
  log := Float.log
  pi := 3.141592653589793
  e := 2.718281828459045

end Tsym
