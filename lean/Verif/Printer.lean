import Verif.NameFct
import Verif.Grammar

set_option autoImplicit false

/-!
# Texts for expressions (src/printer.cpp, src/plaintextprintengine.cpp)

The code sends the parts of a text to a `PrintEngine`, which writes them to a stream. Here the functions
return the text that PlaintextPrintEngine writes. The printer creates new expressions (a factor with a
negative exponent becomes a factor of the denominator), so its functions take the record of the library
functions as an argument, and the depth of the recursion is bounded by a number (Verif/Eng.lean).

As everywhere, the model records conditions that have no counterpart in the code. The condition `.fail`
is recorded where a text is written that cannot be read back, or that means something else: a double,
Euler's number (it looks like the symbol e), and a part that needs parentheses but has none.
-/

namespace Tsym

/-- The order of the categories: an operand is a factor, and so on. -/
def Cat.rank : Cat → Nat
  | .operand => 0 | .factor => 1 | .signed => 2 | .summand => 3 | .expression => 4

namespace Printer

variable {D : Type} [Flt D]

/-- The state of a printer: the options of Printer (printer.cpp:17-25) and of PlaintextPrintEngine
(plaintextprintengine.cpp:6-9), and the text of a double on a stream (plaintextprintengine.cpp:37-42). -/
structure Opt (D : Type) where
  /-- `PowerAsFraction::TRUE` -/
  fractions : Bool
  /-- `CharSet::UNICODE` -/
  unicode : Bool
  double : D → Str

variable (o : Opt D) (E : Eng D)

/-- PlaintextPrintEngine::symbol and positiveSymbol (plaintextprintengine.cpp:11-28). -/
def symbolText (n : Name) : Str := if o.unicode then n.unicode else n.concat

/-- An integer on a stream (printer.cpp:316-320, plaintextprintengine.cpp:44-56). -/
def intText (n : ℤ) : Str := if n < 0 then '-' :: natStr n.natAbs else natStr n.natAbs

/-- print for a number (printer.cpp:314-336). -/
def number : Number D → M D Str
  | .dbl d => do
    M.log .fail
    pure (o.double d)
  | .rat q => pure (if q.den = 1 then intText q.num else intText q.num ++ '/' :: natStr q.den)

/-- isNegativeNumeric (basefct.cpp:123-126). -/
def isNegativeNumeric : Expr D → Bool
  | .num n => n.lt 0
  | _ => false

/-- Printer::isScalarPowerBase (printer.cpp:89-99). -/
def isScalarBase (b : Expr D) : M D Bool :=
  if b.isSymbol || b.isConstant || b.isFunction then pure true
  else do
    let n ← M.lift b.numEval
    match n with
    | some n => pure (n.isInt && Number.lt 0 n)
    | none => pure false

/-- Printer::isScalarPowerExp (printer.cpp:133-141). -/
def isScalarExp : Expr D → Bool
  | .sym _ | .cst _ | .fn _ _ | .atan2 _ _ => true
  | .num n => n.isInt && Number.lt 0 n
  | _ => false

/-- Printer::precedence (printer.cpp:239-249). -/
def precedence : Expr D → Nat
  | .sum _ => 1
  | .prod _ => 2
  | .pow _ _ => 3
  | _ => 4

/-- Not in the code: the category of the text of an expression. -/
def cat : Expr D → Cat
  | .num (.rat q) => if q.den = 1 then (if q < 0 then .signed else .operand) else .summand
  | .num (.dbl _) | .undef | .sym _ | .cst _ | .fn _ _ | .atan2 _ _ => .operand
  | .pow _ e => if e.isEqual .half then .operand
    else if isNegativeNumeric e && o.fractions then .summand else .factor
  | .prod l => if o.fractions || l.length != 1 then .summand else .expression
  | .sum _ => .expression

/-- Not in the code: record that a text of a category is needed where the text of the expression is not
in parentheses. -/
def need (c : Cat) (e : Expr D) : M D Unit := M.logIf (decide (c.rank < (cat o e).rank)) .fail

/-- PlaintextPrintEngine::openParentheses and closeParentheses (plaintextprintengine.cpp:176-188). -/
def parens (s : Str) : Str := '(' :: s ++ [')']

section

-- `top` is Printer::toplevel.
variable (top : Expr D → M D Str)

/-- Printer::powerBase (printer.cpp:107-116). -/
def powerBase (b : Expr D) : M D Str := do
  let sc ← isScalarBase b
  let s ← top b
  if sc then (do
    need o .operand b
    pure s)
  else pure (parens s)

/-- Printer::powerExponent (printer.cpp:118-131). -/
def powerExponent (e : Expr D) : M D Str :=
  if e.isOne then pure []
  else do
    let s ← top e
    if isScalarExp e then pure ('^' :: s) else pure ('^' :: parens s)

/-- Printer::powerNegNumericExp (printer.cpp:78-87). -/
def powerNeg (b e : Expr D) : M D Str := do
  let sc ← isScalarBase b
  let m ← E.minus e
  let d ← E.powCreate b m
  let s ← top d
  if sc then (do
    need o .signed d
    pure ('1' :: '/' :: s))
  else pure ('1' :: '/' :: parens s)

/-- Printer::power (printer.cpp:66-76), with standardPower (printer.cpp:101-105). -/
def power (b e : Expr D) : M D Str :=
  if e.isEqual .half then do
    let s ← top b
    pure (['s', 'q', 'r', 't'] ++ parens s)
  else if isNegativeNumeric e && o.fractions then powerNeg o E top b e
  else do
    let s ← powerBase o top b
    let t ← powerExponent top e
    pure (s ++ t)

/-- Printer::isProductWithNegativeNumeric (printer.cpp:161-169). -/
def isNegProduct : Expr D → Bool
  | .prod (f :: _) => isNegativeNumeric f
  | _ => false

/-- The loop of Printer::sum (printer.cpp:150-158). -/
def sumLoop : List (Expr D) → M D Str
  | [] => pure []
  | a :: l =>
    if isNegProduct a then (do
      let m ← E.minus a
      need o .summand m
      let s ← top m
      let t ← sumLoop l
      pure (' ' :: '-' :: ' ' :: s ++ t))
    else (do
      need o .summand a
      let s ← top a
      let t ← sumLoop l
      pure (' ' :: '+' :: ' ' :: s ++ t))

/-- Printer::sum (printer.cpp:143-159). `front` of an empty list is undefined behaviour. -/
def sum : List (Expr D) → M D Str
  | [] => M.err .ub
  | a :: l => do
    let s ← top a
    let t ← sumLoop o E top l
    pure (s ++ t)

/-- A factor: in parentheses if it is a sum (printer.cpp:274-279). The first argument is not in the code
(`need`). -/
def factor (c : Cat) (f : Expr D) : M D Str := do
  let s ← top f
  if precedence f < 2 then pure (parens s)
  else do
    need o c f
    pure s

/-- The loop of Printer::productWithoutFractions after its first round (printer.cpp:273-283). -/
def factors : List (Expr D) → M D Str
  | [] => pure []
  | f :: l => do
    let s ← factor o top .signed f
    let t ← factors l
    pure ('*' :: s ++ t)

/-- Printer::productWithoutFractions (printer.cpp:251-284). -/
def productPlain : List (Expr D) → M D Str
  | [] => M.err .ub
  | [f] => top f
  | f :: g :: l => do
    let m ← E.minus f
    if m.isOne then (do
      let s ← factor o top .factor g
      let t ← factors o top l
      pure ('-' :: s ++ t))
    else if f.isOne then (do
      let s ← factor o top .summand g
      let t ← factors o top l
      pure (s ++ t))
    else (do
      let s ← factor o top .summand f
      let t ← factors o top (g :: l)
      pure (s ++ t))

/-- The loop of Printer::getProductFrac (printer.cpp:215-222). -/
def fracLoop : List (Expr D) → M D (List (Expr D) × List (Expr D))
  | [] => pure ([], [])
  | f :: l =>
    if isNegativeNumeric f.exp then (do
      let m ← E.minus f.exp
      let d ← E.powCreate f.base m
      let r ← fracLoop l
      pure (r.1, d :: r.2))
    else (do
      let r ← fracLoop l
      pure (f :: r.1, r.2))

/-- Printer::getProductFrac (printer.cpp:211-237). The numerator of a double is zero. -/
def productFrac (l : List (Expr D)) : M D (List (Expr D) × List (Expr D)) := do
  let r ← fracLoop E l
  match r.1, r.2 with
  | .num n :: num, d :: d' :: denom => do
    M.logIf n.isDouble .fail
    pure (.int n.numerator :: num, .int n.denominator :: d :: d' :: denom)
  | _, _ => pure r

/-- The numerator (printer.cpp:188-195). -/
def numerator (l : List (Expr D)) : M D Str :=
  match l with
  | [] => pure ['1']
  | [f] => if precedence f < 2 then (do
      let s ← top f
      pure (parens s))
    else productPlain o E top [f]
  | l => productPlain o E top l

/-- A denominator in parentheses (printer.cpp:204-208). -/
def composite (l : List (Expr D)) : M D Str := do
  let p ← E.prodCreate l
  let s ← top p
  pure ('/' :: parens s)

/-- The denominator, when there is one (printer.cpp:197-208). -/
def denominator (l : List (Expr D)) : M D Str :=
  match l with
  | [] => pure []
  | [f] => if 2 < precedence f then (do
      need o .signed f
      let s ← top f
      pure ('/' :: s))
    else composite E top [f]
  | l => composite E top l

/-- Printer::product (printer.cpp:171-179) with productAsFraction (printer.cpp:181-209). -/
def product (l : List (Expr D)) : M D Str :=
  if o.fractions then (do
    let r ← productFrac E l
    let s ← numerator o E top r.1
    let t ← denominator o E top r.2
    pure (s ++ t))
  else productPlain o E top l

/-- Printer::toplevel (printer.cpp:32-53), Printer::symbol (printer.cpp:56-64) and Printer::function
(printer.cpp:286-299). -/
def step : Expr D → M D Str
  | .sym s => pure (symbolText o s.id.name)
  | .num n => number o n
  | .pow b e => power o E top b e
  | .sum l => sum o E top l
  | .prod l => product o E top l
  | .fn f a => do
    let s ← top a
    pure (symbolText o f.name ++ parens s)
  | .atan2 y x => do
    let s ← top y
    let t ← top x
    pure (symbolText o atan2Name ++ parens (s ++ ',' :: ' ' :: t))
  | .cst c => do
    M.logIf (c == .e) .fail
    pure (symbolText o c.name)
  | .undef => pure "Undefined".toList

end

/-- Printer::toplevel with a bound on the depth of the recursion. -/
def toplevel : Nat → Expr D → M D Str
  | 0, _ => M.err .fuel
  | n + 1, e => step o E (toplevel n) e

end Printer

/-- The function print for an expression (printer.cpp:338-341) with PlaintextPrintEngine. -/
def Api.print {D : Type} [Flt D] (E : Eng D) (unicode : Bool) (double : D → Str) (e : Expr D) : M D Str :=
  Printer.toplevel ⟨true, unicode, double⟩ E E.steps e

/-- The function printDebug (printer.cpp:343-346) with PlaintextPrintEngine. -/
def Api.printDebug {D : Type} [Flt D] (E : Eng D) (unicode : Bool) (double : D → Str) (e : Expr D) : M D Str :=
  Printer.toplevel ⟨false, unicode, double⟩ E E.steps e

end Tsym
