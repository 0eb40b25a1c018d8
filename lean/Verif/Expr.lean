import Verif.Number

set_option autoImplicit false

/-!
# Expressions (src/base.h, base.cpp, basefct.cpp, name.h, name.cpp and the leaf classes)

The class hierarchy below `Base` is one inductive type. Objects are immutable and shared by
pointers; the model identifies an object with its tree. Consequence: the test `this == &other` in
Base::isEqual (base.cpp:33) has no counterpart. It only matters for a tree that is not equal to
itself (one that contains a NaN).
-/

namespace Tsym

/-- `std::string` as the list of its bytes (written as characters). -/
abbrev Str := List Char

/-- `<` of std::string: lexicographical comparison of the bytes. -/
def Str.lt : Str → Str → Bool
  | _, [] => false
  | [], _ :: _ => true
  | a :: s, b :: t => if a.toNat < b.toNat then true else if b.toNat < a.toNat then false
    else Str.lt s t

/-- struct Name (name.h:14-22). -/
structure Name where
  value : Str
  sub : Str := []
  sup : Str := []
  deriving DecidableEq, Repr

/-- operator< for Name (name.cpp:23-26): `std::tie` compares lexicographically. -/
def Name.lt (a b : Name) : Bool :=
  if Str.lt a.value b.value then true else if Str.lt b.value a.value then false
  else if Str.lt a.sub b.sub then true else if Str.lt b.sub a.sub then false
  else Str.lt a.sup b.sup

/-- Types of constants (constant.cpp:18-30). -/
inductive Cst where
  | pi | e
  deriving DecidableEq, Repr

/-- Functions of one argument: class Logarithm, and class Trigonometric except atan2. -/
inductive Fn where
  | log | sin | cos | tan | asin | acos | atan
  deriving DecidableEq, Repr

/-- A symbol is either a named one or a temporary one (symbol.cpp:24-30: the name of a temporary
symbol is the prefix "tmp#" with a number; Symbol::create (symbol.cpp:48-61) does not let a named
symbol start with the prefix). -/
inductive SymId where
  | named (n : Name)
  | tmp (k : Nat)
  deriving DecidableEq, Repr

/-- class Symbol (symbol.cpp:16-30): name and sign. -/
structure Sym where
  id : SymId
  positive : Bool
  deriving DecidableEq, Repr

/-- The expression tree. `pow b e` is Power with baseRef and expRef, `fn` and `atan2` are Function. -/
inductive Expr (D : Type) where
  | num (n : Number D)
  | sym (s : Sym)
  | cst (c : Cst)
  | undef
  | sum (ops : List (Expr D))
  | prod (ops : List (Expr D))
  | pow (b e : Expr D)
  | fn (f : Fn) (a : Expr D)
  | atan2 (y x : Expr D)

namespace Expr

variable {D : Type}

/-- Induction over expressions with the induction hypothesis for all operands. -/
theorem ind {P : Expr D → Prop} (num : ∀ n, P (.num n)) (sym : ∀ s, P (.sym s))
    (cst : ∀ c, P (.cst c)) (undef : P .undef)
    (sum : ∀ ops, (∀ x ∈ ops, P x) → P (.sum ops)) (prod : ∀ ops, (∀ x ∈ ops, P x) → P (.prod ops))
    (pow : ∀ b e, P b → P e → P (.pow b e)) (fn : ∀ f a, P a → P (.fn f a))
    (atan2 : ∀ y x, P y → P x → P (.atan2 y x)) (e : Expr D) : P e :=
  Expr.rec (motive_1 := P) (motive_2 := fun l => ∀ x ∈ l, P x) num sym cst undef sum prod pow fn
    atan2 (by simp) (by
      intro h t ih1 ih2 x hx
      rcases List.mem_cons.mp hx with rfl | hx
      · exact ih1
      · exact ih2 x hx) e

variable [Flt D]

/-- Numeric::zero, one, mOne, two, three, half, fourth (numeric.cpp:32-75). -/
def zero : Expr D := num (.rat 0)
/-- Numeric::one (numeric.cpp:37-40). -/
def one : Expr D := num (.rat 1)
/-- Numeric::mOne (numeric.cpp:72-75). -/
def mOne : Expr D := num (.rat (-1))
/-- Numeric::two (numeric.cpp:42-45). -/
def two : Expr D := num (.rat 2)
/-- Numeric::three (numeric.cpp:47-50). -/
def three : Expr D := num (.rat 3)
/-- Numeric::half (numeric.cpp:57-60). -/
def half : Expr D := num (.rat (1 / 2))
/-- Numeric::fourth (numeric.cpp:67-70). -/
def fourth : Expr D := num (.rat (1 / 4))

/-- Numeric::create with an integer. -/
def int (n : ℤ) : Expr D := num (.rat n)

/-- Base::operands (base.cpp:180-183). -/
def operands : Expr D → List (Expr D)
  | sum ops => ops
  | prod ops => ops
  | pow b e => [b, e]
  | fn _ a => [a]
  | atan2 y x => [y, x]
  | _ => []

/-- The type tests of basefct.cpp:46-84. -/
def isSum : Expr D → Bool | sum _ => true | _ => false
/-- isProduct (basefct.cpp:66-69). -/
def isProduct : Expr D → Bool | prod _ => true | _ => false
/-- isPower (basefct.cpp:61-64). -/
def isPower : Expr D → Bool | pow _ _ => true | _ => false
/-- isNumeric (basefct.cpp:56-59). -/
def isNumeric : Expr D → Bool | num _ => true | _ => false
/-- isSymbol (basefct.cpp:76-79). -/
def isSymbol : Expr D → Bool | sym _ => true | _ => false
/-- isConstant (basefct.cpp:46-49). -/
def isConstant : Expr D → Bool | cst _ => true | _ => false
/-- isFunction (basefct.cpp:51-54). -/
def isFunction : Expr D → Bool | fn _ _ => true | atan2 _ _ => true | _ => false
/-- isUndefined (basefct.cpp:81-84). -/
def isUndefined : Expr D → Bool | undef => true | _ => false

/-- Base::base (base.cpp:117-120), Power::base (power.cpp:219-222). -/
def base : Expr D → Expr D | pow b _ => b | x => x

/-- Base::exp (base.cpp:122-125), Power::exp (power.cpp:224-227). -/
def exp : Expr D → Expr D | pow _ e => e | _ => one

/-- isOne (basefct.cpp:27-30). -/
def isOne : Expr D → Bool | num n => n.eqv 1 | _ => false

/-- isZero (basefct.cpp:32-35). -/
def isZero : Expr D → Bool | num n => n.eqv 0 | _ => false

/-- isNumericPower (basefct.cpp:91-97). -/
def isNumericPower : Expr D → Bool | pow b e => b.isNumeric && e.isNumeric | _ => false

/-- isDoubleNumeric (basefct.cpp:115-121). -/
def isDoubleNumeric : Expr D → Bool | num n => n.isDouble | _ => false

mutual
/-- Base::isEqual with isEqualDifferentBase of the classes (base.cpp:31-34, 190-196, numeric.cpp:77-83,
symbol.cpp:92-106, constant.cpp:37-43, function.cpp:14-20, undefined.cpp:23-34, sum.cpp:46-49,
product.cpp:64-67, power.cpp:82-85; the function name decides between the functions). -/
def isEqual : Expr D → Expr D → Bool
  | num a, num b => a.eqv b
  | sym s, sym t => decide (s = t)
  | cst c, cst d => decide (c = d)
  | sum l, sum m => areEqual l m
  | prod l, prod m => areEqual l m
  | pow b e, pow c f => isEqual b c && isEqual e f
  | fn f a, fn g b => decide (f = g) && isEqual a b
  | atan2 a b, atan2 c d => isEqual a c && isEqual b d
  | _, _ => false
/-- areEqual (baseptrlistfct.cpp:29-32). -/
def areEqual : List (Expr D) → List (Expr D) → Bool
  | [], [] => true
  | a :: l, b :: m => isEqual a b && areEqual l m
  | _, _ => false
end

mutual
/-- Base::has (base.cpp:41-51), Undefined::has (undefined.cpp:74-78). -/
def has (x : Expr D) : Expr D → Bool
  | num n => isEqual (num n) x
  | sym s => isEqual (sym s) x
  | cst c => isEqual (cst c) x
  | undef => false
  | sum l => isEqual (sum l) x || hasAny x l
  | prod l => isEqual (prod l) x || hasAny x l
  | pow b e => isEqual (pow b e) x || (has x b || has x e)
  | fn f a => isEqual (fn f a) x || has x a
  | atan2 a b => isEqual (atan2 a b) x || (has x a || has x b)
/-- The loop over the operands in Base::has. -/
def hasAny (x : Expr D) : List (Expr D) → Bool
  | [] => false
  | a :: l => has x a || hasAny x l
end

mutual
/-- Base::isConst (base.cpp:53-59), Numeric::isConst (numeric.cpp:128-131), Function::isConst
(function.cpp:47-50); areAllElementsConst (baseptrlistfct.cpp:65-68). A sum or product without operands does not occur. -/
def isConst : Expr D → Bool
  | num _ => true
  | sum l => !l.isEmpty && allConst l
  | prod l => !l.isEmpty && allConst l
  | pow b e => isConst b && isConst e
  | _ => false
/-- areAllElementsConst (baseptrlistfct.cpp:65-68). -/
def allConst : List (Expr D) → Bool
  | [] => true
  | a :: l => isConst a && allConst l
end

mutual
/-- The numericEval methods (numeric.cpp:85-88, sum.cpp:51-62, product.cpp:69-80, power.cpp:87-96,
logarithm.cpp:91-97, trigonometric.cpp:392-420, constant.cpp:45-55; symbol.cpp:108-111 and
undefined.cpp:36-39 give nothing). Number::toThe may throw. In Power::numericEval both operands are
evaluated, the exponent first. -/
def numEval : Expr D → Except Err (Option (Number D))
  | num n => pure (some n)
  | sym _ => pure none
  | cst .pi => pure (some (.ofDouble Flt.pi))
  | cst .e => pure (some (.ofDouble Flt.e))
  | undef => pure none
  | sum l => numEvalSum 0 l
  | prod l => numEvalProd 1 l
  | pow b e => do
    let ne ← numEval e
    let nb ← numEval b
    match ne, nb with
    | some y, some x => do
      let r ← x.toThe y
      pure (some r)
    | _, _ => pure none
  | fn f a => do
    let na ← numEval a
    match na with
    | none => pure none
    | some x => pure (some (.ofDouble (evalFn f x.toDouble)))
  | atan2 y x => do
    let ny ← numEval y
    match ny with
    | none => pure none
    | some vy => do
      let nx ← numEval x
      match nx with
      | none => pure none
      | some vx => pure (some (.ofDouble (Flt.atan2 vy.toDouble vx.toDouble)))
/-- The loop of Sum::numericEval. -/
def numEvalSum (acc : Number D) : List (Expr D) → Except Err (Option (Number D))
  | [] => pure (some acc)
  | a :: l => do
    let n ← numEval a
    match n with
    | some x => numEvalSum (acc.add x) l
    | none => pure none
/-- The loop of Product::numericEval. -/
def numEvalProd (acc : Number D) : List (Expr D) → Except Err (Option (Number D))
  | [] => pure (some acc)
  | a :: l => do
    let n ← numEval a
    match n with
    | some x => numEvalProd (acc.mul x) l
    | none => pure none
/-- The floating point functions called in Logarithm::numericEval and Trigonometric::numericEval. -/
def evalFn : Fn → D → D
  | .log, x => Flt.log x
  | .sin, x => Flt.sin x
  | .cos, x => Flt.cos x
  | .tan, x => Flt.tan x
  | .asin, x => Flt.asin x
  | .acos, x => Flt.acos x
  | .atan, x => Flt.atan x
end

mutual
/-- The complexity methods (numeric.cpp:118-126, symbol.cpp:143-146, constant.cpp:86-89,
undefined.cpp:94-97, sum.cpp:134-137, product.cpp:138-141, power.cpp:135-138,
trigonometric.cpp:522-525, logarithm.cpp:137-140). `unsigned` overflow is not modelled. -/
def complexity : Expr D → Nat
  | num n => if n.isInt then 1 else if n.isFraction then 2 else 3
  | sym _ => 5
  | cst _ => 4
  | undef => 0
  | sum l => 5 + complexitySum l
  | prod l => 5 + complexitySum l
  | pow b e => 5 + complexity b + 2 * complexity e
  | fn _ a => 6 + complexity a
  | atan2 y x => 6 + (complexity y + complexity x)
/-- complexitySum (baseptrlistfct.cpp:70-74). -/
def complexitySum : List (Expr D) → Nat
  | [] => 0
  | a :: l => complexity a + complexitySum l
end

mutual
/-- Size of a tree (used as fuel). -/
def size : Expr D → Nat
  | sum l => 1 + sizeList l
  | prod l => 1 + sizeList l
  | pow b e => 1 + size b + size e
  | fn _ a => 1 + size a
  | atan2 y x => 1 + size y + size x
  | _ => 1
/-- The size of a list of expressions. -/
def sizeList : List (Expr D) → Nat
  | [] => 0
  | a :: l => size a + sizeList l
end

/-- `std::numeric_limits<int>` (32 bit). -/
def intMax : ℤ := 2147483647
/-- `std::numeric_limits<int>::min()` (32 bit). -/
def intMin : ℤ := -2147483648

/-- isInteger (basefct.cpp:8-14). -/
def isInteger (e : Expr D) : Except Err Bool := do
  let n ← numEval e
  match n with
  | some x => pure x.isInt
  | none => pure false

/-- isFractionNumeric (basefct.cpp:99-105). -/
def isFractionNumeric (e : Expr D) : Except Err Bool := do
  let n ← numEval e
  match n with
  | some x => pure x.isFraction
  | none => pure false

/-- isRationalNumeric (basefct.cpp:107-113). -/
def isRationalNumeric (e : Expr D) : Except Err Bool := do
  let n ← numEval e
  match n with
  | some x => pure x.isRational
  | none => pure false

/-- Numerator of the exponent in Power::degree (power.cpp:198-203); a default constructed `Int` is
zero. -/
def degreeExp (e : Expr D) : Except Err ℤ := do
  let n ← numEval e
  match n with
  | some x => pure (if x.isInt then x.numerator else 0)
  | none => pure 0

/-- The end of Power::degree (power.cpp:205-216). The limits are compared exactly, the code
compares with rounded quotients of doubles. -/
def degreePow (nExp d : ℤ) : ℤ :=
  if d = 0 then 0
  else if intMin ≤ nExp ∧ nExp ≤ intMax ∧ (nExp : ℚ) < (intMax : ℚ) / d ∧ (intMin : ℚ) / d < nExp
  then nExp * d
  else 0

mutual
/-- The degree methods (base.cpp:109-115, sum.cpp:223-232, product.cpp:232-239, power.cpp:196-217,
numeric.cpp:161-164, undefined.cpp:88-92). `int` overflow of the sum in Product::degree is not
modelled. -/
def degree (x : Expr D) : Expr D → Except Err ℤ
  | num _ => pure 0
  | sym s => pure (if isEqual (sym s) x then 1 else 0)
  | cst c => pure (if isEqual (cst c) x then 1 else 0)
  | undef => pure 0
  | fn f a => pure (if isEqual (fn f a) x then 1 else 0)
  | atan2 a b => pure (if isEqual (atan2 a b) x then 1 else 0)
  | sum l => if isEqual (sum l) x then pure 1 else degreeMax x intMin l
  | prod l => if isEqual (prod l) x then pure 1 else degreeSum x 0 l
  | pow b e => if isEqual (pow b e) x then pure 1 else do
    let n ← degreeExp e
    let d ← degree x b
    pure (degreePow n d)
/-- The loop in Sum::degree (sum.cpp:223-232). -/
def degreeMax (x : Expr D) (acc : ℤ) : List (Expr D) → Except Err ℤ
  | [] => pure acc
  | a :: l => do
    let d ← degree x a
    degreeMax x (max acc d) l
/-- The loop in Product::degree (product.cpp:232-239). -/
def degreeSum (x : Expr D) (acc : ℤ) : List (Expr D) → Except Err ℤ
  | [] => pure acc
  | a :: l => do
    let d ← degree x a
    degreeSum x (acc + d) l
end

end Expr

end Tsym
