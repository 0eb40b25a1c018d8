import Verif.Order

set_option autoImplicit false

/-!
# Queries of the interface (src/functions.cpp, src/var.cpp)
-/

namespace Tsym

namespace Expr

variable {D : Type} [Flt D]

/-- insertSymbolIfNotPresent (functions.cpp:34-40). -/
def insertSymbol (e : Expr D) (l : List (Expr D)) : List (Expr D) :=
  if l.any (fun x => isEqual x e) then l else l ++ [e]

mutual
/-- collectSymbols (functions.cpp:42-49); the list is changed in place. -/
def collectSymbolsAux : Expr D → List (Expr D) → List (Expr D)
  | sym s, acc => insertSymbol (sym s) acc
  | num _, acc => acc
  | cst _, acc => acc
  | undef, acc => acc
  | sum l, acc => collectSymbolsList l acc
  | prod l, acc => collectSymbolsList l acc
  | pow b e, acc => collectSymbolsAux e (collectSymbolsAux b acc)
  | fn _ a, acc => collectSymbolsAux a acc
  | atan2 y x, acc => collectSymbolsAux x (collectSymbolsAux y acc)
/-- The loop over the operands in collectSymbols. -/
def collectSymbolsList : List (Expr D) → List (Expr D) → List (Expr D)
  | [], acc => acc
  | a :: l, acc => collectSymbolsList l (collectSymbolsAux a acc)
end

/-- collectSymbols (functions.cpp:201-208). -/
def collectSymbols (e : Expr D) : List (Expr D) := collectSymbolsAux e []

/-- Var::operator int (var.cpp:164-182). The second conversion cannot fail, because the number fits. -/
def toInt (e : Expr D) : Except Err ℤ := do
  let i ← isInteger e
  if !i then .error .domain
  else do
    let n ← numEval e
    match n with
    | none => .error .ub
    | some x =>
      if ¬ (intMin ≤ x.numerator ∧ x.numerator ≤ intMax) then .error .overflow
      else pure x.numerator

/-- Var::operator double (var.cpp:184-190). -/
def toDouble (e : Expr D) : Except Err D := do
  let n ← numEval e
  match n with
  | some x => pure x.toDouble
  | none => .error .domain

/-- Var::Type (var.h). -/
inductive VType where
  | sum | product | symbol | power | constant | undefined | function | int | fraction | double
  deriving DecidableEq, Repr

/-- Var::type (var.cpp:152-162) with numericType (var.cpp:42-55). -/
def type : Expr D → VType
  | num n => if n.isInt then .int else if n.isDouble then .double
      else if n.isFraction then .fraction else .undefined
  | sym _ => .symbol
  | cst _ => .constant
  | undef => .undefined
  | sum _ => .sum
  | prod _ => .product
  | pow _ _ => .power
  | fn _ _ => .function
  | atan2 _ _ => .function

end Expr

end Tsym
