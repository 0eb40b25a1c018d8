import Verif.Normal

set_option autoImplicit false

/-!
# The functions of the library, with a bound for the depth of the calls
-/

namespace Tsym

variable {D : Type} [Flt D]

/-- The functions when no call is allowed. -/
def eng0 (cfg : Cfg D) : Eng D where
  steps := 0
  cfg := cfg
  sumCreate _ := M.err .fuel
  prodCreate _ := M.err .fuel
  powCreate _ _ := M.err .fuel
  logCreate _ := M.err .fuel
  trigCreate _ _ := M.err .fuel
  atan2Create _ _ := M.err .fuel
  isPos _ := M.err .fuel
  isNeg _ := M.err .fuel
  expand _ := M.err .fuel
  expandAsProduct _ := M.err .fuel
  subst _ _ _ := M.err .fuel
  normal _ := M.err .fuel
  normalFrac _ _ := M.err .fuel
  coeff _ _ _ := M.err .fuel
  simplSum _ := M.err .fuel
  sumSimplify _ := M.err .fuel
  mergeSum _ _ := M.err .fuel
  simplProd _ := M.err .fuel
  prodSimplify _ := M.err .fuel
  mergeProd _ _ := M.err .fuel
  simplPow _ _ := M.err .fuel
  divideL _ _ _ := M.err .fuel
  divide _ _ := M.err .fuel
  gcdL _ _ _ := M.err .fuel
  gcd _ _ := M.err .fuel
  diff _ _ := M.err .fuel

/-- The functions that call the functions of `E`. -/
def engStep (E : Eng D) : Eng D where
  steps := E.steps + 1
  cfg := E.cfg
  sumCreate := sumCreate E
  prodCreate := prodCreate E
  powCreate := powCreate E
  logCreate := logCreate E
  trigCreate := trigCreate E
  atan2Create := atan2Create E
  isPos := isPos E
  isNeg := isNeg E
  expand := expand E
  expandAsProduct := expandAsProduct E
  subst := subst E
  normal := normal E
  normalFrac := normalFrac E
  coeff := coeff E
  simplSum := simplSum E
  sumSimplify := simplSum E
  mergeSum := mergeSum E
  simplProd := simplProd E
  prodSimplify := simplProd E
  mergeProd := mergeProd E
  simplPow := simplPow E
  divideL := divideL E
  divide := polyDivide E
  gcdL := gcdL E
  gcd := polyGcd E
  diff := diff E

/-- The functions of the library with at most `n` nested calls. -/
def eng (cfg : Cfg D) : Nat → Eng D
  | 0 => eng0 cfg
  | n + 1 => engStep (eng cfg n)

end Tsym
