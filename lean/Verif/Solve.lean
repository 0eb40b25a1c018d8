import Mathlib.Data.Nat.Notation
import Verif.Res

/-!
# Linear systems (src/directsolve.cpp, src/solve.cpp, include/tsym/solve.h, src/stdvecwrapper.h)

The scalars are a parameter: a type `V` with the operations of `Var` that the code uses. Matrices and
vectors of the working copies are functions of the indices; they are filled from the row-major
`std::vector` that the interface creates.
-/

set_option autoImplicit false

namespace Tsym

/-- What the code uses of `Var`. -/
structure Scalar (V : Type) where
  zero : V
  one : V
  minusOne : V
  add : V → V → V
  sub : V → V → V
  mul : V → V → V
  div : V → V → V
  /-- `simplify` (functions.cpp) -/
  simplify : V → V
  /-- `v == 0` -/
  isZero : V → Bool
  /-- `complexity` (functions.cpp) -/
  complexity : V → ℕ

namespace Lin

/-- `for (std::size_t i = lo; i < hi; ++i) s = f(i, s);` -/
def loop {α : Type} (lo hi : ℕ) (f : ℕ → α → α) (s : α) : α :=
  (List.range' lo (hi - lo)).foldl (fun s i => f i s) s

/-- The same for a body that may throw. -/
def loopM {α : Type} (lo hi : ℕ) (f : ℕ → α → Except Err α) (s : α) : Except Err α :=
  (List.range' lo (hi - lo)).foldlM (fun s i => f i s) s

/-- `for (std::size_t i = n - 1; i + 1 > 0; --i)` with a body that may throw. -/
def loopDownM {α : Type} (f : ℕ → α → Except Err α) : ℕ → α → Except Err α
  | 0, s => .ok s
  | n + 1, s => do
    let s ← f n s
    loopDownM f n s

/-- Assignment to an element of a matrix. -/
def set {V : Type} (M : ℕ → ℕ → V) (i j : ℕ) (v : V) : ℕ → ℕ → V :=
  fun a b => if a = i ∧ b = j then v else M a b

/-- Assignment to an element of a vector. -/
def set1 {V : Type} (x : ℕ → V) (i : ℕ) (v : V) : ℕ → V := fun a => if a = i then v else x a

/-- Algo (solve.h:12). -/
inductive Algo
  | gauss
  | gaussLCPivot
  deriving DecidableEq, Repr

variable {V : Type} (S : Scalar V)

/-- The loop of firstNonZeroPivot from index `i` on, for `n` rounds (directsolve.cpp:9-13). -/
def firstNonZeroFrom (M : ℕ → ℕ → V) (row : ℕ) : ℕ → ℕ → Except Err ℕ
  | 0, _ => .error .invalidArgument
  | n + 1, i => if S.isZero (M i row) then firstNonZeroFrom M row n (i + 1) else .ok i

/-- firstNonZeroPivot (directsolve.cpp:7-16). -/
def firstNonZeroPivot (dim : ℕ) (M : ℕ → ℕ → V) (row : ℕ) : Except Err ℕ :=
  firstNonZeroFrom S M row (dim - row) row

/-- `std::numeric_limits<unsigned>::max()` -/
def unsignedMax : ℕ := 4294967295

/-- leastComplexityPivot (directsolve.cpp:18-34). -/
def leastComplexityPivot (dim : ℕ) (M : ℕ → ℕ → V) (row : ℕ) : ℕ :=
  (loop row dim (fun i (s : ℕ × ℕ) =>
    if !S.isZero (M i row) && decide (S.complexity (M i row) < s.1)
    then (S.complexity (M i row), i) else s) (unsignedMax, row)).2

/-- selectPivot (solve.cpp:22-25) and the call of the selected function. -/
def pivot (algo : Algo) (dim : ℕ) (M : ℕ → ℕ → V) (row : ℕ) : Except Err ℕ :=
  match algo with
  | .gauss => firstNonZeroPivot S dim M row
  | .gaussLCPivot => .ok (leastComplexityPivot S dim M row)

/-- swapRows (directsolve.cpp:38-42). -/
def swapRows (dim : ℕ) (M : ℕ → ℕ → V) (f t : ℕ) : ℕ → ℕ → V :=
  loop 0 dim (fun j M => set (set M f j (M t j)) t j (M f j)) M

/-- swapScalar (directsolve.cpp:44-47). -/
def swapScalar (b : ℕ → V) (f t : ℕ) : ℕ → V := set1 (set1 b f (b t)) t (b f)

/-- The body of the loop over `i` (directsolve.cpp:69-72). -/
def elimRow (dim j i : ℕ) (M : ℕ → ℕ → V) : ℕ → ℕ → V :=
  loop (j + 1) dim
    (fun k M => set M i k (S.simplify (S.sub (M i k) (S.mul (M i j) (M j k)))))
    (set M i j (S.simplify (S.div (M i j) (M j j))))

/-- Working state: coefficients, right hand side, number of row swaps. -/
structure St (V : Type) where
  M : ℕ → ℕ → V
  b : ℕ → V
  swaps : ℕ

/-- The body of the loop over `j` (directsolve.cpp:57-73). Without a right hand side, as in
`determinant`, the component `b` is a dummy. -/
def elimCol (algo : Algo) (dim j : ℕ) (s : St V) : Except Err (St V) := do
  let p ← pivot S algo dim s.M j
  let s : St V := if p = j then s
    else ⟨swapRows dim s.M j p, swapScalar s.b j p, s.swaps + 1⟩
  pure ⟨loop (j + 1) dim (elimRow S dim j) s.M, s.b, s.swaps⟩

/-- eliminateGauss (directsolve.cpp:51-77). `j + 1 < dim` is `j < dim - 1` with truncated
subtraction. -/
def eliminateGauss (algo : Algo) (dim : ℕ) (M : ℕ → ℕ → V) (b : ℕ → V) : Except Err (St V) :=
  loopM 0 (dim - 1) (elimCol S algo dim) ⟨M, b, 0⟩

/-- Forward substitution (directsolve.cpp:86-88). -/
def forward (dim : ℕ) (M : ℕ → ℕ → V) (b : ℕ → V) : ℕ → V :=
  loop 0 dim (fun i b => loop 0 i (fun j b => set1 b i (S.sub (b i) (S.mul (M i j) (b j)))) b) b

/-- The body of the loop of the backward substitution (directsolve.cpp:91-99). The diagonal entry is
simplified in place; it is not used again. -/
def backStep (dim : ℕ) (M : ℕ → ℕ → V) (b : ℕ → V) (i : ℕ) (x : ℕ → V) : Except Err (ℕ → V) :=
  let x := loop (i + 1) dim (fun j x => set1 x i (S.sub (x i) (S.mul (M i j) (x j)))) x
  let d := S.simplify (M i i)
  if S.isZero d then .error .invalidArgument
  else .ok (set1 x i (S.simplify (S.div (S.add (b i) (x i)) d)))

/-- computeSolution (directsolve.cpp:79-101). -/
def computeSolution (dim : ℕ) (M : ℕ → ℕ → V) (b x : ℕ → V) : Except Err (ℕ → V) :=
  loopDownM (backStep S dim M (forward S dim M b)) dim (loop 0 dim (fun i x => set1 x i S.zero) x)

/-- Element access of SquareMatrixAdaptor (stdvecwrapper.h:21-33). An index out of range would be
undefined behaviour; it gives zero here and the theorems only use vectors that are long enough. -/
def mat (l : List V) (dim : ℕ) : ℕ → ℕ → V := fun i j => (l[i * dim + j]?).getD S.zero

/-- Element access of VectorAdaptor (stdvecwrapper.h:8-19). -/
def vec (l : List V) : ℕ → V := fun i => (l[i]?).getD S.zero

/-- detail::solve (solve.cpp:28-41). `Var()` is zero. -/
def detailSolve (A b : List V) (dim : ℕ) (algo : Algo) : Except Err (List V) := do
  let s ← eliminateGauss S algo dim (mat S A dim) (vec S b)
  let x ← computeSolution S dim s.M s.b (fun _ => S.zero)
  pure ((List.range dim).map x)

/-- detFromPlu (solve.cpp:10-19). -/
def detFromPlu (dim : ℕ) (M : ℕ → ℕ → V) (swaps : ℕ) : V :=
  S.simplify (loop 0 dim (fun i d => S.mul d (M i i)) (if swaps % 2 = 0 then S.one else S.minusOne))

/-- detail::determinant (solve.cpp:43-53). -/
def detailDeterminant (A : List V) (dim : ℕ) (algo : Algo) : Except Err V := do
  let s ← eliminateGauss S algo dim (mat S A dim) (fun _ => S.zero)
  pure (detFromPlu S dim s.M s.swaps)

/-- The body of the loop of detail::invert (solve.cpp:66-79): solution for one unit vector, stored as
a column. -/
def invertColumn (A : List V) (dim : ℕ) (algo : Algo) (i : ℕ) (inv : ℕ → ℕ → V) :
    Except Err (ℕ → ℕ → V) := do
  let rhs := fun j => if i = j then S.one else S.zero
  let s ← eliminateGauss S algo dim (mat S A dim) rhs
  let x ← computeSolution S dim s.M s.b (fun _ => S.zero)
  pure (loop 0 dim (fun r inv => set inv r i (x r)) inv)

/-- detail::invert (solve.cpp:55-83): the vector of the inverse, row by row. -/
def detailInvert (A : List V) (dim : ℕ) (algo : Algo) : Except Err (List V) := do
  let inv ← loopM 0 dim (invertColumn S A dim algo) (fun _ _ => S.zero)
  pure ((List.range dim).flatMap (fun i => (List.range dim).map (inv i)))

/-- toStdVec for a vector (solve.h:53-71). -/
def toStdVec1 (src : ℕ → V) (skip : ℕ → Bool) (dim : ℕ) : List V :=
  loop 0 dim (fun i l => if skip i then l else l ++ [src i]) []

/-- toStdVec for a matrix (solve.h:73-96). -/
def toStdVec2 (src : ℕ → ℕ → V) (skip : ℕ → Bool) (rows cols : ℕ) : List V :=
  loop 0 rows (fun i l => if skip i then l
    else loop 0 cols (fun j l => if skip j then l else l ++ [src i j]) l) []

/-- fromStdVec for a vector (solve.h:98-111); the iterator is the rest of the list. Reading past the
end is undefined behaviour. -/
def fromStdVec1 (src : List V) (dest : ℕ → V) (skip : ℕ → Bool) (dim : ℕ) :
    Except Err ((ℕ → V) × List V) :=
  loopM 0 dim (fun i (s : (ℕ → V) × List V) =>
    if skip i then .ok s
    else match s.2 with
      | [] => .error .ub
      | v :: vs => .ok (set1 s.1 i v, vs)) (dest, src)

/-- fromStdVec for a matrix (solve.h:113-133). -/
def fromStdVec2 (src : List V) (dest : ℕ → ℕ → V) (skip : ℕ → Bool) (rows cols : ℕ) :
    Except Err ((ℕ → ℕ → V) × List V) :=
  loopM 0 rows (fun i (s : (ℕ → ℕ → V) × List V) =>
    if skip i then .ok s
    else loopM 0 cols (fun j (s : (ℕ → ℕ → V) × List V) =>
      if skip j then .ok s
      else match s.2 with
        | [] => .error .ub
        | v :: vs => .ok (set s.1 i j v, vs)) s) (dest, src)

/-- `std::count(skip.cbegin(), skip.cend(), false)` (solve.h:164, 179). -/
def countFalse (skip : ℕ → Bool) (dim : ℕ) : ℕ := (List.range dim).countP (fun i => !skip i)

/-- solve with a skip field (solve.h:140-152): the new contents of `x`. -/
def solve (A : ℕ → ℕ → V) (b x : ℕ → V) (skip : ℕ → Bool) (dim : ℕ) (algo : Algo) :
    Except Err (ℕ → V) := do
  let coeff := toStdVec2 A skip dim dim
  let rhs := toStdVec1 b skip dim
  let result ← detailSolve S coeff rhs rhs.length algo
  let r ← fromStdVec1 result x skip dim
  pure r.1

/-- determinant with a skip field (solve.h:160-168). -/
def determinant (A : ℕ → ℕ → V) (skip : ℕ → Bool) (dim : ℕ) (algo : Algo) : Except Err V :=
  detailDeterminant S (toStdVec2 A skip dim dim) (countFalse skip dim) algo

/-- invert with a skip field (solve.h:175-185): the new contents of `A`. -/
def invert (A : ℕ → ℕ → V) (skip : ℕ → Bool) (dim : ℕ) (algo : Algo) :
    Except Err (ℕ → ℕ → V) := do
  let r ← detailInvert S (toStdVec2 A skip dim dim) (countFalse skip dim) algo
  let r ← fromStdVec2 r A skip dim dim
  pure r.1

/-- detail::defaultSkip (solve.h:48-51), used by the overloads without skip field. -/
def defaultSkip : ℕ → Bool := fun _ => false

end Lin

end Tsym
