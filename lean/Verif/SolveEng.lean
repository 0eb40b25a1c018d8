import Verif.Api
import Verif.Solve

/-!
# Linear systems over expressions (src/directsolve.cpp, src/solve.cpp, include/tsym/solve.h)

The same functions as in Solve.lean, where the scalars are any type with operations, but here with the
operators of the library itself: each operation is a computation that may fail and that records the
conditions under which its result has the expected value. Divisions by a pivot additionally record
that the value of the pivot is not zero; this has no counterpart in the code.
-/

set_option autoImplicit false

namespace Tsym.LinE

open Expr

variable {D : Type} [Flt D]

/-- `for (std::size_t i = lo; i < hi; ++i) s = f(i, s);` -/
def loop {α : Type} (lo hi : ℕ) (f : ℕ → α → M D α) (s : α) : M D α :=
  go f (hi - lo) lo s
where
  /-- `n` rounds from index `i` on. -/
  go (f : ℕ → α → M D α) : ℕ → ℕ → α → M D α
    | 0, _, s => pure s
    | n + 1, i, s => do
      let s ← f i s
      go f n (i + 1) s

/-- `for (std::size_t i = n - 1; i + 1 > 0; --i)` -/
def loopDown {α : Type} (f : ℕ → α → M D α) : ℕ → α → M D α
  | 0, s => pure s
  | n + 1, s => do
    let s ← f n s
    loopDown f n s

/-- `v == 0` (var.cpp:197-200). -/
def isZero (v : Expr D) : Bool := isEqual v zero

/-- firstNonZeroPivot (directsolve.cpp:7-16): the loop from index `i` on, for `n` rounds. -/
def firstNonZeroFrom (M : ℕ → ℕ → Expr D) (row : ℕ) : ℕ → ℕ → Except Err ℕ
  | 0, _ => .error .invalidArgument
  | n + 1, i => if isZero (M i row) then firstNonZeroFrom M row n (i + 1) else .ok i

/-- leastComplexityPivot (directsolve.cpp:18-34). -/
def leastComplexityPivot (dim : ℕ) (M : ℕ → ℕ → Expr D) (row : ℕ) : ℕ :=
  (Lin.loop row dim (fun i (s : ℕ × ℕ) =>
    if !isZero (M i row) && decide (Api.complexity (M i row) < s.1)
    then (Api.complexity (M i row), i) else s) (Lin.unsignedMax, row)).2

/-- selectPivot (solve.cpp:22-25) and the call of the selected function. -/
def pivot (algo : Lin.Algo) (dim : ℕ) (M : ℕ → ℕ → Expr D) (row : ℕ) : Except Err ℕ :=
  match algo with
  | .gauss => firstNonZeroFrom M row (dim - row) row
  | .gaussLCPivot => .ok (leastComplexityPivot dim M row)

variable (E : Eng D)

/-- The body of the loop over `i` (directsolve.cpp:69-72). -/
def elimRow (dim j i : ℕ) (A : ℕ → ℕ → Expr D) : M D (ℕ → ℕ → Expr D) := do
  let q ← Api.div E (A i j) (A j j)
  M.log (.nz (A j j))
  let q ← Api.simplify E q
  loop (j + 1) dim (fun k A => do
    let p ← Api.mul E (A i j) (A j k)
    let d ← Api.sub E (A i k) p
    let r ← Api.simplify E d
    pure (Lin.set A i k r)) (Lin.set A i j q)

/-- The body of the loop over `j` (directsolve.cpp:57-73). Without a right hand side, as in
`determinant`, the component `b` is a dummy. -/
def elimCol (algo : Lin.Algo) (dim j : ℕ) (s : Lin.St (Expr D)) : M D (Lin.St (Expr D)) := do
  let p ← M.lift (pivot algo dim s.M j)
  let s : Lin.St (Expr D) := if p = j then s
    else ⟨Lin.swapRows dim s.M j p, Lin.swapScalar s.b j p, s.swaps + 1⟩
  let A ← loop (j + 1) dim (elimRow E dim j) s.M
  pure ⟨A, s.b, s.swaps⟩

/-- eliminateGauss (directsolve.cpp:51-77). -/
def eliminateGauss (algo : Lin.Algo) (dim : ℕ) (A : ℕ → ℕ → Expr D) (b : ℕ → Expr D) :
    M D (Lin.St (Expr D)) :=
  loop 0 (dim - 1) (elimCol E algo dim) ⟨A, b, 0⟩

/-- One step `x(i) -= coeff(i, j) * x(j);` (directsolve.cpp:88, 92). -/
def subMul (A : ℕ → ℕ → Expr D) (i j : ℕ) (x : ℕ → Expr D) : M D (ℕ → Expr D) := do
  let p ← Api.mul E (A i j) (x j)
  let d ← Api.sub E (x i) p
  pure (Lin.set1 x i d)

/-- Forward substitution (directsolve.cpp:86-88). -/
def forward (dim : ℕ) (A : ℕ → ℕ → Expr D) (b : ℕ → Expr D) : M D (ℕ → Expr D) :=
  loop 0 dim (fun i b => loop 0 i (fun j b => subMul E A i j b) b) b

/-- The body of the loop of the backward substitution (directsolve.cpp:91-99). The diagonal entry is
simplified in place; it is not used again. -/
def backStep (dim : ℕ) (A : ℕ → ℕ → Expr D) (b : ℕ → Expr D) (i : ℕ) (x : ℕ → Expr D) :
    M D (ℕ → Expr D) := do
  let x ← loop (i + 1) dim (fun j x => subMul E A i j x) x
  let d ← Api.simplify E (A i i)
  if isZero d then M.err .invalidArgument
  else (do
    let s ← Api.add E (b i) (x i)
    let q ← Api.div E s d
    M.log (.nz d)
    let r ← Api.simplify E q
    pure (Lin.set1 x i r))

/-- computeSolution (directsolve.cpp:79-101). -/
def computeSolution (dim : ℕ) (A : ℕ → ℕ → Expr D) (b x : ℕ → Expr D) : M D (ℕ → Expr D) := do
  let b ← forward E dim A b
  loopDown (backStep E dim A b) dim (Lin.loop 0 dim (fun i x => Lin.set1 x i zero) x)

/-- Element access of SquareMatrixAdaptor (stdvecwrapper.h:21-33). An index out of range would be
undefined behaviour; it gives zero here and the theorems only use vectors that are long enough. -/
def mat (l : List (Expr D)) (dim : ℕ) : ℕ → ℕ → Expr D := fun i j => (l[i * dim + j]?).getD zero

/-- Element access of VectorAdaptor (stdvecwrapper.h:8-19). -/
def vec (l : List (Expr D)) : ℕ → Expr D := fun i => (l[i]?).getD zero

/-- detail::solve (solve.cpp:28-41). `Var()` is zero. -/
def detailSolve (A b : List (Expr D)) (dim : ℕ) (algo : Lin.Algo) : M D (List (Expr D)) := do
  let s ← eliminateGauss E algo dim (mat A dim) (vec b)
  let x ← computeSolution E dim s.M s.b (fun _ => zero)
  pure ((List.range dim).map x)

/-- detFromPlu (solve.cpp:10-19). -/
def detFromPlu (dim : ℕ) (A : ℕ → ℕ → Expr D) (swaps : ℕ) : M D (Expr D) := do
  let d ← loop 0 dim (fun i d => Api.mul E d (A i i)) (if swaps % 2 = 0 then one else mOne)
  Api.simplify E d

/-- detail::determinant (solve.cpp:43-53). -/
def detailDeterminant (A : List (Expr D)) (dim : ℕ) (algo : Lin.Algo) : M D (Expr D) := do
  let s ← eliminateGauss E algo dim (mat A dim) (fun _ => zero)
  detFromPlu E dim s.M s.swaps

/-- The body of the loop of detail::invert (solve.cpp:62-80): solution for one unit vector, stored as
a column. -/
def invertColumn (A : List (Expr D)) (dim : ℕ) (algo : Lin.Algo) (i : ℕ) (inv : ℕ → ℕ → Expr D) :
    M D (ℕ → ℕ → Expr D) := do
  let rhs := fun j => if i = j then one else zero
  let s ← eliminateGauss E algo dim (mat A dim) rhs
  let x ← computeSolution E dim s.M s.b (fun _ => zero)
  pure (Lin.loop 0 dim (fun r inv => Lin.set inv r i (x r)) inv)

/-- detail::invert (solve.cpp:55-83): the vector of the inverse, row by row. -/
def detailInvert (A : List (Expr D)) (dim : ℕ) (algo : Lin.Algo) : M D (List (Expr D)) := do
  let inv ← loop 0 dim (invertColumn E A dim algo) (fun _ _ => zero)
  pure ((List.range dim).flatMap (fun i => (List.range dim).map (inv i)))

/-- solve with a skip field (solve.h:140-152): the new contents of `x`. -/
def solve (A : ℕ → ℕ → Expr D) (b x : ℕ → Expr D) (skip : ℕ → Bool) (dim : ℕ) (algo : Lin.Algo) :
    M D (ℕ → Expr D) := do
  let coeff := Lin.toStdVec2 A skip dim dim
  let rhs := Lin.toStdVec1 b skip dim
  let result ← detailSolve E coeff rhs rhs.length algo
  let r ← M.lift (Lin.fromStdVec1 result x skip dim)
  pure r.1

/-- determinant with a skip field (solve.h:160-168). -/
def determinant (A : ℕ → ℕ → Expr D) (skip : ℕ → Bool) (dim : ℕ) (algo : Lin.Algo) : M D (Expr D) :=
  detailDeterminant E (Lin.toStdVec2 A skip dim dim) (Lin.countFalse skip dim) algo

/-- invert with a skip field (solve.h:175-185): the new contents of `A`. -/
def invert (A : ℕ → ℕ → Expr D) (skip : ℕ → Bool) (dim : ℕ) (algo : Lin.Algo) :
    M D (ℕ → ℕ → Expr D) := do
  let r ← detailInvert E (Lin.toStdVec2 A skip dim dim) (Lin.countFalse skip dim) algo
  let r ← M.lift (Lin.fromStdVec2 r A skip dim dim)
  pure r.1

end Tsym.LinE
