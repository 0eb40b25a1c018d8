import Verif.SolveEng

/-!
# LU decomposition without pivots (src/ludecomp.h)

Class LUDecomposition, which the library itself does not use (it is used in
unit-tests/testludecomposition.cpp), once for any scalars (as in Solve.lean) and once with the operators of
the library (as in SolveEng.lean). The matrix that the class refers to is part of the arguments and
results.
-/

set_option autoImplicit false

namespace Tsym

namespace Lin

variable {V : Type} (S : Scalar V)

/-- The body of the loop over `i` in factorize (ludecomp.h:27-29). -/
def luRow (dim j i : ℕ) (M : ℕ → ℕ → V) : ℕ → ℕ → V :=
  loop (j + 1) dim (fun k M => set M i k (S.sub (M i k) (S.mul (M i j) (M j k)))) (set M i j (S.div (M i j) (M j j)))

/-- factorize (ludecomp.h:23-31). `j + 1 < dim` is `j < dim - 1` with truncated subtraction. -/
def luFactorize (dim : ℕ) (M : ℕ → ℕ → V) : ℕ → ℕ → V :=
  loop 0 (dim - 1) (fun j M => loop (j + 1) dim (luRow S dim j) M) M

/-- The body of the last loop of computeSolution (ludecomp.h:44-52), on the matrix and `x`. -/
def luBackStep (dim : ℕ) (b : ℕ → V) (i : ℕ) (s : (ℕ → ℕ → V) × (ℕ → V)) : Except Err ((ℕ → ℕ → V) × (ℕ → V)) :=
  let x := loop (i + 1) dim (fun j x => set1 x i (S.sub (x i) (S.mul (s.1 i j) (x j)))) s.2
  let M := set s.1 i i (S.simplify (s.1 i i))
  if S.isZero (M i i) then .error .invalidArgument
  else .ok (M, set1 x i (S.simplify (S.div (S.add (b i) (x i)) (M i i))))

/-- computeSolution (ludecomp.h:33-54): the new contents of the matrix and of `x`. The new contents of
the right hand side, the forward substitution, are left out. -/
def luComputeSolution (dim : ℕ) (M : ℕ → ℕ → V) (b x : ℕ → V) : Except Err ((ℕ → ℕ → V) × (ℕ → V)) :=
  loopDownM (luBackStep S dim (forward S dim M b)) dim (M, loop 0 dim (fun i x => set1 x i S.zero) x)

end Lin

namespace LinE

open Expr

variable {D : Type} [Flt D] (E : Eng D)

/-- The body of the loop over `i` in factorize (ludecomp.h:27-29). The condition that the value of the pivot is
not zero has no counterpart in the code. -/
def luRow (dim j i : ℕ) (A : ℕ → ℕ → Expr D) : M D (ℕ → ℕ → Expr D) := do
  let q ← Api.div E (A i j) (A j j)
  M.log (.nz (A j j))
  loop (j + 1) dim (fun k A => do
    let p ← Api.mul E (A i j) (A j k)
    let d ← Api.sub E (A i k) p
    pure (Lin.set A i k d)) (Lin.set A i j q)

/-- factorize (ludecomp.h:23-31). -/
def luFactorize (dim : ℕ) (A : ℕ → ℕ → Expr D) : M D (ℕ → ℕ → Expr D) :=
  loop 0 (dim - 1) (fun j A => loop (j + 1) dim (luRow E dim j) A) A

/-- The body of the last loop of computeSolution (ludecomp.h:44-52), on the matrix and `x`. The condition
that the value of the diagonal entry is not zero has no counterpart in the code. -/
def luBackStep (dim : ℕ) (b : ℕ → Expr D) (i : ℕ) (s : (ℕ → ℕ → Expr D) × (ℕ → Expr D)) :
    M D ((ℕ → ℕ → Expr D) × (ℕ → Expr D)) := do
  let x ← loop (i + 1) dim (fun j x => subMul E s.1 i j x) s.2
  let d ← Api.simplify E (s.1 i i)
  if isZero d then M.err .invalidArgument
  else (do
    let u ← Api.add E (b i) (x i)
    let q ← Api.div E u d
    M.log (.nz d)
    let r ← Api.simplify E q
    pure (Lin.set s.1 i i d, Lin.set1 x i r))

/-- computeSolution (ludecomp.h:33-54): the new contents of the matrix and of `x`. The new contents of
the right hand side, the forward substitution, are left out. -/
def luComputeSolution (dim : ℕ) (A : ℕ → ℕ → Expr D) (b x : ℕ → Expr D) : M D ((ℕ → ℕ → Expr D) × (ℕ → Expr D)) := do
  let b ← forward E dim A b
  loopDown (luBackStep E dim b) dim (A, Lin.loop 0 dim (fun i x => Lin.set1 x i zero) x)

end LinE

end Tsym
