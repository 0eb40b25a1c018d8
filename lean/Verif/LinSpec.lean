import Mathlib.LinearAlgebra.Matrix.NonsingularInverse

/-!
# Specification for linear systems with a skip field
-/

set_option autoImplicit false

namespace Tsym.Lin

open Finset

variable {K : Type} [Field K]

/-- The part of the matrix whose rows and columns are not skipped. -/
def subMatrix (skip : ℕ → Bool) (dim : ℕ) (A : ℕ → ℕ → K) :
    Matrix {i : Fin dim // skip i = false} {i : Fin dim // skip i = false} K :=
  Matrix.of fun i k => A i.1 k.1

/-- `x` solves the kept equations for the kept unknowns. -/
def SolvesKept (skip : ℕ → Bool) (dim : ℕ) (A : ℕ → ℕ → K) (b x : ℕ → K) : Prop :=
  ∀ i < dim, skip i = false →
    ∑ k ∈ (range dim).filter (fun k => skip k = false), A i k * x k = b i

/-- An index that takes part. -/
def Kept (skip : ℕ → Bool) (dim i : ℕ) : Prop := i < dim ∧ skip i = false

end Tsym.Lin
