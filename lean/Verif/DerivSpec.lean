import Verif.Den
import Verif.ExprThm
import Mathlib.Analysis.Calculus.Deriv.Basic

set_option autoImplicit false

/-!
# Specification: derivatives

Nothing here refers to the simplification code.
-/

namespace Tsym

open Expr Filter Topology

variable {D : Type} [Flt D] [LawfulFlt D]

/-- Near the point, the expression as a function of the symbol `x` has values, and the derivative at
the point is `d`. -/
def Derives (σ : Asg) (x : Sym) (a : Expr D) (d : ℝ) : Prop :=
  ∃ f : ℝ → ℝ, (∀ᶠ t in 𝓝 (σ x), den (Function.update σ x t) a = some (f t)) ∧ HasDerivAt f d (σ x)

/-- At the point, `a` is put together from differentiable functions of `x`. -/
inductive Smooth (σ : Asg) (x : Sym) : Expr D → Prop where
  | const {a v} : ¬ Occurs (.sym x) a → den σ a = some v → Smooth σ x a
  | sym : Smooth σ x (.sym x)
  | sum {l} : (∀ a ∈ l, Smooth σ x a) → Smooth σ x (.sum l)
  | prod {l} : (∀ a ∈ l, Smooth σ x a) → Smooth σ x (.prod l)
  | pow {b e v} : Smooth σ x b → Smooth σ x e → den σ b = some v → 0 < v → Smooth σ x (.pow b e)
  | powInt {b e v} {n : ℤ} : Smooth σ x b → ¬ Occurs (.sym x) e → den σ e = some (n : ℝ) →
      den σ b = some v → v ≠ 0 → Smooth σ x (.pow b e)
  | log {a v} : Smooth σ x a → den σ a = some v → 0 < v → Smooth σ x (.fn .log a)
  | sin {a} : Smooth σ x a → Smooth σ x (.fn .sin a)
  | cos {a} : Smooth σ x a → Smooth σ x (.fn .cos a)
  | tan {a v} : Smooth σ x a → den σ a = some v → Real.cos v ≠ 0 → Smooth σ x (.fn .tan a)
  | asin {a v} : Smooth σ x a → den σ a = some v → -1 < v → v < 1 → Smooth σ x (.fn .asin a)
  | acos {a v} : Smooth σ x a → den σ a = some v → -1 < v → v < 1 → Smooth σ x (.fn .acos a)
  | atan {a} : Smooth σ x a → Smooth σ x (.fn .atan a)

end Tsym
