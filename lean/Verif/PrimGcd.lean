import Verif.Mono

set_option autoImplicit false
set_option linter.unusedSectionVars false

/-!
# The second algorithm for greatest common divisors (src/primitivegcd.cpp, src/gcd.cpp)

Class PrimitiveGcd implements the abstract class Gcd as class SubresultantGcd does. The library calls it
nowhere: it is handed over by a caller of poly::gcd and poly::content with three arguments.
-/

namespace Tsym

open Expr

variable {D : Type} [Flt D] (E : Eng D)

/-- The functions of the library, where poly::gcd and poly::content with an algorithm as last argument
(poly.cpp:280-299, with nonTrivialContent, poly.cpp:162-172) use the given one. All other functions
of the record are called with the default algorithm. -/
def Eng.withGcd (G : Expr D → Expr D → List (Expr D) → M D (Expr D)) : Eng D := { E with gcdL := G }

/-- One round of the loop in PrimitiveGcd::gcdAlgo (primitivegcd.cpp:19-33), with the polynomials
uPrimPart and vPrimPart: the last uPrimPart, or nothing for an undefined remainder. The content of the
remainder is computed with the default algorithm (primitivegcd.cpp:29). -/
def primStep (x : Expr D) (L : List (Expr D)) (s : Expr D × Expr D) :
    M D ((Expr D × Expr D) ⊕ Option (Expr D)) :=
  if s.2.isZero then pure (.inr (some s.1))
  else do
    let remainder ← pseudoRemainder E s.1 s.2 x
    if remainder.isZero then pure (.inl (s.2, zero))
    else if remainder.isUndefined then pure (.inr none)
    else do
      let c ← polyContent E remainder x
      let q ← E.divideL remainder c L
      pure (.inl (s.2, q.1))

/-- PrimitiveGcd::gcdAlgo (primitivegcd.cpp:9-36). `G` stands for the method compute of the object
itself. -/
def primAlgo (G : Expr D → Expr D → List (Expr D) → M D (Expr D)) (u v : Expr D) : List (Expr D) → M D (Expr D)
  | [] => M.err .ub
  | x :: R => do
    let uc ← polyContent (E.withGcd G) u x
    let vc ← polyContent (E.withGcd G) v x
    let d ← G uc vc R
    let U ← E.divideL u uc (x :: R)
    let V ← E.divideL v vc (x :: R)
    let r ← M.loop E.steps (primStep E x (x :: R)) (U.1, V.1)
    match r with
    | none => pure one
    | some U => do
      let p ← E.prodCreate [d, U]
      E.expand p

/-- Gcd::gcdViaAlgo (gcd.cpp:85-96) with class PrimitiveGcd. -/
def primViaAlgo (G : Expr D → Expr D → List (Expr D) → M D (Expr D)) (u v : Expr D) (L : List (Expr D)) : M D (Expr D) := do
  let c ← integerContent2 u v
  let f ← E.oneOver c
  let ur ← E.prodCreate [f, u]
  let vr ← E.prodCreate [f, v]
  let g ← primAlgo E G ur vr L
  E.prodCreate [c, g]

/-- The middle part of Gcd::compute with a list of symbols (gcd.cpp:34-49) with class PrimitiveGcd:
nothing stands for the early exit. -/
def primRaw (G : Expr D → Expr D → List (Expr D) → M D (Expr D)) (u v ue ve : Expr D) (L : List (Expr D)) : M D (Option (Expr D)) :=
  if ue.isOne || ve.isOne then pure (some one)
  else if ue.isZero && ve.isZero then pure none
  else if ue.isZero then pure (some ve)
  else if ve.isZero then pure (some ue)
  else if isEqual ue ve then pure (some ue)
  else match ue, ve with
    | .num a, .num b => do
      let g ← computeNumerics a b
      pure (some g)
    | _, _ =>
      if !haveCommonSymbol u v L then do
        let c ← integerContent2 u v
        pure (some c)
      else do
        let g ← primViaAlgo E G ue ve L
        pure (some g)

/-- Gcd::compute with a list of symbols (gcd.cpp:26-52) with class PrimitiveGcd. The number bounds the
depth of the calls of compute by itself. -/
def primL : Nat → Expr D → Expr D → List (Expr D) → M D (Expr D)
  | 0, _, _, _ => M.err .fuel
  | k + 1, u, v, L => do
    let ue ← E.expand u
    let ve ← E.expand v
    if L.isEmpty && !(ue.isNumeric && ve.isNumeric) then M.err .assert
    else do
      let r ← primRaw E (primL k) u v ue ve L
      match r with
      | none => pure .undef
      | some g => normalizeGcd E g L

/-- poly::gcd with class PrimitiveGcd (poly.cpp:280-283, gcd.cpp:16-24). -/
def primGcd (u v : Expr D) : M D (Expr D) := polyGcd (E.withGcd (primL E E.steps)) u v

/-- poly::content with class PrimitiveGcd (poly.cpp:290-299). -/
def primContent (p x : Expr D) : M D (Expr D) := polyContent (E.withGcd (primL E E.steps)) p x

/-! ## Monotonicity -/

open Lean.Order

section

variable {γ : Type} [Lean.Order.PartialOrder γ]

theorem withGcd_mono {F : γ → Eng D} {G : γ → Expr D → Expr D → List (Expr D) → M D (Expr D)} (hF : monotone F) (hG : monotone G) :
    monotone fun x => (F x).withGcd (G x) :=
  fun x y h => { hF x y h with gcdL := hG x y h }

monotone_def primStep (a0 a1 a2) : fun E : Eng D => primStep E a0 a1 a2

theorem monotone_app3 {α β δ ε : Type} [Lean.Order.PartialOrder ε] {G : γ → α → β → δ → ε} (hG : monotone G) (a : α) (b : β) (d : δ) : monotone fun x => G x a b d :=
  fun x y h => hG x y h a b d

theorem primAlgo_mono (u v : Expr D) (L : List (Expr D)) {F : γ → Eng D} {G : γ → Expr D → Expr D → List (Expr D) → M D (Expr D)} (hF : monotone F) (hG : monotone G) :
    monotone fun x => primAlgo (F x) (G x) u v L := by
  have h1 := withGcd_mono hF hG
  have h3 := fun a b d => monotone_app3 hG a b d
  cases L with
  | nil => exact fun _ _ _ => PartialOrder.rel_refl
  | cons x R =>
    simp only [primAlgo]
    repeat' (first | exact polyContent_mono _ _ _ h1 | exact h1 | exact h3 _ _ _ | exact hF | mono_step)

theorem primViaAlgo_mono (u v : Expr D) (L : List (Expr D)) {F : γ → Eng D} {G : γ → Expr D → Expr D → List (Expr D) → M D (Expr D)} (hF : monotone F) (hG : monotone G) :
    monotone fun x => primViaAlgo (F x) (G x) u v L := by
  unfold primViaAlgo
  repeat' (first | exact primAlgo_mono _ _ _ hF hG | exact hF | mono_step)

theorem primRaw_mono (u v ue ve : Expr D) (L : List (Expr D)) {F : γ → Eng D} {G : γ → Expr D → Expr D → List (Expr D) → M D (Expr D)} (hF : monotone F) (hG : monotone G) :
    monotone fun x => primRaw (F x) (G x) u v ue ve L := by
  unfold primRaw
  repeat' (first | exact primViaAlgo_mono _ _ _ hF hG | exact hF | mono_step)

end

theorem primL_le {E F : Eng D} (h : E ⊑ F) : ∀ {k m : ℕ}, k ≤ m → primL E k ⊑ primL F m := by
  intro k
  induction k with
  | zero => intro m _ u v L; exact .inl rfl
  | succ k ih =>
    intro m hm u v L
    obtain ⟨m, rfl⟩ : ∃ j, m = j + 1 := ⟨m - 1, by omega⟩
    have hG : primL E k ⊑ primL F m := ih (by omega)
    have key : ∀ u v ue ve L, primRaw E (primL E k) u v ue ve L ⊑ primRaw F (primL F m) u v ue ve L := by
      intro u v ue ve L
      have hm' := primRaw_mono (γ := Eng D ×' (Expr D → Expr D → List (Expr D) → M D (Expr D))) u v ue ve L (F := fun p => p.1) (G := fun p => p.2)
        (fun _ _ h => h.1) (fun _ _ h => h.2)
      exact hm' ⟨E, primL E k⟩ ⟨F, primL F m⟩ ⟨h, hG⟩
    simp only [primL]
    refine PartialOrder.rel_trans (MonoBind.bind_mono_left (h.expand u)) (MonoBind.bind_mono_right fun ue => ?_)
    refine PartialOrder.rel_trans (MonoBind.bind_mono_left (h.expand v)) (MonoBind.bind_mono_right fun ve => ?_)
    split
    · exact PartialOrder.rel_refl
    · refine PartialOrder.rel_trans (MonoBind.bind_mono_left (key u v ue ve L)) (MonoBind.bind_mono_right fun r => ?_)
      cases r with
      | none => exact PartialOrder.rel_refl
      | some g => exact normalizeGcd_mono g L id monotone_id E F h

monotone_def primGcd (u v) : fun E : Eng D => primGcd E u v :=
  polyGcd_mono u v _ (withGcd_mono monotone_id fun _ _ h => primL_le h h.steps)
monotone_def primContent (p x) : fun E : Eng D => primContent E p x :=
  polyContent_mono p x _ (withGcd_mono monotone_id fun _ _ h => primL_le h h.steps)

end Tsym
