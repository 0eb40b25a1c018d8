import Verif.Printer
import Verif.Mono

set_option autoImplicit false
set_option linter.unusedSectionVars false

/-!
# Printing with more depth does not change the text
-/

namespace Tsym.Printer

open Lean.Order

variable {D : Type} [Flt D] {γ : Type} [Lean.Order.PartialOrder γ] (o : Opt D) {F : γ → Eng D} {T : γ → Expr D → M D Str}

theorem top_mono (hT : monotone T) (e : Expr D) : monotone fun y => T y e := monotone_apply e T hT

theorem sumLoop_mono (hF : monotone F) (hT : monotone T) (l : List (Expr D)) : monotone fun y => sumLoop o (F y) (T y) l := by
  induction l with
  | nil => unfold sumLoop; repeat' monotonicity
  | cons a l ih => unfold sumLoop; repeat' (first | exact ih | exact hF | exact hT | exact top_mono hT _ | monotonicity)

theorem factor_mono (hT : monotone T) (c : Cat) (f : Expr D) : monotone fun y => factor o (T y) c f := by
  unfold factor; repeat' (first | exact hT | exact top_mono hT _ | monotonicity)

theorem factors_mono (hT : monotone T) (l : List (Expr D)) : monotone fun y => factors o (T y) l := by
  induction l with
  | nil => unfold factors; repeat' monotonicity
  | cons a l ih => unfold factors; repeat' (first | exact ih | exact factor_mono o hT _ _ | exact hT | exact top_mono hT _ | monotonicity)

theorem productPlain_mono (hF : monotone F) (hT : monotone T) (l : List (Expr D)) : monotone fun y => productPlain o (F y) (T y) l := by
  unfold productPlain
  split <;> repeat' (first | exact factors_mono o hT _ | exact factor_mono o hT _ _ | exact hF | exact hT | exact top_mono hT _ | monotonicity)

theorem fracLoop_mono (hF : monotone F) (l : List (Expr D)) : monotone fun y => fracLoop (F y) l := by
  induction l with
  | nil => unfold fracLoop; repeat' monotonicity
  | cons a l ih => unfold fracLoop; repeat' (first | exact ih | exact hF | monotonicity)

theorem productFrac_mono (hF : monotone F) (l : List (Expr D)) : monotone fun y => productFrac (F y) l := by
  unfold productFrac
  repeat' (first | exact fracLoop_mono hF _ | exact hF | monotonicity)

theorem numerator_mono (hF : monotone F) (hT : monotone T) (l : List (Expr D)) : monotone fun y => numerator o (F y) (T y) l := by
  unfold numerator
  split <;> repeat' (first | exact productPlain_mono o hF hT _ | exact top_mono hT _ | monotonicity)

theorem composite_mono (hF : monotone F) (hT : monotone T) (l : List (Expr D)) : monotone fun y => composite (F y) (T y) l := by
  unfold composite
  repeat' (first | exact hF | exact top_mono hT _ | monotonicity)

theorem denominator_mono (hF : monotone F) (hT : monotone T) (l : List (Expr D)) : monotone fun y => denominator o (F y) (T y) l := by
  unfold denominator
  split <;> repeat' (first | exact composite_mono hF hT _ | exact top_mono hT _ | monotonicity)

theorem product_mono (hF : monotone F) (hT : monotone T) (l : List (Expr D)) : monotone fun y => product o (F y) (T y) l := by
  unfold product
  repeat' (first | exact productPlain_mono o hF hT _ | exact productFrac_mono hF _ | exact numerator_mono o hF hT _ | exact denominator_mono o hF hT _ | monotonicity)

theorem power_mono (hF : monotone F) (hT : monotone T) (b e : Expr D) : monotone fun y => power o (F y) (T y) b e := by
  unfold power powerNeg powerBase powerExponent
  repeat' (first | exact hF | exact top_mono hT _ | monotonicity)

theorem step_mono (hF : monotone F) (hT : monotone T) (e : Expr D) : monotone fun y => step o (F y) (T y) e := by
  unfold step
  split
  case h_4 =>
    unfold sum
    split <;> repeat' (first | exact sumLoop_mono o hF hT _ | exact top_mono hT _ | monotonicity)
  all_goals repeat' (first | exact power_mono o hF hT _ _ | exact product_mono o hF hT _ | exact top_mono hT _ | monotonicity)

theorem toplevel_le {E F : Eng D} (h : E ⊑ F) {n m : Nat} (hn : n ≤ m) (e : Expr D) : toplevel o E n e ⊑ toplevel o F m e := by
  induction n generalizing m e with
  | zero => exact .inl rfl
  | succ n ih =>
    obtain ⟨m, rfl⟩ : ∃ k, m = k + 1 := ⟨m - 1, by omega⟩
    have h1 : monotone fun p : Eng D ×' (Expr D → M D Str) => p.1 := PProd.monotone_fst (f := id) monotone_id
    have h2 : monotone fun p : Eng D ×' (Expr D → M D Str) => p.2 := PProd.monotone_snd (f := id) monotone_id
    have := step_mono o h1 h2 e ⟨E, toplevel o E n⟩ ⟨F, toplevel o F m⟩ ⟨h, fun e => ih (m := m) (by omega) e⟩
    exact this

end Tsym.Printer

namespace Tsym

open Lean.Order in
theorem Api.print_mono {D : Type} [Flt D] (unicode : Bool) (double : D → Str) (e : Expr D) :
    monotone fun E : Eng D => Api.print E unicode double e := fun _ _ h => Printer.toplevel_le _ h h.steps e

open Lean.Order in
theorem Api.printDebug_mono {D : Type} [Flt D] (unicode : Bool) (double : D → Str) (e : Expr D) :
    monotone fun E : Eng D => Api.printDebug E unicode double e := fun _ _ h => Printer.toplevel_le _ h h.steps e

end Tsym
