import Verif.Den
import Verif.ExprThm
import Verif.NumPowerSimplThm

set_option autoImplicit false
set_option linter.unusedSectionVars false

/-!
# numericEval is sound: lemmas
-/

namespace Tsym

open Expr

variable {D : Type} [Flt D] [LawfulFlt D]

theorem Spec.pow_some {x y v : ℝ} (h : Spec.pow x y = some v) :
    (0 < x ∨ (x = 0 ∧ 0 < y) ∨ (x < 0 ∧ ∃ n : ℤ, y = n)) ∧ v = x ^ y := by
  unfold Spec.pow at h
  split at h
  · rename_i hc; exact ⟨hc, by simpa using h.symm⟩
  · simp at h

theorem evalFn_val {f : Fn} {x : D} {v : ℝ} (h : Spec.fn f (LawfulFlt.val x) = some v) :
    LawfulFlt.val (evalFn f x) = v := by
  cases f <;> simp only [Spec.fn, evalFn] at h ⊢
  · unfold Spec.log at h
    split at h
    · rename_i hx; rw [LawfulFlt.log _ hx]; simpa using h
    · simp at h
  · rw [LawfulFlt.sin]; simpa using h
  · rw [LawfulFlt.cos]; simpa using h
  · unfold Spec.tan at h
    split at h
    · rename_i hx; rw [LawfulFlt.tan _ hx]; simpa using h
    · simp at h
  · unfold Spec.asin at h
    split at h
    · rename_i hx; rw [LawfulFlt.asin _ hx.1 hx.2]; simpa using h
    · simp at h
  · unfold Spec.acos at h
    split at h
    · rename_i hx; rw [LawfulFlt.acos _ hx.1 hx.2]; simpa using h
    · simp at h
  · rw [LawfulFlt.atan]; simpa using h

theorem numEvalSum_val {σ : Asg} {l : List (Expr D)}
    (ih : ∀ a ∈ l, ∀ n v, numEval a = .ok (some n) → den σ a = some v → n.val = v) :
    ∀ {acc n : Number D} {v : ℝ}, numEvalSum acc l = .ok (some n) → denSum σ l = some v →
      n.val = acc.val + v := by
  induction l with
  | nil =>
    intro acc n v h hd
    simp only [numEvalSum, Except.pure_ok, Option.some.injEq] at h
    simp only [denSum, Option.some.injEq] at hd
    subst h hd; simp
  | cons a l ihl =>
    intro acc n v h hd
    simp only [numEvalSum, Except.bind_ok] at h
    obtain ⟨m, hm, h⟩ := h
    cases m with
    | none => simp [Except.pure_ok] at h
    | some m =>
      simp only at h
      simp only [denSum, Option.bind_eq_some_iff, Option.some.injEq] at hd
      obtain ⟨x, hx, y, hy, rfl⟩ := hd
      rw [ihl (fun b hb => ih b (by simp [hb])) h hy, Number.val_add, ih a (by simp) m x hm hx]
      ring

theorem numEvalProd_val {σ : Asg} {l : List (Expr D)}
    (ih : ∀ a ∈ l, ∀ n v, numEval a = .ok (some n) → den σ a = some v → n.val = v) :
    ∀ {acc n : Number D} {v : ℝ}, numEvalProd acc l = .ok (some n) → denProd σ l = some v →
      n.val = acc.val * v := by
  induction l with
  | nil =>
    intro acc n v h hd
    simp only [numEvalProd, Except.pure_ok, Option.some.injEq] at h
    simp only [denProd, Option.some.injEq] at hd
    subst h hd; simp
  | cons a l ihl =>
    intro acc n v h hd
    simp only [numEvalProd, Except.bind_ok] at h
    obtain ⟨m, hm, h⟩ := h
    cases m with
    | none => simp [Except.pure_ok] at h
    | some m =>
      simp only at h
      simp only [denProd, Option.bind_eq_some_iff, Option.some.injEq] at hd
      obtain ⟨x, hx, y, hy, rfl⟩ := hd
      rw [ihl (fun b hb => ih b (by simp [hb])) h hy, Number.val_mul, ih a (by simp) m x hm hx]
      ring

/-- If numericEval gives a number and the expression has a value, both agree. -/
theorem numEval_val (σ : Asg) (e : Expr D) : ∀ (n : Number D) (v : ℝ),
    numEval e = .ok (some n) → den σ e = some v → n.val = v := by
  induction e using ind with
  | num m =>
    intro n v h hd
    simp only [numEval, Except.pure_ok, Option.some.injEq, den] at h hd
    subst h hd; rfl
  | sym s => intro n v h hd; simp [numEval, Except.pure_ok] at h
  | cst c =>
    intro n v h hd
    cases c <;> simp only [numEval, Except.pure_ok, Option.some.injEq, den, Spec.cst] at h hd <;>
      subst h hd
    · rw [Number.val_ofDouble, LawfulFlt.pi]
    · rw [Number.val_ofDouble, LawfulFlt.e]
  | undef => intro n v h hd; simp [den] at hd
  | sum l ih =>
    intro n v h hd
    simp only [numEval, den] at h hd
    simpa using numEvalSum_val ih h hd
  | prod l ih =>
    intro n v h hd
    simp only [numEval, den] at h hd
    simpa using numEvalProd_val ih h hd
  | pow b e ihb ihe =>
    intro n v h hd
    simp only [numEval, Except.bind_ok] at h
    obtain ⟨ne, hne, nb, hnb, h⟩ := h
    simp only [den, Option.bind_eq_some_iff] at hd
    obtain ⟨x, hx, y, hy, hp⟩ := hd
    cases ne with
    | none => simp [Except.pure_ok] at h
    | some ne =>
      cases nb with
      | none => simp [Except.pure_ok] at h
      | some nb =>
        simp only [Except.bind_ok, Except.pure_ok, Option.some.injEq] at h
        obtain ⟨r, hr, rfl⟩ := h
        rw [← ihb _ _ hnb hx, ← ihe _ _ hne hy] at hp
        exact Number.toThe_val hr hp
  | fn f a ih =>
    intro n v h hd
    simp only [numEval, Except.bind_ok] at h
    obtain ⟨na, hna, h⟩ := h
    simp only [den, Option.bind_eq_some_iff] at hd
    obtain ⟨x, hx, hf⟩ := hd
    cases na with
    | none => simp [Except.pure_ok] at h
    | some na =>
      simp only [Except.pure_ok, Option.some.injEq] at h
      subst h
      rw [Number.val_ofDouble]
      apply evalFn_val
      rw [Number.val_toDouble, ih _ _ hna hx, hf]
  | atan2 y x ihy ihx =>
    intro n v h hd
    simp only [numEval, Except.bind_ok] at h
    obtain ⟨ny, hny, h⟩ := h
    simp only [den, Option.bind_eq_some_iff] at hd
    obtain ⟨vy, hvy, vx, hvx, hp⟩ := hd
    cases ny with
    | none => simp [Except.pure_ok] at h
    | some ny =>
      simp only [Except.bind_ok] at h
      obtain ⟨nx, hnx, h⟩ := h
      cases nx with
      | none => simp [Except.pure_ok] at h
      | some nx =>
        simp only [Except.pure_ok, Option.some.injEq] at h
        subst h
        unfold Spec.atan2 at hp
        split at hp
        · simp at hp
        · rename_i hc
          rw [← ihy _ _ hny hvy, ← ihx _ _ hnx hvx] at hc
          rw [Number.val_ofDouble, LawfulFlt.atan2 _ _ (by simpa using hc)]
          simp only [Option.some.injEq] at hp
          rw [← hp, Number.val_toDouble, Number.val_toDouble, ihy _ _ hny hvy, ihx _ _ hnx hvx]

end Tsym
