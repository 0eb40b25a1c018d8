import Verif.SymsNormal
import Verif.NumEvalThm

set_option autoImplicit false
set_option linter.unusedSectionVars false

/-!
# Values of results: the framework

The meaning of recorded conditions, and what is to be shown of the functions of the library (`Sound`):
where an input has a value and all recorded conditions hold, the result has the same value.
-/

namespace Tsym

open Expr

variable {D : Type} [Flt D] [LawfulFlt D]

/-! ## Specification: conditions -/

/-- The assignment with the temporary symbols of a list, the latest first. A positive symbol gets a
value that is not negative. -/
noncomputable def extend (σ : Asg) : List (Sym × Expr D) → Asg
  | [] => σ
  | (t, e) :: l => Function.update (extend σ l) t
      (if t.positive then max ((den (extend σ l) e).getD 0) 0 else (den (extend σ l) e).getD 0)

/-- Does a condition hold under an assignment? An expression without a value has no property. -/
def Cond.holds (σ : Asg) : Cond D → Prop
  | .nz e => ∃ v, den σ e = some v ∧ v ≠ 0
  | .pos e => ∃ v, den σ e = some v ∧ 0 < v
  | .nn e => ∃ v, den σ e = some v ∧ 0 ≤ v
  | .nint e => ∃ v, den σ e = some v ∧ ∀ n : ℤ, v ≠ n
  | .fail => False
  | .or a b => a.holds σ ∨ b.holds σ
  | .within m c => c.holds (extend σ m)

/-! ## Values -/

theorem extend_respects {σ : Asg} (h : σ.Respects) : ∀ m : List (Sym × Expr D), (extend σ m).Respects
  | [] => h
  | (t, e) :: l => by
    intro s hs
    have ih := extend_respects h l s hs
    by_cases hst : s = t
    · subst hst
      simp only [extend, Function.update_self, hs, if_true]
      exact le_max_right _ _
    · simp only [extend, Function.update_of_ne hst]
      exact ih

theorem extend_other {σ : Asg} {s : Sym} : ∀ {m : List (Sym × Expr D)}, s ∉ m.map Prod.fst →
    extend σ m s = σ s
  | [], _ => rfl
  | (t, e) :: l, h => by
    simp only [List.map_cons, List.mem_cons, not_or] at h
    simp only [extend, Function.update_of_ne h.1]
    exact extend_other h.2

section

variable {σ : Asg}

theorem denSum_cons {a : Expr D} {l : List (Expr D)} {v : ℝ} :
    denSum σ (a :: l) = some v ↔ ∃ x y, den σ a = some x ∧ denSum σ l = some y ∧ v = x + y := by
  simp only [denSum, Option.bind_eq_some_iff, Option.some.injEq]
  constructor
  · rintro ⟨x, hx, y, hy, rfl⟩; exact ⟨x, y, hx, hy, rfl⟩
  · rintro ⟨x, y, hx, hy, rfl⟩; exact ⟨x, hx, y, hy, rfl⟩

theorem denProd_cons {a : Expr D} {l : List (Expr D)} {v : ℝ} :
    denProd σ (a :: l) = some v ↔ ∃ x y, den σ a = some x ∧ denProd σ l = some y ∧ v = x * y := by
  simp only [denProd, Option.bind_eq_some_iff, Option.some.injEq]
  constructor
  · rintro ⟨x, hx, y, hy, rfl⟩; exact ⟨x, y, hx, hy, rfl⟩
  · rintro ⟨x, y, hx, hy, rfl⟩; exact ⟨x, hx, y, hy, rfl⟩

theorem denSum_one {a : Expr D} : denSum σ [a] = den σ a := by
  simp only [denSum]
  cases den σ a <;> simp

theorem denProd_one {a : Expr D} : denProd σ [a] = den σ a := by
  simp only [denProd]
  cases den σ a <;> simp

theorem denSum_two {a b : Expr D} {x y : ℝ} (ha : den σ a = some x) (hb : den σ b = some y) :
    denSum σ [a, b] = some (x + y) := by
  simp [denSum, ha, hb]

theorem denProd_two {a b : Expr D} {x y : ℝ} (ha : den σ a = some x) (hb : den σ b = some y) :
    denProd σ [a, b] = some (x * y) := by
  simp [denProd, ha, hb]

theorem denSum_pair {a b : Expr D} {v : ℝ} (h : denSum σ [a, b] = some v) :
    ∃ x y, den σ a = some x ∧ den σ b = some y ∧ v = x + y := by
  obtain ⟨x, y, hx, hy, rfl⟩ := denSum_cons.1 h
  rw [denSum_one] at hy
  exact ⟨x, y, hx, hy, rfl⟩

theorem denProd_pair {a b : Expr D} {v : ℝ} (h : denProd σ [a, b] = some v) :
    ∃ x y, den σ a = some x ∧ den σ b = some y ∧ v = x * y := by
  obtain ⟨x, y, hx, hy, rfl⟩ := denProd_cons.1 h
  rw [denProd_one] at hy
  exact ⟨x, y, hx, hy, rfl⟩

theorem denProd_three {a b c : Expr D} {x y z : ℝ} (ha : den σ a = some x) (hb : den σ b = some y)
    (hc : den σ c = some z) : denProd σ [a, b, c] = some (x * y * z) := by
  simp [denProd, ha, hb, hc, mul_assoc]

theorem denSum_append {l m : List (Expr D)} {v : ℝ} :
    denSum σ (l ++ m) = some v ↔ ∃ x y, denSum σ l = some x ∧ denSum σ m = some y ∧ v = x + y := by
  induction l generalizing v with
  | nil =>
    simp only [List.nil_append, denSum, Option.some.injEq]
    constructor
    · intro h; exact ⟨0, v, rfl, h, by simp⟩
    · rintro ⟨x, y, rfl, h, rfl⟩; simpa using h
  | cons a l ih =>
    rw [List.cons_append, denSum_cons]
    constructor
    · rintro ⟨x, y, hx, hy, rfl⟩
      obtain ⟨z, w, hz, hw, rfl⟩ := ih.1 hy
      exact ⟨x + z, w, denSum_cons.2 ⟨x, z, hx, hz, rfl⟩, hw, by ring⟩
    · rintro ⟨x, y, hx, hy, rfl⟩
      obtain ⟨z, w, hz, hw, rfl⟩ := denSum_cons.1 hx
      exact ⟨z, w + y, hz, ih.2 ⟨w, y, hw, hy, rfl⟩, by ring⟩

theorem denProd_append {l m : List (Expr D)} {v : ℝ} :
    denProd σ (l ++ m) = some v ↔ ∃ x y, denProd σ l = some x ∧ denProd σ m = some y ∧ v = x * y := by
  induction l generalizing v with
  | nil =>
    simp only [List.nil_append, denProd, Option.some.injEq]
    constructor
    · intro h; exact ⟨1, v, rfl, h, by simp⟩
    · rintro ⟨x, y, rfl, h, rfl⟩; simpa using h
  | cons a l ih =>
    rw [List.cons_append, denProd_cons]
    constructor
    · rintro ⟨x, y, hx, hy, rfl⟩
      obtain ⟨z, w, hz, hw, rfl⟩ := ih.1 hy
      exact ⟨x * z, w, denProd_cons.2 ⟨x, z, hx, hz, rfl⟩, hw, by ring⟩
    · rintro ⟨x, y, hx, hy, rfl⟩
      obtain ⟨z, w, hz, hw, rfl⟩ := denProd_cons.1 hx
      exact ⟨z, w * y, hz, ih.2 ⟨w, y, hw, hy, rfl⟩, by ring⟩

theorem denSum_perm {l m : List (Expr D)} (h : l.Perm m) : denSum σ l = denSum σ m := by
  induction h with
  | nil => rfl
  | cons x _ ih => simp only [denSum, ih]
  | swap x y l =>
    simp only [denSum]
    cases den σ x <;> cases den σ y <;> cases denSum σ l <;> simp [add_left_comm]
  | trans _ _ h1 h2 => rw [h1, h2]

theorem denProd_perm {l m : List (Expr D)} (h : l.Perm m) : denProd σ l = denProd σ m := by
  induction h with
  | nil => rfl
  | cons x _ ih => simp only [denProd, ih]
  | swap x y l =>
    simp only [denProd]
    cases den σ x <;> cases den σ y <;> cases denProd σ l <;> simp [mul_left_comm]
  | trans _ _ h1 h2 => rw [h1, h2]

theorem denProd_filter {p : Expr D → Bool} {l : List (Expr D)} {v : ℝ} (h : denProd σ l = some v) :
    ∃ a b, denProd σ (l.filter p) = some a ∧ denProd σ (l.filter fun e => !p e) = some b ∧
      v = a * b := by
  have := List.filter_append_perm p l
  rw [← denProd_perm this, denProd_append] at h
  exact h

theorem den_mem_sum {l : List (Expr D)} {v : ℝ} (h : denSum σ l = some v) :
    ∀ x ∈ l, ∃ w, den σ x = some w := by
  induction l generalizing v with
  | nil => simp
  | cons a l ih =>
    obtain ⟨x, y, hx, hy, rfl⟩ := denSum_cons.1 h
    intro z hz
    rcases List.mem_cons.1 hz with rfl | hz
    · exact ⟨x, hx⟩
    · exact ih hy z hz

theorem den_mem_prod {l : List (Expr D)} {v : ℝ} (h : denProd σ l = some v) :
    ∀ x ∈ l, ∃ w, den σ x = some w := by
  induction l generalizing v with
  | nil => simp
  | cons a l ih =>
    obtain ⟨x, y, hx, hy, rfl⟩ := denProd_cons.1 h
    intro z hz
    rcases List.mem_cons.1 hz with rfl | hz
    · exact ⟨x, hx⟩
    · exact ih hy z hz

theorem denProd_zero {l : List (Expr D)} {v : ℝ} (h : denProd σ l = some v) {x : Expr D} (hx : x ∈ l)
    (h0 : den σ x = some 0) : v = 0 := by
  induction l generalizing v with
  | nil => simp at hx
  | cons a l ih =>
    obtain ⟨y, z, hy, hz, rfl⟩ := denProd_cons.1 h
    rcases List.mem_cons.1 hx with rfl | hx
    · rw [h0] at hy; cases hy; simp
    · rw [ih hz hx]; simp

@[simp] theorem den_num (n : Number D) : den σ (.num n) = some n.val := rfl
@[simp] theorem den_sym (s : Sym) : den σ (.sym s : Expr D) = some (σ s) := rfl
@[simp] theorem den_cst (c : Cst) : den σ (.cst c : Expr D) = some (Spec.cst c) := rfl
@[simp] theorem den_undef : den σ (.undef : Expr D) = none := rfl
@[simp] theorem den_sum (l : List (Expr D)) : den σ (.sum l) = denSum σ l := rfl
@[simp] theorem den_prod (l : List (Expr D)) : den σ (.prod l) = denProd σ l := rfl
@[simp] theorem den_zero : den σ (zero : Expr D) = some 0 := by simp [zero]
@[simp] theorem den_one : den σ (one : Expr D) = some 1 := by simp [one]
@[simp] theorem den_mOne : den σ (mOne : Expr D) = some (-1) := by simp [mOne]
@[simp] theorem den_two : den σ (two : Expr D) = some 2 := by simp [two]
@[simp] theorem den_three : den σ (three : Expr D) = some 3 := by simp [three]
@[simp] theorem den_half : den σ (half : Expr D) = some (1 / 2) := by simp [half]
@[simp] theorem den_fourth : den σ (fourth : Expr D) = some (1 / 4) := by simp [fourth]
@[simp] theorem den_int (n : ℤ) : den σ (int n : Expr D) = some (n : ℝ) := by simp [int]
@[simp] theorem den_ratE (q : ℚ) : den σ (ratE q : Expr D) = some (q : ℝ) := by simp [ratE]
@[simp] theorem den_piE : den σ (piE : Expr D) = some Real.pi := rfl

theorem den_isZero {e : Expr D} (h : e.isZero = true) : den σ e = some 0 := by
  cases e <;> simp [isZero] at h
  rw [Number.eqv_iff] at h
  simpa using h

theorem den_isOne {e : Expr D} (h : e.isOne = true) : den σ e = some 1 := by
  cases e <;> simp [isOne] at h
  rw [Number.eqv_iff] at h
  simpa using h

theorem not_undef {e : Expr D} {v : ℝ} (h : den σ e = some v) : e.isUndefined = false := by
  cases e <;> simp_all [isUndefined]

theorem den_pow {b e : Expr D} {v : ℝ} : den σ (.pow b e) = some v ↔
    ∃ x y, den σ b = some x ∧ den σ e = some y ∧ Spec.pow x y = some v := by
  simp only [den, Option.bind_eq_some_iff]
  constructor
  · rintro ⟨x, hx, y, hy, h⟩; exact ⟨x, y, hx, hy, h⟩
  · rintro ⟨x, y, hx, hy, h⟩; exact ⟨x, hx, y, hy, h⟩

theorem den_fn {f : Fn} {a : Expr D} {v : ℝ} : den σ (.fn f a) = some v ↔
    ∃ x, den σ a = some x ∧ Spec.fn f x = some v := by
  simp only [den, Option.bind_eq_some_iff]

theorem den_atan2 {y x : Expr D} {v : ℝ} : den σ (.atan2 y x) = some v ↔
    ∃ b a, den σ y = some b ∧ den σ x = some a ∧ Spec.atan2 b a = some v := by
  simp only [den, Option.bind_eq_some_iff]
  constructor
  · rintro ⟨x, hx, y, hy, h⟩; exact ⟨x, y, hx, hy, h⟩
  · rintro ⟨x, y, hx, hy, h⟩; exact ⟨x, hx, y, hy, h⟩

theorem areEqual_den {l m : List (Expr D)} (h : areEqual l m = true) :
    denSum σ l = denSum σ m ∧ denProd σ l = denProd σ m :=
  ⟨areEqual_denSum (fun a _ b => isEqual_den σ a b) h, areEqual_denProd (fun a _ b => isEqual_den σ a b) h⟩

end

/-- Only the symbols that occur matter for the value. -/
theorem den_congr {σ τ : Asg} (e : Expr D) : Within (fun s => σ s = τ s) e → den σ e = den τ e := by
  have hs : ∀ l : List (Expr D), (∀ x ∈ l, den σ x = den τ x) → denSum σ l = denSum τ l ∧
      denProd σ l = denProd τ l := by
    intro l h
    induction l with
    | nil => exact ⟨rfl, rfl⟩
    | cons a l ih =>
      have := ih fun x hx => h x (by simp [hx])
      simp only [denSum, denProd, h a (by simp), this.1, this.2, and_self]
  induction e using Expr.ind with
  | num n => simp
  | sym s => simp
  | cst c => simp
  | undef => simp
  | sum l ih => simp only [within_sum]; exact fun h => (hs l fun x hx => ih x hx (h x hx)).1
  | prod l ih => simp only [within_prod]; exact fun h => (hs l fun x hx => ih x hx (h x hx)).2
  | pow b e hb he => simp only [within_pow]; exact fun h => by simp only [den, hb h.1, he h.2]
  | fn f a ha => simp only [within_fn]; exact fun h => by simp only [den, ha h]
  | atan2 b e hb he => simp only [within_atan2]; exact fun h => by simp only [den, hb h.1, he h.2]

/-! ## Powers -/

namespace Spec

theorem pow_def {x y : ℝ} (h : 0 < x ∨ (x = 0 ∧ 0 < y) ∨ (x < 0 ∧ ∃ n : ℤ, y = n)) :
    Spec.pow x y = some (x ^ y) := by
  unfold Spec.pow; rw [if_pos h]

theorem pow_iff {x y v : ℝ} : Spec.pow x y = some v ↔
    (0 < x ∨ (x = 0 ∧ 0 < y) ∨ (x < 0 ∧ ∃ n : ℤ, y = n)) ∧ v = x ^ y := by
  constructor
  · exact pow_some
  · rintro ⟨h, rfl⟩; exact pow_def h

theorem pow_pos' {x y : ℝ} (h : 0 < x) : Spec.pow x y = some (x ^ y) := pow_def (.inl h)

@[simp] theorem pow_one (x : ℝ) : Spec.pow x 1 = some x := by
  rw [pow_iff]
  refine ⟨?_, by simp⟩
  rcases lt_trichotomy x 0 with h | h | h
  · exact .inr (.inr ⟨h, 1, by simp⟩)
  · exact .inr (.inl ⟨h, by norm_num⟩)
  · exact .inl h

@[simp] theorem one_pow (y : ℝ) : Spec.pow 1 y = some 1 := by
  rw [pow_iff]; exact ⟨.inl one_pos, by simp⟩

theorem pow_zero_of {x v : ℝ} (h : Spec.pow x 0 = some v) : v = 1 := by
  rw [pow_iff] at h; simpa using h.2

theorem pow_zero {x : ℝ} (h : x ≠ 0) : Spec.pow x 0 = some 1 := by
  rw [pow_iff]
  refine ⟨?_, by simp⟩
  rcases lt_or_gt_of_ne h with h | h
  · exact .inr (.inr ⟨h, 0, by simp⟩)
  · exact .inl h

theorem zero_pow_of {y v : ℝ} (h : Spec.pow 0 y = some v) : v = 0 ∧ 0 < y := by
  rw [pow_iff] at h
  obtain ⟨h, rfl⟩ := h
  have hy : 0 < y := by
    rcases h with h | h | h
    · exact absurd h (lt_irrefl _)
    · exact h.2
    · exact absurd h.1 (lt_irrefl _)
  exact ⟨Real.zero_rpow hy.ne', hy⟩

theorem pow_int {x : ℝ} (n : ℤ) (h : x ≠ 0) : Spec.pow x n = some (x ^ n) := by
  rw [pow_iff]
  refine ⟨?_, (Real.rpow_intCast x n).symm⟩
  rcases lt_or_gt_of_ne h with h | h
  · exact .inr (.inr ⟨h, n, rfl⟩)
  · exact .inl h

theorem pow_nat {x : ℝ} {n : ℕ} (hn : n ≠ 0) : Spec.pow x n = some (x ^ n) := by
  rw [pow_iff]
  refine ⟨?_, (Real.rpow_natCast x n).symm⟩
  rcases lt_trichotomy x 0 with h | h | h
  · exact .inr (.inr ⟨h, n, by simp⟩)
  · exact .inr (.inl ⟨h, by exact_mod_cast Nat.pos_of_ne_zero hn⟩)
  · exact .inl h

theorem pow_two' (x : ℝ) : Spec.pow x 2 = some (x ^ 2) := by
  have := pow_nat (x := x) (n := 2) (by norm_num)
  exact_mod_cast this

theorem pow_neg_one {x : ℝ} (h : x ≠ 0) : Spec.pow x (-1) = some x⁻¹ := by
  have := pow_int (x := x) (-1) h
  rw [zpow_neg_one] at this
  exact_mod_cast this

theorem pow_neg_one_of {x v : ℝ} (h : Spec.pow x (-1) = some v) : x ≠ 0 ∧ v = x⁻¹ := by
  by_cases hx : x = 0
  · subst hx
    have := (zero_pow_of h).2
    linarith
  · rw [pow_neg_one hx] at h
    exact ⟨hx, by simpa using h.symm⟩

theorem pow_half {x : ℝ} (h : 0 ≤ x) : Spec.pow x (1 / 2) = some (Real.sqrt x) := by
  rw [pow_iff, Real.sqrt_eq_rpow]
  refine ⟨?_, rfl⟩
  rcases h.lt_or_eq with h | h
  · exact .inl h
  · exact .inr (.inl ⟨h.symm, by norm_num⟩)

/-- Same base. -/
theorem pow_add {x y z v w : ℝ} (h1 : Spec.pow x y = some v) (h2 : Spec.pow x z = some w) :
    Spec.pow x (y + z) = some (v * w) := by
  rw [pow_iff] at *
  obtain ⟨h1, rfl⟩ := h1
  obtain ⟨h2, rfl⟩ := h2
  rcases lt_trichotomy x 0 with h | h | h
  · have e1 : ∃ n : ℤ, y = n := by
      rcases h1 with h1 | h1 | h1
      · linarith
      · linarith [h1.1]
      · exact h1.2
    have e2 : ∃ n : ℤ, z = n := by
      rcases h2 with h1 | h1 | h1
      · linarith
      · linarith [h1.1]
      · exact h1.2
    obtain ⟨n, rfl⟩ := e1
    obtain ⟨m, rfl⟩ := e2
    refine ⟨.inr (.inr ⟨h, n + m, by push_cast; rfl⟩), ?_⟩
    rw [← Int.cast_add, Real.rpow_intCast, Real.rpow_intCast, Real.rpow_intCast, zpow_add₀ h.ne]
  · subst h
    have e1 : 0 < y := by
      rcases h1 with h1 | h1 | h1
      · exact absurd h1 (lt_irrefl _)
      · exact h1.2
      · exact absurd h1.1 (lt_irrefl _)
    have e2 : 0 < z := by
      rcases h2 with h1 | h1 | h1
      · exact absurd h1 (lt_irrefl _)
      · exact h1.2
      · exact absurd h1.1 (lt_irrefl _)
    refine ⟨.inr (.inl ⟨rfl, by linarith⟩), ?_⟩
    rw [Real.zero_rpow e1.ne', Real.zero_rpow (add_pos e1 e2).ne', zero_mul]
  · exact ⟨.inl h, (Real.rpow_add h y z).symm⟩

/-- Same exponent. -/
theorem pow_mul {x z y v w : ℝ} (h1 : Spec.pow x y = some v) (h2 : Spec.pow z y = some w) :
    Spec.pow (x * z) y = some (v * w) := by
  rw [pow_iff] at *
  obtain ⟨h1, rfl⟩ := h1
  obtain ⟨h2, rfl⟩ := h2
  have zint : ∀ {a : ℝ}, a < 0 → (0 < a ∨ (a = 0 ∧ 0 < y) ∨ (a < 0 ∧ ∃ n : ℤ, y = n)) → ∃ n : ℤ, y = n := by
    intro a ha h
    rcases h with h | h | h
    · linarith
    · linarith [h.1]
    · exact h.2
  have zpos : ∀ {a : ℝ}, a = 0 → (0 < a ∨ (a = 0 ∧ 0 < y) ∨ (a < 0 ∧ ∃ n : ℤ, y = n)) → 0 < y := by
    intro a ha h
    rcases h with h | h | h
    · linarith
    · exact h.2
    · linarith [h.1]
  by_cases hx : x = 0
  · have hy := zpos hx h1
    subst hx
    refine ⟨.inr (.inl ⟨by simp, hy⟩), ?_⟩
    rw [zero_mul, Real.zero_rpow hy.ne', zero_mul]
  by_cases hz : z = 0
  · have hy := zpos hz h2
    subst hz
    refine ⟨.inr (.inl ⟨by simp, hy⟩), ?_⟩
    rw [mul_zero, Real.zero_rpow hy.ne', mul_zero]
  by_cases hi : ∃ n : ℤ, y = n
  · obtain ⟨n, rfl⟩ := hi
    refine ⟨?_, ?_⟩
    · rcases lt_or_gt_of_ne (mul_ne_zero hx hz) with h | h
      · exact .inr (.inr ⟨h, n, rfl⟩)
      · exact .inl h
    · simp only [Real.rpow_intCast, mul_zpow]
  · have px : 0 < x := by
      rcases lt_or_gt_of_ne hx with h | h
      · exact absurd (zint h h1) hi
      · exact h
    have pz : 0 < z := by
      rcases lt_or_gt_of_ne hz with h | h
      · exact absurd (zint h h2) hi
      · exact h
    exact ⟨.inl (mul_pos px pz), (Real.mul_rpow px.le pz.le).symm⟩

theorem pow_ne_zero {x y v : ℝ} (h : Spec.pow x y = some v) (hx : x ≠ 0) : v ≠ 0 := by
  rw [pow_iff] at h
  obtain ⟨h, rfl⟩ := h
  rcases h with h | h | ⟨h, n, rfl⟩
  · exact (Real.rpow_pos_of_pos h _).ne'
  · exact absurd h.1 hx
  · rw [Real.rpow_intCast]; exact zpow_ne_zero _ hx

theorem pow_neg {x y v : ℝ} (h : Spec.pow x y = some v) (hx : x ≠ 0) : Spec.pow x (-y) = some v⁻¹ := by
  rw [pow_iff] at *
  obtain ⟨h, rfl⟩ := h
  rcases h with h | h | ⟨h, n, rfl⟩
  · exact ⟨.inl h, (Real.rpow_neg h.le y).symm⟩
  · exact absurd h.1 hx
  · refine ⟨.inr (.inr ⟨h, -n, by push_cast; rfl⟩), ?_⟩
    rw [← Int.cast_neg, Real.rpow_intCast, Real.rpow_intCast, zpow_neg]

end Spec

/-- Every expression is the power of its base and exponent. -/
theorem den_base_exp {σ : Asg} {e : Expr D} {w : ℝ} (h : den σ e = some w) :
    ∃ x y, den σ e.base = some x ∧ den σ e.exp = some y ∧ Spec.pow x y = some w := by
  cases e
  case pow b e => exact den_pow.1 h
  all_goals exact ⟨w, 1, h, den_one, by simp⟩

/-! ## What is to be shown -/

/-- The result has the value `v` if the recorded conditions hold. -/
def Vl (σ : Asg) (m : M D (Expr D)) (v : ℝ) : Prop := wp (Cond.holds σ) m fun r => den σ r = some v

/-- The results add up to `v` if the recorded conditions hold. -/
def VlSum (σ : Asg) (m : M D (List (Expr D))) (v : ℝ) : Prop :=
  wp (Cond.holds σ) m fun r => denSum σ r = some v

/-- The product of the results is `v` if the recorded conditions hold. -/
def VlProd (σ : Asg) (m : M D (List (Expr D))) (v : ℝ) : Prop :=
  wp (Cond.holds σ) m fun r => denProd σ r = some v

/-- Every symbol of the list that stands for an expression with a value has this value, unless it is
a positive symbol and the value is negative. -/
def Asg.Fits (τ : Asg) (F : List (Expr D × Sym)) : Prop :=
  ∀ p ∈ F, ∀ v, den τ p.1 = some v → (p.2.positive = true → 0 ≤ v) → τ p.2 = v

/-- Every expression of the list has a value, and this value is not negative for a positive symbol. -/
def Good (τ : Asg) (l : List (Expr D × Sym)) : Prop :=
  ∀ p ∈ l, ∃ v, den τ p.1 = some v ∧ (p.2.positive = true → 0 ≤ v)

/-- The value of a fraction. -/
def Frac.Is (τ : Asg) (f : Frac D) (v : ℝ) : Prop :=
  ∃ n d, den τ f.num = some n ∧ den τ f.denom = some d ∧ d ≠ 0 ∧ v = n / d

/-- What the functions of the library do to values: nothing, where the input has a value and the
recorded conditions hold. -/
structure Sound (E : Eng D) : Prop where
  syms : Syms E
  sum : ∀ {σ l v}, Asg.Respects σ → denSum σ l = some v → Vl σ (E.sumCreate l) v
  prod : ∀ {σ l v}, Asg.Respects σ → denProd σ l = some v → Vl σ (E.prodCreate l) v
  pow : ∀ {σ b e x y v}, Asg.Respects σ → den σ b = some x → den σ e = some y →
    Spec.pow x y = some v → Vl σ (E.powCreate b e) v
  /-- the library takes the power zero of anything to be one -/
  pow0 : ∀ {σ b e x}, Asg.Respects σ → den σ b = some x → e.isZero = true → Vl σ (E.powCreate b e) 1
  log : ∀ {σ a x v}, Asg.Respects σ → den σ a = some x → Spec.log x = some v → Vl σ (E.logCreate a) v
  trig : ∀ {σ f a x v}, Asg.Respects σ → f ≠ .log → den σ a = some x → Spec.fn f x = some v →
    Vl σ (E.trigCreate f a) v
  atan2 : ∀ {σ y x a b v}, Asg.Respects σ → den σ y = some b → den σ x = some a →
    Spec.atan2 b a = some v → Vl σ (E.atan2Create y x) v
  isPos : ∀ {σ a v}, Asg.Respects σ → den σ a = some v →
    wp (Cond.holds σ) (E.isPos a) fun b => b = true → 0 ≤ v
  isNeg : ∀ {σ a v}, Asg.Respects σ → den σ a = some v →
    wp (Cond.holds σ) (E.isNeg a) fun b => b = true → v ≤ 0
  expand : ∀ {σ a v}, Asg.Respects σ → den σ a = some v → Vl σ (E.expand a) v
  expandAsProduct : ∀ {σ l v}, Asg.Respects σ → denProd σ l = some v → Vl σ (E.expandAsProduct l) v
  subst : ∀ {σ σ' x r e v}, Asg.Respects σ → (∀ y, isEqual (.sym y) x = false → σ y = σ' y) →
    (∀ w, den σ' x = some w → den σ r = some w) → den σ' e = some v → Vl σ (E.subst x r e) v
  normal : ∀ {σ a v}, Asg.Respects σ → den σ a = some v → Vl σ (E.normal a) v
  normalFrac : ∀ {τ F a m v}, Asg.Respects τ → Asg.Fits τ F → den τ a = some v →
    wp (Cond.holds τ) (E.normalFrac a m) fun r =>
      m.Ext r.2 ∧ ((∀ p ∈ r.2.entries, p ∈ F) → Good τ m.entries → Good τ r.2.entries ∧ r.1.Is τ v)
  sumSimplify : ∀ {σ l v}, Asg.Respects σ → denSum σ l = some v → VlSum σ (E.sumSimplify l) v
  prodSimplify : ∀ {σ l v}, Asg.Respects σ → denProd σ l = some v → VlProd σ (E.prodSimplify l) v
  simplSum : ∀ {σ l v}, Asg.Respects σ → denSum σ l = some v → VlSum σ (E.simplSum l) v
  mergeSum : ∀ {σ l m v w}, Asg.Respects σ → denSum σ l = some v → denSum σ m = some w →
    VlSum σ (E.mergeSum l m) (v + w)
  simplProd : ∀ {σ l v}, Asg.Respects σ → denProd σ l = some v → VlProd σ (E.simplProd l) v
  mergeProd : ∀ {σ l m v w}, Asg.Respects σ → denProd σ l = some v → denProd σ m = some w →
    VlProd σ (E.mergeProd l m) (v * w)
  simplPow : ∀ {σ b e x y v}, Asg.Respects σ → den σ b = some x → den σ e = some y →
    Spec.pow x y = some v → wp (Cond.holds σ) (E.simplPow b e) fun r => den σ (.pow r.1 r.2) = some v
  /-- a coefficient has a value where the expression has one -/
  coeff : ∀ {σ x n a v}, Asg.Respects σ → den σ a = some v →
    wp (Cond.holds σ) (E.coeff x n a) fun r => ∃ w, den σ r = some w
  /-- either the input is no polynomial, or this is a division with remainder -/
  divideL : ∀ {σ u v L a b}, Asg.Respects σ → den σ u = some a → den σ v = some b →
    wp (Cond.holds σ) (E.divideL u v L) fun r => r.2 = .undef ∨
      ∃ q s, den σ r.1 = some q ∧ den σ r.2 = some s ∧ a = q * b + s
  divide : ∀ {σ u v a b}, Asg.Respects σ → den σ u = some a → den σ v = some b →
    wp (Cond.holds σ) (E.divide u v) fun r => r.2 = .undef ∨
      ∃ q s, den σ r.1 = some q ∧ den σ r.2 = some s ∧ a = q * b + s

end Tsym
