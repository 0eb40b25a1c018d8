import Verif.SoundNumTrigo
import Mathlib.Analysis.SpecialFunctions.Complex.Arctan

set_option autoImplicit false
set_option linter.unusedSectionVars false
set_option linter.unusedSimpArgs false

/-!
# Trigonometric functions keep the value (src/trigonometric.cpp)
-/

namespace Tsym

open Expr NumTrigo

section

variable {A B : ℝ}

theorem arctan_of_pos {X Y : ℝ} (hX : 0 < X) : Real.arctan (Y / X) = Complex.arg ⟨X, Y⟩ := by
  have h : |Complex.arg ⟨X, Y⟩| < Real.pi / 2 := by
    rw [Complex.abs_arg_lt_pi_div_two_iff]; exact .inl hX
  have ht : Real.tan (Complex.arg ⟨X, Y⟩) = Y / X := by rw [Complex.tan_arg]
  rw [← ht, Real.arctan_tan (abs_lt.1 h).1 (abs_lt.1 h).2]

theorem arctan_of_neg {X Y : ℝ} (hX : X < 0) (hY : 0 ≤ Y) :
    Real.arctan (Y / X) = Complex.arg ⟨X, Y⟩ - Real.pi := by
  have h : ¬|Complex.arg ⟨X, Y⟩| ≤ Real.pi / 2 := by
    rw [Complex.abs_arg_le_pi_div_two_iff]; simpa using hX
  have h0 : 0 ≤ Complex.arg ⟨X, Y⟩ := Complex.arg_nonneg_iff.2 hY
  rw [abs_of_nonneg h0] at h
  have h1 := Complex.arg_le_pi ⟨X, Y⟩
  have ht : Real.tan (Complex.arg ⟨X, Y⟩ - Real.pi) = Y / X := by rw [Real.tan_sub_pi, Complex.tan_arg]
  rw [← ht, Real.arctan_tan (by linarith) (by linarith [Real.pi_pos])]

/-- Two numbers in [0, 2π) that differ by a multiple of 2π are equal. -/
theorem eq_of_mod2pi {x y : ℝ} {k : ℤ} (h : x = y + k * (2 * Real.pi)) (hx : 0 ≤ x) (hx' : x < 2 * Real.pi)
    (hy : 0 ≤ y) (hy' : y < 2 * Real.pi) : x = y := by
  have hp := Real.pi_pos
  have h1 : k < 1 := by
    by_contra hk
    have : (1 : ℝ) ≤ k := by exact_mod_cast not_lt.1 hk
    nlinarith
  have h2 : -1 < k := by
    by_contra hk
    have : (k : ℝ) ≤ -1 := by exact_mod_cast not_lt.1 hk
    nlinarith
  have : k = 0 := by omega
  rw [h, this]; simp

theorem sqrt_sq_add {X Y : ℝ} : Real.sqrt (Y * Y + X * X) = ‖(⟨X, Y⟩ : ℂ)‖ := by
  rw [Complex.norm_def, Complex.normSq_apply]
  congr 1; ring

theorem Spec.atan2_some {y x v : ℝ} (h : Spec.atan2 y x = some v) :
    ¬(x = 0 ∧ y = 0) ∧ v = Complex.arg ⟨x, y⟩ := by
  unfold Spec.atan2 at h
  split at h
  · simp at h
  · rename_i hx
    simp at h; exact ⟨hx, h.symm⟩

end

variable {D : Type} [Flt D] [LawfulFlt D] {E : Eng D} {σ : Asg}

theorem square_vl (hE : Sound E) (hσ : σ.Respects) {e : Expr D} {x : ℝ} (h : den σ e = some x) :
    Vl σ (square E e) (x * x) := hE.pow hσ h den_two (by rw [Spec.pow_two', pow_two])

theorem div_vl (hE : Sound E) (hσ : σ.Respects) {a b : Expr D} {x y : ℝ} (ha : den σ a = some x)
    (hb : den σ b = some y) (hy : y ≠ 0) : Vl σ (do let o ← E.oneOver b; E.prodCreate [a, o]) (x / y) := by
  refine wp_bind (oneOver_vl hE hσ hb hy) fun o ho => ?_
  exact (hE.prod hσ (denProd_two ha ho)).eq (div_eq_mul_inv x y).symm

theorem atan2ArgEval_vl (hE : Sound E) (hσ : σ.Respects) {a b : Expr D} {x y : ℝ} (ha : den σ a = some x)
    (hb : den σ b = some y) (hy : y ≠ 0) : Vl σ (atan2ArgEval E a b) (x / y) := div_vl hE hσ ha hb hy

theorem evalFrac_vl (hE : Sound E) (hσ : σ.Respects) {f : Frac D} {x y : ℝ} (ha : den σ f.num = some x)
    (hb : den σ f.denom = some y) (hy : y ≠ 0) : Vl σ (evalFrac E f) (x / y) := div_vl hE hσ ha hb hy

theorem normalOfFrac_vl (hE : Sound E) (hσ : σ.Respects) {a b : Expr D} {x y : ℝ} (ha : den σ a = some x)
    (hb : den σ b = some y) (hy : y ≠ 0) : Vl σ (normalOfFrac E a b) (x / y) := by
  unfold normalOfFrac
  exact wp_bind (evalFrac_vl hE hσ (f := ⟨a, b⟩) ha hb hy) fun f hf => hE.normal hσ hf

theorem den_fn_intro {f : Fn} {a : Expr D} {x v : ℝ} (h : den σ a = some x) (hv : Spec.fn f x = some v) :
    den σ (.fn f a) = some v := by simp [den, h, hv]

/-- The function at the negative argument. -/
theorem fn_neg {f : Fn} (hf : f ≠ .log) {x v : ℝ} (h : Spec.fn f x = some v) :
    ∃ w, Spec.fn f (-x) = some w ∧ v = match f with
      | .cos => w
      | .acos => Real.pi - w
      | _ => -w := by
  cases f with
  | sin => simp only [Spec.fn, Option.some.injEq] at h; subst h; exact ⟨_, rfl, by simp⟩
  | cos => simp only [Spec.fn, Option.some.injEq] at h; subst h; exact ⟨_, rfl, by simp⟩
  | tan =>
    obtain ⟨hc, rfl⟩ := Spec.tan_some h
    exact ⟨_, Spec.tan_def (by rwa [Real.cos_neg]), by simp⟩
  | asin =>
    obtain ⟨h1, h2, rfl⟩ := Spec.asin_some h
    refine ⟨Real.arcsin (-x), ?_, by simp [Real.arcsin_neg]⟩
    simp only [Spec.fn, Spec.asin]
    rw [if_pos ⟨by linarith, by linarith⟩]
  | acos =>
    obtain ⟨h1, h2, rfl⟩ := Spec.acos_some h
    refine ⟨Real.arccos (-x), ?_, by simp [Real.arccos_neg]⟩
    simp only [Spec.fn, Spec.acos]
    rw [if_pos ⟨by linarith, by linarith⟩]
  | atan => simp only [Spec.fn, Option.some.injEq] at h; subst h; exact ⟨_, rfl, by simp [Real.arctan_neg]⟩
  | log => exact absurd rfl hf

theorem createBySymmetry_vl (hE : Sound E) (hσ : σ.Respects) {f : Fn} (hf : f ≠ .log) {a : Expr D} {x v : ℝ}
    (h : den σ a = some x) (hv : Spec.fn f x = some v) : Vl σ (createBySymmetry E f a) v := by
  unfold createBySymmetry
  obtain ⟨w, hw, he⟩ := fn_neg hf hv
  refine wp_bind (minus_vl hE hσ h) fun p hp => wp_bind (hE.trig hσ hf hp hw) fun r hr => ?_
  split
  · exact wp_pure (by rw [hr, he])
  · refine wp_bind (timesPi_vl hE hσ 1) fun q hq => wp_bind (minus_vl hE hσ hr) fun m hm => ?_
    exact (hE.sum hσ (denSum_two hq hm)).eq (by rw [he]; push_cast; ring)
  · rename_i h1 h2
    refine (minus_vl hE hσ hr).eq ?_
    cases f <;> simp_all

theorem createNumericallyBySymmetry_vl (hE : Sound E) (hσ : σ.Respects) {f : Fn} (hf : f ≠ .log)
    {a : Expr D} {x v : ℝ} (h : den σ a = some x) (hv : Spec.fn f x = some v) :
    Vl σ (createNumericallyBySymmetry E f a) v := by
  unfold createNumericallyBySymmetry
  obtain ⟨w, hw, he⟩ := fn_neg hf hv
  refine wp_bind (minus_vl hE hσ h) fun p hp => ?_
  have hr := den_fn_intro hp hw
  split
  · exact wp_pure (by rw [hr, he])
  · refine wp_bind (timesPi_vl hE hσ 1) fun q hq => wp_bind (minus_vl hE hσ hr) fun m hm => ?_
    exact (hE.sum hσ (denSum_two hq hm)).eq (by rw [he]; push_cast; ring)
  · rename_i h1 h2
    refine (minus_vl hE hσ hr).eq ?_
    cases f <;> simp_all

theorem createNumerically_vl (hE : Sound E) (hσ : σ.Respects) {f : Fn} (hf : f ≠ .log)
    {a : Expr D} {x v : ℝ} (h : den σ a = some x) (hv : Spec.fn f x = some v) :
    Vl σ (createNumerically E f a) v := by
  unfold createNumerically
  refine wp_bind (simplify_wp hE hσ h hv) fun r hr => ?_
  split
  · rename_i y
    exact wp_pure (hr y rfl)
  · refine wp_bind (wp_silent wp_true) fun n _ => wp_ite (fun _ => ?_) fun _ => wp_pure (den_fn_intro h hv)
    exact createNumericallyBySymmetry_vl hE hσ hf h hv

/-! ## A function of its inverse -/

theorem shiftBelow_wp (hE : Sound E) (hσ : σ.Respects) {upper arg : Expr D} {A : ℝ} (h : Mod2pi σ A arg) :
    wp (Cond.holds σ) (shiftBelow E upper arg) fun r => Mod2pi σ A r ∧ ∃ n t, numEval r = .ok n ∧
      numEval upper = .ok t ∧ optGe n t = false := by
  unfold shiftBelow
  refine wp_loop (I := Mod2pi σ A) (fun a ha => ?_) _ _ h
  refine wp_bind (wp_lift fun a h => h) fun n hn => wp_bind (wp_lift fun a h => h) fun t ht => ?_
  refine wp_ite (fun _ => ?_) fun hg => wp_pure ⟨by simp, fun x hx => by
    cases hx; exact ⟨ha, n, t, hn, ht, by simpa using hg⟩⟩
  obtain ⟨k, hk⟩ := id ha
  refine wp_bind (timesPi_vl hE hσ (-2)) fun m hm => ?_
  refine wp_bind (hE.sum hσ (denSum_two hk hm)) fun s hs => wp_pure ⟨fun x hx => ?_, by simp⟩
  cases hx
  exact ha.add (-1) hk (by rw [hs]; push_cast; congr 1; ring)

theorem shiftAbove_wp (hE : Sound E) (hσ : σ.Respects) {lower arg : Expr D} {A L : ℝ} (h : Mod2pi σ A arg)
    (hL : den σ lower = some L) (hlt : ∀ x, den σ arg = some x → x < L + 2 * Real.pi) :
    wp (Cond.holds σ) (shiftAbove E lower arg) fun r => Mod2pi σ A r ∧
      ∀ x, den σ r = some x → L ≤ x ∧ x < L + 2 * Real.pi := by
  unfold shiftAbove
  refine wp_loop (I := fun a => Mod2pi σ A a ∧ ∀ x, den σ a = some x → x < L + 2 * Real.pi)
    (fun a ha => ?_) _ _ ⟨h, hlt⟩
  obtain ⟨ha, hl⟩ := ha
  refine wp_bind (wp_lift fun a h => h) fun n hn => wp_bind (wp_lift fun a h => h) fun t ht => ?_
  refine wp_bind (wp_failIf fun h => h) fun _ hs => ?_
  rw [Bool.or_eq_false_iff] at hs
  obtain ⟨k, hk⟩ := id ha
  cases n with
  | none => simp at hs
  | some n =>
  cases t with
  | none => simp at hs
  | some t =>
  have hnv := numEval_val σ a n _ hn hk
  have htv := numEval_val σ lower t _ ht hL
  refine wp_ite (fun hc => ?_) fun hc => wp_pure ⟨by simp, fun x hx => ?_⟩
  · simp only [optLt, Number.lt_iff, hnv, htv] at hc
    refine wp_bind (timesPi_vl hE hσ 2) fun m hm => ?_
    refine wp_bind (hE.sum hσ (denSum_two hk hm)) fun s hs => wp_pure ⟨fun x hx => ?_, by simp⟩
    cases hx
    refine ⟨ha.add 1 hk (by rw [hs]; push_cast; congr 1; ring), fun y hy => ?_⟩
    rw [hs] at hy
    have hy := Option.some.inj hy
    push_cast at hy
    linarith
  · cases hx
    simp only [optLt, Bool.not_eq_true, Number.lt_false, hnv, htv] at hc
    refine ⟨ha, fun y hy => ⟨?_, hl y hy⟩⟩
    rw [hk] at hy
    have hy := Option.some.inj hy
    linarith

theorem needsEval_wp {e : Expr D} :
    wp (Cond.holds σ) (needsEval e) fun _ => ∃ n, numEval e = .ok (some n) := by
  unfold needsEval
  refine wp_bind (wp_lift fun a h => h) fun n hn => ?_
  refine wp_mono (wp_failIf fun h => h) fun _ hs => ?_
  cases n with
  | none => simp at hs
  | some n => exact ⟨n, hn⟩

/-- What is known about the end of the interval. -/
theorem interval_wp (hE : Sound E) (hσ : σ.Respects) (f : Fn) :
    wp (Cond.holds σ) (interval E f) fun i =>
      den σ i.1 = some (if f = .acos then 0 else -Real.pi / 2) ∧
      den σ i.2 = some (if f = .acos then Real.pi else Real.pi / 2) := by
  unfold interval
  split
  · refine wp_bind (timesPi_vl hE hσ 1) fun p hp => wp_pure ⟨by simp, by rw [hp]; simp⟩
  · rename_i hf
    refine wp_bind (timesPi_vl hE hσ (-1 / 2)) fun l hl => wp_bind (timesPi_vl hE hσ (1 / 2)) fun u hu => ?_
    refine wp_pure ⟨?_, ?_⟩
    · rw [hl, if_neg hf]; push_cast; congr 1; ring
    · rw [hu, if_neg hf]; push_cast; congr 1; ring

/-- The value after shifting, with `b` in [lower, lower + 2π). -/
theorem shiftArg_vl (hE : Sound E) (hσ : σ.Respects) {f : Fn} {arg : Expr D} {A : ℝ} (h : den σ arg = some A) :
    wp (Cond.holds σ) (shiftArgIntoRange E f arg) fun r => ∃ (b : ℝ) (k : ℤ), b = A + k * (2 * Real.pi) ∧
      (if f = .acos then 0 else -Real.pi / 2) ≤ b ∧
      b < (if f = .acos then 0 else -Real.pi / 2) + 2 * Real.pi ∧
      den σ r = some (if (if f = .acos then Real.pi else Real.pi / 2) ≤ b then
        (if f = .atan then b - Real.pi else 2 * (if f = .acos then Real.pi else Real.pi / 2) - b) else b) := by
  have hp := Real.pi_pos
  unfold shiftArgIntoRange
  refine wp_bind (interval_wp hE hσ f) fun i hi => ?_
  generalize hU : (if f = .acos then Real.pi else Real.pi / 2) = U at hi ⊢
  generalize hL : (if f = .acos then 0 else -Real.pi / 2) = L at hi ⊢
  have hUL : U ≤ L + 2 * Real.pi := by
    rw [← hU, ← hL]; split <;> linarith
  refine wp_bind (shiftBelow_wp hE hσ (.refl h)) fun a ha => ?_
  obtain ⟨ha, n, t, hn, ht, hg⟩ := ha
  refine wp_bind needsEval_wp fun _ hn' => ?_
  obtain ⟨n', hn'⟩ := hn'
  rw [hn] at hn'
  cases hn'
  have hlt : ∀ x, den σ a = some x → x < L + 2 * Real.pi := by
    intro x hx
    cases t with
    | none => simp [optGe] at hg
    | some t =>
      simp only [optGe, Bool.not_eq_false', Number.lt_iff] at hg
      rw [numEval_val σ a n' x hn hx, numEval_val σ i.2 t U ht hi.2] at hg
      linarith
  refine wp_bind (shiftAbove_wp hE hσ ha hi.1 hlt) fun b hb => ?_
  obtain ⟨hbm, hbr⟩ := hb
  obtain ⟨k, hk⟩ := id hbm
  obtain ⟨h1, h2⟩ := hbr _ hk
  refine wp_bind needsEval_wp fun _ hm => ?_
  obtain ⟨m, hm⟩ := hm
  refine wp_bind (wp_lift fun a h => h) fun n2 hn2 => wp_bind (wp_lift fun a h => h) fun t2 ht2 => ?_
  rw [hm] at hn2
  cases hn2
  rw [ht] at ht2
  cases ht2
  cases t with
  | none => simp [optGe] at hg
  | some t =>
  have hmv := numEval_val σ b m _ hm hk
  have htv := numEval_val σ i.2 t U ht hi.2
  refine wp_ite (fun hc => ?_) fun hc => ?_
  · simp only [optGe, Bool.not_eq_true', Number.lt_false, hmv, htv] at hc
    refine wp_bind (P := fun p => den σ p = some (if f = .atan then -(2 * U) else 2 * U)) ?_ fun p hpv => ?_
    · refine (hE.prod hσ (denProd_three (x := if f = .atan then -1 else 1) ?_ den_two hi.2)).eq ?_
      · split
        · rename_i he; simp
        · rename_i he; rw [if_neg he]; exact den_one
      · split <;> ring
    · refine wp_bind (P := fun q => den σ q = some (if f = .atan then (A + k * (2 * Real.pi))
        else -(A + k * (2 * Real.pi)))) ?_ fun q hqv => ?_
      · unfold minus2
        refine (hE.prod hσ (denProd_three (y := if f = .atan then -1 else 1) den_mOne ?_ hk)).eq ?_
        · split
          · rename_i he; simp
          · rename_i he; rw [if_neg he]; exact den_one
        · split <;> ring
      · refine wp_mono (hE.sum hσ (denSum_two hpv hqv)) fun r hr => ⟨_, k, rfl, h1, h2, ?_⟩
        rw [hr, if_pos hc]
        congr 1
        split
        · rename_i he
          subst he
          rw [← hU]
          simp; ring
        · ring
  · simp only [optGe, Bool.not_eq_true, Bool.not_eq_false', Number.lt_iff, hmv, htv] at hc
    exact wp_pure ⟨_, k, rfl, h1, h2, by rw [hk, if_neg (not_le.2 hc)]⟩

theorem shiftArgIntoRange_vl (hE : Sound E) (hσ : σ.Respects) {f g : Fn} (hfg : isOtherTheInverse g f = true)
    {arg : Expr D} {A B v : ℝ} (h : den σ arg = some A) (hB : Spec.fn g A = some B)
    (hv : Spec.fn f B = some v) : Vl σ (shiftArgIntoRange E f arg) v := by
  have hp := Real.pi_pos
  refine wp_mono (shiftArg_vl hE hσ h) fun r hr => ?_
  obtain ⟨b, k, hb, h1, h2, hr⟩ := hr
  rw [hr]
  congr 1
  cases f <;> cases g <;> simp only [isOtherTheInverse, Bool.false_eq_true] at hfg
  · -- asin(sin)
    simp only [reduceCtorEq, if_false] at h1 h2 ⊢
    simp only [Spec.fn, Option.some.injEq] at hB
    obtain ⟨-, -, rfl⟩ := Spec.asin_some hv
    rw [← hB, ← Real.sin_add_int_mul_two_pi A k, ← hb]
    split
    · rename_i hc
      have : Real.sin b = Real.sin (2 * (Real.pi / 2) - b) := by
        rw [mul_div_cancel₀ _ two_ne_zero, Real.sin_pi_sub]
      rw [this, Real.arcsin_sin (by linarith) (by linarith)]
    · rename_i hc
      rw [Real.arcsin_sin (by linarith) (by linarith)]
  · -- acos(cos)
    simp only [reduceCtorEq, if_false, if_true] at h1 h2 ⊢
    simp only [Spec.fn, Option.some.injEq] at hB
    obtain ⟨-, -, rfl⟩ := Spec.acos_some hv
    rw [← hB, ← Real.cos_add_int_mul_two_pi A k, ← hb]
    split
    · rename_i hc
      rw [← Real.cos_two_pi_sub, Real.arccos_cos (by linarith) (by linarith)]
    · rename_i hc
      rw [Real.arccos_cos (by linarith) (by linarith)]
  · -- atan(tan)
    simp only [reduceCtorEq, if_false, if_true] at h1 h2 ⊢
    obtain ⟨hc0, rfl⟩ := Spec.tan_some hB
    simp only [Spec.fn, Option.some.injEq] at hv
    rw [← hv, ← tan_add_int A k, ← hb]
    have hcb : Real.cos b ≠ 0 := by rw [hb, Real.cos_add_int_mul_two_pi]; exact hc0
    have hne : b ≠ Real.pi / 2 := fun he => hcb (by rw [he, Real.cos_pi_div_two])
    have hne' : b ≠ -Real.pi / 2 := fun he => hcb (by rw [he, neg_div, Real.cos_neg, Real.cos_pi_div_two])
    split
    · rename_i hc
      have hc := lt_of_le_of_ne hc hne.symm
      rw [← Real.tan_sub_pi, Real.arctan_tan (by linarith) (by linarith)]
    · rename_i hc
      have h1 := lt_of_le_of_ne h1 hne'.symm
      rw [Real.arctan_tan (by linarith) (by linarith)]

theorem captured {m : M D (Expr D)} {v : ℝ} {P : Prop} {C : Cond D → Prop} (h : P → Vl σ m v) :
    wp C (M.capture m) fun p => (∀ c ∈ p.2, Cond.holds σ c) → P → den σ p.1 = some v :=
  wp_capture fun a cs hm hc hP => h hP a cs hm hc

theorem fromTrigoNoInverse_vl (hE : Sound E) (hσ : σ.Respects) {f : Fn} {g : Option Fn}
    {other a1 a2 : Expr D} {x1 x2 A v : ℝ} (h1 : den σ a1 = some x1) (h2 : den σ a2 = some x2)
    (ho : den σ other = some A) (hv : Spec.fn f A = some v)
    (hg : match g with
      | some g => Spec.fn g x1 = some A ∧ x2 = x1
      | none => Spec.atan2 x1 x2 = some A) :
    Vl σ (createFromTrigoNoInverse E f g other a1 a2) v := by
  unfold createFromTrigoNoInverse
  refine wp_bind (captured (σ := σ) (v := Real.sqrt (1 - x1 * x1)) (P := 0 ≤ 1 - x1 * x1) fun hP => ?_) fun aux1 ha1 => ?_
  · refine wp_bind (square_vl hE hσ h1) fun s hs => wp_bind (minus_vl hE hσ hs) fun m hm => ?_
    refine wp_bind (hE.sum hσ (denSum_two den_one hm)) fun r hr => ?_
    rw [← sub_eq_add_neg] at hr
    exact sqrt_vl hE hσ hr hP
  refine wp_bind (captured (σ := σ) (v := Real.sqrt (1 + x1 * x1)) (P := True) fun _ => ?_) fun aux2 ha2 => ?_
  · refine wp_bind (square_vl hE hσ h1) fun s hs => ?_
    refine wp_bind (hE.sum hσ (denSum_two den_one hs)) fun r hr => ?_
    exact sqrt_vl hE hσ hr (by nlinarith [mul_self_nonneg x1])
  refine wp_bind (captured (σ := σ) (v := Real.sqrt (x1 * x1 + x2 * x2)) (P := True) fun _ => ?_) fun aux3 ha3 => ?_
  · refine wp_bind (square_vl hE hσ h1) fun s hs => wp_bind (square_vl hE hσ h2) fun t ht => ?_
    refine wp_bind (hE.sum hσ (denSum_two hs ht)) fun r hr => ?_
    exact sqrt_vl hE hσ hr (by nlinarith [mul_self_nonneg x1, mul_self_nonneg x2])
  have emitted : ∀ (l : List (Cond D)), wp (Cond.holds σ) (M.emit l) fun _ => ∀ c ∈ l, Cond.holds σ c :=
    fun l => wp_emit fun h => h
  have hpos : 0 < Real.sqrt (1 + x1 * x1) := Real.sqrt_pos.2 (by nlinarith [mul_self_nonneg x1])
  have range : ∀ {x : ℝ}, -1 ≤ x → x ≤ 1 → 0 ≤ 1 - x * x := fun h1 h2 => by nlinarith
  split
  · obtain ⟨hg, rfl⟩ := hg
    refine wp_bind (emitted _) fun _ hc => wp_pure ?_
    obtain ⟨h3, h4, rfl⟩ := Spec.acos_some hg
    simp only [Spec.fn, Option.some.injEq] at hv
    rw [ha1 hc (range h3 h4), ← hv, Real.sin_arccos, pow_two]
  · obtain ⟨hg, rfl⟩ := hg
    refine wp_bind (emitted _) fun _ hc => wp_pure ?_
    obtain ⟨h3, h4, rfl⟩ := Spec.asin_some hg
    simp only [Spec.fn, Option.some.injEq] at hv
    rw [ha1 hc (range h3 h4), ← hv, Real.cos_arcsin, pow_two]
  · obtain ⟨hg, rfl⟩ := hg
    refine wp_bind (emitted _) fun _ hc => ?_
    simp only [Spec.fn, Option.some.injEq] at hv hg
    refine (normalOfFrac_vl hE hσ h1 (ha2 hc trivial) hpos.ne').eq ?_
    rw [← hv, ← hg, Real.sin_arctan, pow_two]
  · refine wp_bind (emitted _) fun _ hc => ?_
    simp only [Spec.fn, Option.some.injEq] at hv
    obtain ⟨hne, hA⟩ := Spec.atan2_some hg
    have hz : (⟨x2, x1⟩ : ℂ) ≠ 0 := fun h => hne ⟨by simpa using congrArg Complex.re h, by
      simpa using congrArg Complex.im h⟩
    have ha3 := ha3 hc trivial
    rw [sqrt_sq_add] at ha3
    refine (normalOfFrac_vl hE hσ h1 ha3 (by simpa using hz)).eq ?_
    rw [← hv, hA, Complex.sin_arg]
  · obtain ⟨hg, rfl⟩ := hg
    refine wp_bind (emitted _) fun _ hc => ?_
    simp only [Spec.fn, Option.some.injEq] at hv hg
    refine (normalOfFrac_vl hE hσ den_one (ha2 hc trivial) hpos.ne').eq ?_
    rw [← hv, ← hg, Real.cos_arctan, pow_two]
  · refine wp_bind (emitted _) fun _ hc => ?_
    simp only [Spec.fn, Option.some.injEq] at hv
    obtain ⟨hne, hA⟩ := Spec.atan2_some hg
    have hz : (⟨x2, x1⟩ : ℂ) ≠ 0 := fun h => hne ⟨by simpa using congrArg Complex.re h, by
      simpa using congrArg Complex.im h⟩
    have ha3 := ha3 hc trivial
    rw [sqrt_sq_add] at ha3
    refine (normalOfFrac_vl hE hσ h2 ha3 (by simpa using hz)).eq ?_
    rw [← hv, hA, Complex.cos_arg hz]
  · obtain ⟨hg, rfl⟩ := hg
    refine wp_bind (emitted _) fun _ hc => ?_
    obtain ⟨h3, h4, rfl⟩ := Spec.asin_some hg
    obtain ⟨hcos, rfl⟩ := Spec.tan_some hv
    rw [Real.cos_arcsin, pow_two] at hcos
    refine (normalOfFrac_vl hE hσ h1 (ha1 hc (range h3 h4)) hcos).eq ?_
    rw [Real.tan_arcsin, pow_two]
  · obtain ⟨hg, rfl⟩ := hg
    refine wp_bind (emitted _) fun _ hc => ?_
    obtain ⟨h3, h4, rfl⟩ := Spec.acos_some hg
    obtain ⟨hcos, rfl⟩ := Spec.tan_some hv
    rw [Real.cos_arccos h3 h4] at hcos
    refine (normalOfFrac_vl hE hσ (ha1 hc (range h3 h4)) h1 hcos).eq ?_
    rw [Real.tan_arccos, pow_two]
  · exact wp_pure (den_fn_intro ho hv)

theorem createFromTrigo_vl (hE : Sound E) (hσ : σ.Respects) {f g : Fn} {a : Expr D} {x A v : ℝ}
    (h : den σ a = some x) (hg : Spec.fn g x = some A) (hv : Spec.fn f A = some v) :
    Vl σ (createFromTrigo E f g a) v := by
  unfold createFromTrigo
  refine wp_ite (fun hi => wp_pure ?_) fun _ => ?_
  · rw [h]
    congr 1
    cases f <;> cases g <;> simp only [isOtherTheInverse, Bool.false_eq_true] at hi
    · obtain ⟨h1, h2, rfl⟩ := Spec.asin_some hg
      simp only [Spec.fn, Option.some.injEq] at hv
      rw [← hv, Real.sin_arcsin h1 h2]
    · obtain ⟨h1, h2, rfl⟩ := Spec.acos_some hg
      simp only [Spec.fn, Option.some.injEq] at hv
      rw [← hv, Real.cos_arccos h1 h2]
    · obtain ⟨hc, rfl⟩ := Spec.tan_some hv
      simp only [Spec.fn, Option.some.injEq] at hg
      rw [← hg, Real.tan_arctan]
  · refine wp_bind (P := fun n => ∀ y, n = some y → isOtherTheInverse g f = true) ?_ fun n hn => ?_
    · exact wp_ite (fun h => wp_mono wp_true fun _ _ _ _ => h) fun _ => wp_pure (by simp)
    · split
      · rename_i y
        exact shiftArgIntoRange_vl hE hσ (hn y rfl) h hg hv
      · exact fromTrigoNoInverse_vl hE hσ h h (den_fn_intro h hg) hv ⟨hg, rfl⟩

theorem trigCreate_vl (hE : Sound E) (hσ : σ.Respects) {f : Fn} {a : Expr D} {x v : ℝ} (hf : f ≠ .log)
    (h : den σ a = some x) (hv : Spec.fn f x = some v) : Vl σ (trigCreate E f a) v := by
  unfold trigCreate
  split
  · simp [den] at h
  · exact wp_pure (den_fn_intro h hv)
  · obtain ⟨y, hy, hg⟩ := den_fn.1 h
    exact createFromTrigo_vl hE hσ hy hg hv
  · rename_i y z
    obtain ⟨b, c, hb, hc, hA⟩ := den_atan2.1 h
    split
    · obtain ⟨hcos, rfl⟩ := Spec.tan_some hv
      obtain ⟨hne, rfl⟩ := Spec.atan2_some hA
      have hz : (⟨c, b⟩ : ℂ) ≠ 0 := fun h => hne ⟨by simpa using congrArg Complex.re h, by
        simpa using congrArg Complex.im h⟩
      rw [Complex.cos_arg hz] at hcos
      refine (atan2ArgEval_vl hE hσ hb hc (fun h => hcos (by simp [h]))).eq ?_
      rw [Complex.tan_arg]
    · exact fromTrigoNoInverse_vl hE hσ hb hc h hv hA
  · refine wp_bind (wp_silent wp_true) fun s _ => wp_ite (fun _ => createBySymmetry_vl hE hσ hf h hv) fun _ => ?_
    refine wp_bind wp_true fun n _ => ?_
    split
    · exact createNumerically_vl hE hσ hf h hv
    · exact wp_pure (den_fn_intro h hv)

/-! ## atan2 -/

theorem shiftAtanUp_wp (hE : Sound E) (hσ : σ.Respects) {inc arg : Expr D} {A : ℝ}
    (ht : den σ inc = some (2 * Real.pi)) (h : Mod2pi σ A arg) :
    wp (Cond.holds σ) (shiftAtanUp E inc arg) (Mod2pi σ A) := by
  unfold shiftAtanUp
  refine wp_loop (I := Mod2pi σ A) (fun a ha => ?_) _ _ h
  refine wp_bind (wp_silent wp_true) fun n _ => wp_ite (fun _ => ?_) fun _ =>
    wp_pure ⟨by simp, fun x hx => by cases hx; exact ha⟩
  obtain ⟨k, hk⟩ := id ha
  refine wp_bind (hE.sum hσ (denSum_two hk ht)) fun s hs => wp_pure ⟨fun x hx => ?_, by simp⟩
  cases hx
  exact ha.add 1 hk (by rw [hs]; simp)

theorem shiftAtanDown_wp (hE : Sound E) (hσ : σ.Respects) {inc arg : Expr D} {A : ℝ}
    (ht : den σ inc = some (2 * Real.pi)) (h : Mod2pi σ A arg) :
    wp (Cond.holds σ) (shiftAtanDown E inc arg) fun r => Mod2pi σ A r ∧
      ∀ x, den σ r = some x → x < 2 * Real.pi := by
  unfold shiftAtanDown
  refine wp_loop (I := Mod2pi σ A) (fun a ha => ?_) _ _ h
  obtain ⟨k, hk⟩ := id ha
  refine wp_bind (evalE_wp hk) fun n hn => wp_bind (evalE_wp ht) fun t htv => wp_ite (fun _ => ?_) fun hc => ?_
  · refine wp_bind (minus_vl hE hσ ht) fun m hm => ?_
    refine wp_bind (hE.sum hσ (denSum_two hk hm)) fun s hs => wp_pure ⟨fun x hx => ?_, by simp⟩
    cases hx
    exact ha.add (-1) hk (by rw [hs]; push_cast; congr 1; ring)
  · refine wp_pure ⟨by simp, fun x hx => ?_⟩
    cases hx
    refine ⟨ha, fun y hy => ?_⟩
    simp only [Bool.not_eq_true, Bool.not_eq_false', Number.lt_iff, hn, htv] at hc
    rw [hk] at hy
    have := Option.some.inj hy
    linarith

theorem shiftAtanResult_wp (hE : Sound E) (hσ : σ.Respects) {result summand : Expr D} {R S : ℝ}
    (hR : den σ result = some R) (hS : den σ summand = some S) :
    wp (Cond.holds σ) (shiftAtanResultIntoRange E result summand) fun r => ∃ b, den σ r = some b ∧
      0 ≤ b ∧ b < 2 * Real.pi ∧ ∃ k : ℤ, b = R + S + k * (2 * Real.pi) := by
  unfold shiftAtanResultIntoRange
  refine wp_bind (timesPi_vl hE hσ 2) fun inc hinc => wp_bind wp_true fun _ _ => ?_
  have hinc : den σ inc = some (2 * Real.pi) := by simpa using hinc
  refine wp_bind (P := fun i => den σ i = some (2 * Real.pi)) ?_ fun inc' hinc' => ?_
  · exact wp_ite (fun _ => wp_bind (evalE_wp hinc) fun n hn => wp_pure (by rw [den_num, hn])) fun _ => wp_pure hinc
  refine wp_bind (P := fun i => den σ i = some S) ?_ fun s' hs' => ?_
  · exact wp_ite (fun _ => wp_bind (evalE_wp hS) fun n hn => wp_pure (by rw [den_num, hn])) fun _ => wp_pure hS
  refine wp_bind (hE.sum hσ (denSum_two hR hs')) fun r hr => ?_
  refine wp_bind (shiftAtanUp_wp hE hσ hinc' (.refl hr)) fun a ha => ?_
  refine wp_bind (shiftAtanDown_wp hE hσ hinc' ha) fun b hb => ?_
  obtain ⟨⟨k, hk⟩, hlt⟩ := hb
  refine wp_bind (evalE_wp hk) fun n hn => wp_bind (wp_failIf fun h => h) fun _ h0 => wp_pure ?_
  rw [Number.lt_false, hn] at h0
  exact ⟨_, hk, by simpa using h0, hlt _ hk, k, rfl⟩

theorem simplAtan2_vl (hE : Sound E) (hσ : σ.Respects) {y x inc : Expr D} {Y X I : ℝ} {yn xn : Number D}
    (hy : den σ y = some Y) (hx : den σ x = some X) (hyn : yn.val = Y) (hxn : xn.val = X) (hX : X ≠ 0)
    (hI : den σ inc = some I) (hI1 : 0 < X → I = 0) (hI2 : X < 0 → 0 ≤ Y → I = Real.pi) :
    Vl σ (simplAtan2 E y x yn xn inc) (Complex.arg ⟨X, Y⟩) := by
  have hp := Real.pi_pos
  unfold simplAtan2
  refine wp_bind (atan2ArgEval_vl hE hσ hy hx hX) fun arg harg => ?_
  split
  · exact wp_bind (P := fun _ => False) (wp_log id) fun _ h => h.elim
  · refine wp_bind (atan2ArgEval_vl hE hσ hy hx hX) fun arg' harg' => ?_
    refine wp_bind (simplAtan_wp hE hσ harg') fun r hr => ?_
    split
    · rename_i s w
      have hs := hr s w rfl
      refine wp_bind (wp_failIf fun h => h) fun _ h0 => ?_
      rw [Number.lt_false, hyn] at h0
      have h0 : 0 ≤ Y := by simpa using h0
      refine wp_mono (shiftAtanResult_wp hE hσ hs hI) fun r hr => ?_
      obtain ⟨b, hb, h1, h2, k, hk⟩ := hr
      rw [hb]
      congr 1
      have ha0 : 0 ≤ Complex.arg ⟨X, Y⟩ := Complex.arg_nonneg_iff.2 h0
      have ha1 : Complex.arg ⟨X, Y⟩ < 2 * Real.pi := by linarith [Complex.arg_le_pi ⟨X, Y⟩]
      rcases lt_or_gt_of_ne hX with hneg | hpos
      · rw [hI2 hneg h0, arctan_of_neg hneg h0] at hk
        refine eq_of_mod2pi (k := k + if w then 1 else 0) ?_ h1 h2 ha0 ha1
        rw [hk]
        cases w <;> simp <;> ring
      · rw [hI1 hpos, arctan_of_pos hpos] at hk
        refine eq_of_mod2pi (k := k + if w then 1 else 0) ?_ h1 h2 ha0 ha1
        rw [hk]
        cases w <;> simp <;> ring
    · refine wp_bind (wp_failIf fun h => h) fun _ h0 => ?_
      rw [Number.lt_false, hxn] at h0
      have hpos : 0 < X := lt_of_le_of_ne (by simpa using h0) hX.symm
      refine wp_bind (wp_silent wp_true) fun n _ => ?_
      have hv : Spec.fn .atan (Y / X) = some (Complex.arg ⟨X, Y⟩) := by
        simp [Spec.fn, arctan_of_pos hpos]
      exact wp_ite (fun _ => createBySymmetry_vl hE hσ (by simp) harg hv) fun _ =>
        wp_pure (den_fn_intro harg hv)

theorem createAtan2Numerically_vl (hE : Sound E) (hσ : σ.Respects) {y x : Expr D} {Y X v : ℝ}
    {yn xn : Number D} (hy : den σ y = some Y) (hx : den σ x = some X) (hyn : yn.val = Y) (hxn : xn.val = X)
    (hv : Spec.atan2 Y X = some v) : Vl σ (createAtan2Numerically E yn xn y x) v := by
  obtain ⟨hne, rfl⟩ := Spec.atan2_some hv
  unfold createAtan2Numerically
  refine wp_ite (fun h1 => ?_) fun h1 => wp_ite (fun h2 => ?_) fun h2 => wp_ite (fun h3 => ?_) fun h3 => ?_
  · simp only [Bool.and_eq_true, Number.eqv_iff, Number.lt_iff, hyn, hxn, Number.val_zero] at h1
    refine (timesPi_vl hE hσ (1 / 2)).eq ?_
    rw [(Complex.arg_eq_pi_div_two_iff (z := ⟨X, Y⟩)).2 ⟨h1.1, h1.2⟩]
    push_cast; ring
  · exact wp_bind (P := fun _ => False) (wp_log id) fun _ h => h.elim
  · simp only [Bool.and_eq_true, Number.eqv_iff, hyn, hxn, Number.val_zero] at h3
    exact absurd ⟨h3.1, h3.2⟩ hne
  · simp only [Bool.and_eq_true, Number.eqv_iff, Number.lt_iff, hyn, hxn, Number.val_zero] at h1 h2 h3
    have hX : X ≠ 0 := by
      intro h
      rcases lt_trichotomy Y 0 with h4 | h4 | h4
      · exact h2 ⟨h, h4⟩
      · exact h3 ⟨h, h4⟩
      · exact h1 ⟨h, h4⟩
    refine wp_bind (P := fun i => ∃ I, den σ i = some I ∧ (0 < X → I = 0) ∧ (X < 0 → 0 ≤ Y → I = Real.pi)) ?_
      fun i hi => ?_
    · refine wp_ite (fun h4 => wp_pure ⟨0, den_zero, fun _ => rfl, fun h5 => ?_⟩) fun h4 =>
        wp_ite (fun h5 => ?_) fun h5 => ?_
      · simp only [Number.lt_iff, hxn, Number.val_zero] at h4; linarith
      · simp only [Number.lt_iff, hxn, Number.val_zero] at h4
        exact wp_mono (timesPi_vl hE hσ 1) fun i hi => ⟨_, hi, fun h => absurd h h4, fun _ _ => by simp⟩
      · simp only [Number.lt_iff, hxn, Number.val_zero] at h4
        simp only [Bool.not_eq_true, Bool.not_eq_false', Number.lt_iff, hyn, Number.val_zero] at h5
        exact wp_mono (timesPi_vl hE hσ (-1)) fun i hi => ⟨_, hi, fun h => absurd h h4, fun _ h => by linarith⟩
    · obtain ⟨I, hI, h4, h5⟩ := hi
      exact simplAtan2_vl hE hσ hy hx hyn hxn hX hI h4 h5

theorem atan2Create_vl (hE : Sound E) (hσ : σ.Respects) {y x : Expr D} {Y X v : ℝ}
    (hy : den σ y = some Y) (hx : den σ x = some X) (hv : Spec.atan2 Y X = some v) :
    Vl σ (atan2Create E y x) v := by
  unfold atan2Create
  refine wp_ite (fun h => ?_) fun _ => ?_
  · rw [Bool.or_eq_true] at h
    rcases h with h | h
    · rw [not_undef hx] at h; simp at h
    · rw [not_undef hy] at h; simp at h
  · refine wp_bind (wp_lift fun a h => h) fun a ha => wp_bind (wp_lift fun a h => h) fun b hb => ?_
    split
    · rename_i a b
      exact createAtan2Numerically_vl hE hσ hy hx (numEval_val σ y b Y hb hy) (numEval_val σ x a X ha hx) hv
    · exact wp_pure (by simp [den, hy, hx, hv])

end Tsym
