import Verif.DiffZero
import Verif.SoundApi
import Verif.DerivSpec
import Mathlib.Analysis.SpecialFunctions.Pow.Deriv
import Mathlib.Analysis.SpecialFunctions.Trigonometric.ArctanDeriv
import Mathlib.Analysis.SpecialFunctions.Trigonometric.InverseDeriv
import Mathlib.Analysis.Calculus.Deriv.ZPow

set_option autoImplicit false
set_option linter.unusedSectionVars false

/-!
# Derivatives
-/

namespace Tsym

open Expr Filter Topology

variable {D : Type} [Flt D] [LawfulFlt D]

variable {σ : Asg} {x : Sym}

theorem not_occurs_within {a : Expr D} (h : ¬ Occurs (.sym x) a) : Within (fun s => s ≠ x) a := by
  rintro s hs rfl
  exact h hs

theorem den_update_of_not {a : Expr D} (h : ¬ Occurs (.sym x) a) (t : ℝ) :
    den (Function.update σ x t) a = den σ a := by
  refine den_congr a ((not_occurs_within h).mono fun s hs => ?_)
  exact Function.update_of_ne hs _ _

/-- The value at the point. -/
theorem Derives.value {a : Expr D} {d v : ℝ} {f : ℝ → ℝ}
    (h : ∀ᶠ t in 𝓝 (σ x), den (Function.update σ x t) a = some (f t)) (hv : den σ a = some v) :
    f (σ x) = v := by
  have := h.self_of_nhds
  rw [Function.update_eq_self, hv] at this
  exact (Option.some.inj this).symm

theorem Derives.val {a : Expr D} {d : ℝ} (h : Derives σ x a d) : ∃ v, den σ a = some v := by
  obtain ⟨f, hf, -⟩ := h
  have := hf.self_of_nhds
  rw [Function.update_eq_self] at this
  exact ⟨_, this⟩

theorem Derives.const {a : Expr D} {v : ℝ} (h : ¬ Occurs (.sym x) a) (hv : den σ a = some v) :
    Derives σ x a 0 :=
  ⟨fun _ => v, Eventually.of_forall fun t => by rw [den_update_of_not h, hv], hasDerivAt_const _ _⟩

/-- A function of one argument. -/
theorem Derives.comp {a b : Expr D} {d d' v : ℝ} {g : ℝ → ℝ} (h : Derives σ x a d)
    (hv : den σ a = some v) (hg : HasDerivAt g d' v)
    (hb : ∀ᶠ u in 𝓝 v, ∀ τ : Asg, den τ a = some u → den τ b = some (g u)) :
    Derives σ x b (d' * d) := by
  obtain ⟨f, hf, hd⟩ := h
  have hfv := Derives.value (d := d) hf hv
  refine ⟨g ∘ f, ?_, ?_⟩
  · have hc : Tendsto f (𝓝 (σ x)) (𝓝 v) := hfv ▸ hd.continuousAt
    filter_upwards [hf, hc.eventually hb] with t h1 h2
    exact h2 _ h1
  · rw [← hfv] at hg
    exact hg.comp (σ x) hd

/-- What is to be shown for the derivative of `a`. -/
def DiffOk (σ : Asg) (x : Sym) (a r : Expr D) : Prop :=
  r = .undef ∨ ∃ d, den σ r = some d ∧ Derives σ x a d

variable {cfg : Cfg D} (hcfg : cfg.Ok) (n : Nat) (hσ : σ.Respects)
include hcfg hσ

theorem diffSum_ok {l : List (Expr D)} {f : Expr D → M D (Expr D)}
    (h : ∀ a ∈ l, wp (Cond.holds σ) (f a) (DiffOk σ x a)) :
    wp (Cond.holds σ) (M.mapL f l) fun r => .undef ∈ r ∨
      ∃ d, denSum σ r = some d ∧ Derives σ x (.sum l) d := by
  clear hcfg
  induction l with
  | nil =>
    refine wp_pure (.inr ⟨0, rfl, fun _ => 0, Eventually.of_forall fun t => rfl, hasDerivAt_const _ _⟩)
  | cons a l ih =>
    refine wp_bind (h a (by simp)) fun r hr => ?_
    refine wp_bind (ih fun b hb => h b (by simp [hb])) fun rs hrs => wp_pure ?_
    rcases hr with rfl | ⟨d, hd, f1, h1, h2⟩
    · exact .inl (by simp)
    rcases hrs with h | ⟨d', hd', f2, h3, h4⟩
    · exact .inl (by simp [h])
    refine .inr ⟨d + d', denSum_cons.2 ⟨_, _, hd, hd', rfl⟩, fun t => f1 t + f2 t, ?_, h2.add h4⟩
    filter_upwards [h1, h3] with t ht1 ht2
    exact denSum_cons.2 ⟨_, _, ht1, ht2, rfl⟩

theorem diffProd_ok {l : List (Expr D)}
    (h : ∀ a ∈ l, wp (Cond.holds σ) ((eng cfg n).diff (.sym x) a) (DiffOk σ x a))
    (hv : ∀ a ∈ l, ∃ v, den σ a = some v) {before : List (Expr D)} {B : ℝ}
    (hB : denProd σ before = some B) :
    wp (Cond.holds σ) (diffProd (eng cfg n) (.sym x) before l) fun r => .undef ∈ r ∨
      ∃ d, denSum σ r = some (B * d) ∧ Derives σ x (.prod l) d := by
  have hE := sound_eng hcfg n
  induction l generalizing before B with
  | nil =>
    refine wp_pure (.inr ⟨0, by simp [denSum], fun _ => 1, Eventually.of_forall fun t => rfl,
      hasDerivAt_const _ _⟩)
  | cons a l ih =>
    obtain ⟨va, hva⟩ := hv a (by simp)
    have hl : ∃ L, denProd σ l = some L := by
      have : ∀ l : List (Expr D), (∀ a ∈ l, ∃ v, den σ a = some v) → ∃ L, denProd σ l = some L := by
        intro l
        induction l with
        | nil => exact fun _ => ⟨1, rfl⟩
        | cons b l ih =>
          intro h
          obtain ⟨v, hv⟩ := h b (by simp)
          obtain ⟨L, hL⟩ := ih fun a ha => h a (by simp [ha])
          exact ⟨_, denProd_cons.2 ⟨_, _, hv, hL, rfl⟩⟩
      exact this l fun b hb => hv b (by simp [hb])
    obtain ⟨L, hL⟩ := hl
    refine wp_bind (h a (by simp)) fun r hr => ?_
    have hp : wp (Cond.holds σ) ((eng cfg n).prodCreate (r :: (before ++ l))) fun p => p = .undef ∨
        ∃ d, den σ p = some (d * (B * L)) ∧ Derives σ x a d := by
      rcases hr with rfl | ⟨d, hd, hD⟩
      · exact wp_mono (prodCreate_undef cfg n (by simp)) fun _ h => .inl h
      · refine wp_mono (hE.prod hσ (denProd_cons.2 ⟨_, _, hd, denProd_append.2 ⟨_, _, hB, hL, rfl⟩, rfl⟩))
          fun p hp => .inr ⟨d, hp, hD⟩
    refine wp_bind hp fun p hp => ?_
    refine wp_bind (ih (fun b hb => h b (by simp [hb])) (fun b hb => hv b (by simp [hb]))
      (before := before ++ [a]) (B := B * va)
      (denProd_append.2 ⟨_, _, hB, by rw [denProd_one, hva], rfl⟩)) fun rs hrs => wp_pure ?_
    rcases hp with rfl | ⟨d, hd, f1, h1, h2⟩
    · exact .inl (by simp)
    rcases hrs with h | ⟨d', hd', f2, h3, h4⟩
    · exact .inl (by simp [h])
    refine .inr ⟨d * L + va * d', denSum_cons.2 ⟨_, _, hd, hd', by ring⟩, fun t => f1 t * f2 t, ?_, ?_⟩
    · filter_upwards [h1, h3] with t ht1 ht2
      exact denProd_cons.2 ⟨_, _, ht1, ht2, rfl⟩
    · have e1 := Derives.value (d := d) h1 hva
      have e2 := Derives.value (d := d') h3 (a := .prod l) hL
      have := h2.mul h4
      rw [e1, e2] at this
      exact this

theorem diffTrig_ok {a b : Expr D} {i : M D (Expr D)} {v d' : ℝ}
    (h : wp (Cond.holds σ) ((eng cfg n).diff (.sym x) a) (DiffOk σ x a))
    (hi : Vl σ i d') (hv : den σ a = some v) {g : ℝ → ℝ} (hg : HasDerivAt g d' v)
    (hb : ∀ᶠ u in 𝓝 v, ∀ τ : Asg, den τ a = some u → den τ b = some (g u)) :
    wp (Cond.holds σ) (diffTrig (eng cfg n) (.sym x) a i) (DiffOk σ x b) := by
  have hE := sound_eng hcfg n
  refine wp_bind h fun d hd => wp_bind hi fun i hi => ?_
  rcases hd with rfl | ⟨y, hy, hD⟩
  · refine wp_bind (prodCreate_undef cfg n (by simp)) ?_
    rintro _ rfl
    exact wp_mono (normal_zu hcfg n (.inr rfl)) fun _ h => .inl (h.2 rfl)
  · refine wp_bind (hE.prod hσ (denProd_two hi hy)) fun p hp => ?_
    exact wp_mono (hE.normal hσ hp) fun r hr => .inr ⟨_, hr, hD.comp hv hg hb⟩

omit hcfg hσ in
theorem Smooth.val {a : Expr D} (h : Smooth σ x a) : ∃ v, den σ a = some v := by
  induction h with
  | const _ h => exact ⟨_, h⟩
  | sym => exact ⟨_, rfl⟩
  | @sum l hl ih =>
    show ∃ v, denSum σ l = some v
    induction l with
    | nil => exact ⟨_, rfl⟩
    | cons a l ihl =>
      obtain ⟨v, hv⟩ := ih a (by simp)
      obtain ⟨w, hw⟩ := ihl (fun b hb => hl b (by simp [hb]))
        fun b hb => ih b (by simp [hb])
      exact ⟨_, denSum_cons.2 ⟨_, _, hv, hw, rfl⟩⟩
  | @prod l hl ih =>
    show ∃ v, denProd σ l = some v
    induction l with
    | nil => exact ⟨_, rfl⟩
    | cons a l ihl =>
      obtain ⟨v, hv⟩ := ih a (by simp)
      obtain ⟨w, hw⟩ := ihl (fun b hb => hl b (by simp [hb]))
        fun b hb => ih b (by simp [hb])
      exact ⟨_, denProd_cons.2 ⟨_, _, hv, hw, rfl⟩⟩
  | pow _ _ hb hv _ ih =>
    obtain ⟨w, hw⟩ := ih
    exact ⟨_, den_pow.2 ⟨_, _, hb, hw, Spec.pow_pos' hv⟩⟩
  | powInt _ _ he hb hv => exact ⟨_, den_pow.2 ⟨_, _, hb, he, Spec.pow_int _ hv⟩⟩
  | log _ hv h => exact ⟨_, den_fn.2 ⟨_, hv, by simp only [Spec.fn, Spec.log, h, if_true]; rfl⟩⟩
  | sin _ ih => obtain ⟨v, hv⟩ := ih; exact ⟨_, den_fn.2 ⟨_, hv, rfl⟩⟩
  | cos _ ih => obtain ⟨v, hv⟩ := ih; exact ⟨_, den_fn.2 ⟨_, hv, rfl⟩⟩
  | tan _ hv h => exact ⟨_, den_fn.2 ⟨_, hv, by simp only [Spec.fn, Spec.tan, h, ne_eq, not_false_eq_true, if_true]; rfl⟩⟩
  | asin _ hv h1 h2 => exact ⟨_, den_fn.2 ⟨_, hv, by simp only [Spec.fn, Spec.asin, h1.le, h2.le, and_self, if_true]; rfl⟩⟩
  | acos _ hv h1 h2 => exact ⟨_, den_fn.2 ⟨_, hv, by simp only [Spec.fn, Spec.acos, h1.le, h2.le, and_self, if_true]; rfl⟩⟩
  | atan _ ih => obtain ⟨v, hv⟩ := ih; exact ⟨_, den_fn.2 ⟨_, hv, rfl⟩⟩

theorem diffPow_ok {b e : Expr D} {v w : ℝ}
    (hb : wp (Cond.holds σ) ((eng cfg n).diff (.sym x) b) (DiffOk σ x b))
    (he : wp (Cond.holds σ) ((eng cfg n).diff (.sym x) e) (DiffOk σ x e))
    (hv : den σ b = some v) (hw : den σ e = some w) (h0 : 0 < v) :
    wp (Cond.holds σ) (diff (eng cfg n) (.sym x) (.pow b e)) (DiffOk σ x (.pow b e)) := by
  have hE := sound_eng hcfg n
  refine wp_bind (hE.log hσ hv (by simp only [Spec.log, h0, if_true]; rfl)) fun lg hlg => ?_
  refine wp_bind he fun de hde => ?_
  have h1 : wp (Cond.holds σ) ((eng cfg n).prodCreate [lg, de]) fun r => r = .undef ∨
      ∃ d, den σ r = some (Real.log v * d) ∧ Derives σ x e d := by
    rcases hde with rfl | ⟨d, hd, hD⟩
    · exact wp_mono (prodCreate_undef cfg n (by simp)) fun _ h => .inl h
    · exact wp_mono (hE.prod hσ (denProd_two hlg hd)) fun r hr => .inr ⟨d, hr, hD⟩
  refine wp_bind h1 fun s1 hs1 => ?_
  refine wp_bind (oneOver_vl hE hσ hv h0.ne') fun o ho => wp_bind hb fun db hdb => ?_
  have h2 : wp (Cond.holds σ) ((eng cfg n).prodCreate [e, o, db]) fun r => r = .undef ∨
      ∃ d, den σ r = some (w * v⁻¹ * d) ∧ Derives σ x b d := by
    rcases hdb with rfl | ⟨d, hd, hD⟩
    · exact wp_mono (prodCreate_undef cfg n (by simp)) fun _ h => .inl h
    · exact wp_mono (hE.prod hσ (denProd_three hw ho hd)) fun r hr => .inr ⟨d, hr, hD⟩
  refine wp_bind h2 fun s2 hs2 => ?_
  rcases hs1 with rfl | ⟨d1, hd1, f1, h1, h1'⟩
  · refine wp_bind (sumCreate_undef cfg n (by simp)) ?_
    rintro _ rfl
    exact wp_mono (prodCreate_undef cfg n (by simp)) fun _ h => .inl h
  rcases hs2 with rfl | ⟨d2, hd2, f2, h2, h2'⟩
  · refine wp_bind (sumCreate_undef cfg n (by simp)) ?_
    rintro _ rfl
    exact wp_mono (prodCreate_undef cfg n (by simp)) fun _ h => .inl h
  refine wp_bind (hE.sum hσ (denSum_two hd1 hd2)) fun s hs => ?_
  refine wp_mono (hE.prod hσ (denProd_two (den_pow.2 ⟨_, _, hv, hw, Spec.pow_pos' h0⟩) hs)) fun r hr => ?_
  refine .inr ⟨_, hr, fun t => f2 t ^ f1 t, ?_, ?_⟩
  · have e2 := Derives.value (d := d2) h2 hv
    have hpos : ∀ᶠ t in 𝓝 (σ x), 0 < f2 t :=
      h2'.continuousAt.eventually (lt_mem_nhds (e2.symm ▸ h0))
    filter_upwards [h1, h2, hpos] with t ht1 ht2 ht3
    exact den_pow.2 ⟨_, _, ht2, ht1, Spec.pow_pos' ht3⟩
  · have e1 := Derives.value (d := d1) h1 hw
    have e2 := Derives.value (d := d2) h2 hv
    have := h2'.rpow h1' (e2.symm ▸ h0)
    rw [e1, e2] at this
    convert this using 1
    rw [Real.rpow_sub_one h0.ne']
    field_simp
    ring

theorem diffPowInt_ok {b e : Expr D} {v : ℝ} {k : ℤ}
    (hb : wp (Cond.holds σ) ((eng cfg n).diff (.sym x) b) (DiffOk σ x b))
    (he : ¬ Occurs (.sym x) e) (hw : den σ e = some (k : ℝ)) (hv : den σ b = some v) (h0 : v ≠ 0) :
    wp (Cond.holds σ) (diff (eng cfg n) (.sym x) (.pow b e)) (DiffOk σ x (.pow b e)) := by
  have hE := sound_eng hcfg n
  refine wp_bind wp_true fun lg _ => ?_
  refine wp_bind (diff_zu hcfg n (not_occurs_within he)) fun de hde => ?_
  refine wp_bind (prodCreate_zu cfg n (z := de) (by simp) hde) fun s1 hs1 => ?_
  refine wp_bind (oneOver_vl hE hσ hv h0) fun o ho => wp_bind hb fun db hdb => ?_
  have h2 : wp (Cond.holds σ) ((eng cfg n).prodCreate [e, o, db]) fun r => r = .undef ∨
      ∃ d, den σ r = some (k * v⁻¹ * d) ∧ Derives σ x b d := by
    rcases hdb with rfl | ⟨d, hd, hD⟩
    · exact wp_mono (prodCreate_undef cfg n (by simp)) fun _ h => .inl h
    · exact wp_mono (hE.prod hσ (denProd_three hw ho hd)) fun r hr => .inr ⟨d, hr, hD⟩
  refine wp_bind h2 fun s2 hs2 => ?_
  rcases hs1 with rfl | rfl
  swap
  · refine wp_bind (sumCreate_undef cfg n (by simp)) ?_
    rintro _ rfl
    exact wp_mono (prodCreate_undef cfg n (by simp)) fun _ h => .inl h
  rcases hs2 with rfl | ⟨d2, hd2, f2, h2, h2'⟩
  · refine wp_bind (sumCreate_undef cfg n (by simp)) ?_
    rintro _ rfl
    exact wp_mono (prodCreate_undef cfg n (by simp)) fun _ h => .inl h
  refine wp_bind (hE.sum hσ (denSum_two den_zero hd2)) fun s hs => ?_
  refine wp_mono (hE.prod hσ (denProd_two (den_pow.2 ⟨_, _, hv, hw, Spec.pow_int _ h0⟩) hs)) fun r hr => ?_
  refine .inr ⟨_, hr, fun t => f2 t ^ k, ?_, ?_⟩
  · have e2 := Derives.value (d := d2) h2 hv
    have hne : ∀ᶠ t in 𝓝 (σ x), f2 t ≠ 0 :=
      h2'.continuousAt.eventually_ne (e2.symm ▸ h0)
    filter_upwards [h2, hne] with t ht2 ht3
    exact den_pow.2 ⟨_, _, ht2, by rw [den_update_of_not he, hw], Spec.pow_int _ ht3⟩
  · have e2 := Derives.value (d := d2) h2 hv
    have := (hasDerivAt_zpow k (f2 (σ x)) (.inl (e2.symm ▸ h0))).comp (σ x) h2'
    rw [e2] at this
    have h3 : v ^ k * (0 + k * v⁻¹ * d2) = (k : ℝ) * v ^ (k - 1) * d2 := by
      rw [zpow_sub_one₀ h0]
      ring
    rw [h3]
    exact this

/-- C12, the induction. -/
theorem diff_ok {a : Expr D} (h : Smooth σ x a) :
    wp (Cond.holds σ) ((eng cfg n).diff (.sym x) a) (DiffOk σ x a) := by
  induction n generalizing a with
  | zero => exact wp_err
  | succ n ih =>
    have hE := sound_eng hcfg n
    show wp (Cond.holds σ) (diff (eng cfg n) (.sym x) a) (DiffOk σ x a)
    cases h with
    | const h hv =>
      refine wp_mono (diff_zu hcfg (n + 1) (not_occurs_within h)) ?_
      rintro r (rfl | rfl)
      · exact .inr ⟨0, den_zero, Derives.const h hv⟩
      · exact .inl rfl
    | sym =>
      have : isEqual (.sym x : Expr D) (.sym x) = true := by simp [isEqual]
      simp only [diff, this, if_true]
      refine wp_pure (.inr ⟨1, den_one, id, Eventually.of_forall fun t => ?_, hasDerivAt_id _⟩)
      simp
    | @sum l h =>
      refine wp_bind (diffSum_ok hcfg hσ fun a ha => ih (h a ha)) fun r hr => ?_
      rcases hr with hr | ⟨d, hd, hD⟩
      · exact wp_mono (sumCreate_undef cfg n hr) fun _ h => .inl h
      · exact wp_mono (hE.sum hσ hd) fun _ h => .inr ⟨d, h, hD⟩
    | @prod l h =>
      refine wp_bind (diffProd_ok hcfg n hσ (B := 1) (fun a ha => ih (h a ha)) (fun a ha => (h a ha).val)
        rfl) fun r hr => ?_
      rcases hr with hr | ⟨d, hd, hD⟩
      · exact wp_mono (sumCreate_undef cfg n hr) fun _ h => .inl h
      · rw [one_mul] at hd
        exact wp_mono (hE.sum hσ hd) fun _ h => .inr ⟨d, h, hD⟩
    | pow hb he hv h0 =>
      obtain ⟨w, hw⟩ := he.val
      exact diffPow_ok hcfg n hσ (ih hb) (ih he) hv hw h0
    | powInt hb he hw hv h0 => exact diffPowInt_ok hcfg n hσ (ih hb) he hw hv h0
    | @log b v ha hv h0 =>
      refine wp_bind (oneOver_vl hE hσ hv h0.ne') fun o ho => wp_bind (ih ha) fun d hd => ?_
      rcases hd with rfl | ⟨y, hy, hD⟩
      · exact wp_mono (prodCreate_undef cfg n (by simp)) fun _ h => .inl h
      · refine wp_mono (hE.prod hσ (denProd_two ho hy)) fun r hr => .inr ⟨_, hr, ?_⟩
        refine hD.comp hv (Real.hasDerivAt_log h0.ne') ?_
        filter_upwards [lt_mem_nhds h0] with u hu τ hτ
        exact den_fn.2 ⟨_, hτ, by simp only [Spec.fn, Spec.log, hu, if_true]⟩
    | @sin b ha =>
      obtain ⟨v, hv⟩ := ha.val
      refine diffTrig_ok hcfg n hσ (ih ha) (hE.trig hσ (f := .cos) (by simp) hv rfl) hv
        (Real.hasDerivAt_sin v) (Eventually.of_forall fun u τ hτ => den_fn.2 ⟨_, hτ, rfl⟩)
    | @cos b ha =>
      obtain ⟨v, hv⟩ := ha.val
      refine diffTrig_ok hcfg n hσ (ih ha) ?_ hv
        (Real.hasDerivAt_cos v) (Eventually.of_forall fun u τ hτ => den_fn.2 ⟨_, hτ, rfl⟩)
      exact wp_bind (hE.trig hσ (f := .sin) (by simp) hv rfl) fun s hs => minus_vl hE hσ hs
    | @tan b v ha hv h0 =>
      refine diffTrig_ok hcfg n hσ (ih ha) (d' := 1 + Real.tan v ^ 2) ?_ hv
        (g := Real.tan) ?_ ?_
      · refine wp_bind (hE.trig hσ (f := .tan) (by simp) hv
          (by simp only [Spec.fn, Spec.tan, h0, ne_eq, not_false_eq_true, if_true]; rfl)) fun s hs => ?_
        refine wp_bind (hE.pow hσ hs den_two (Spec.pow_two' _)) fun t ht => ?_
        exact hE.sum hσ (denSum_two den_one ht)
      · convert Real.hasDerivAt_tan h0 using 1
        rw [Real.tan_eq_sin_div_cos]
        field_simp
        rw [Real.cos_sq_add_sin_sq]
      · filter_upwards [Real.continuous_cos.continuousAt.eventually_ne h0] with u hu τ hτ
        exact den_fn.2 ⟨_, hτ, by simp only [Spec.fn, Spec.tan, hu, ne_eq, not_false_eq_true, if_true]⟩
    | @asin b v ha hv h1 h2 =>
      have h3 : 0 < 1 - v ^ 2 := by nlinarith
      refine diffTrig_ok hcfg n hσ (ih ha) (d' := 1 / Real.sqrt (1 - v ^ 2)) ?_ hv
        (g := Real.arcsin) (Real.hasDerivAt_arcsin h1.ne' h2.ne) ?_
      · refine wp_bind (hE.pow hσ hv den_two (Spec.pow_two' _)) fun t ht => ?_
        refine wp_bind (minus_vl hE hσ ht) fun m hm => wp_bind (hE.sum hσ (denSum_two den_one hm)) fun s hs => ?_
        refine hE.pow hσ hs (den_ratE _) ?_
        rw [← sub_eq_add_neg, Spec.pow_pos' h3]
        congr 1
        rw [Real.sqrt_eq_rpow, one_div, ← Real.rpow_neg h3.le]
        norm_num
      · filter_upwards [lt_mem_nhds h1, gt_mem_nhds h2] with u hu1 hu2 τ hτ
        exact den_fn.2 ⟨_, hτ, by simp only [Spec.fn, Spec.asin, hu1.le, hu2.le, and_self, if_true]⟩
    | @acos b v ha hv h1 h2 =>
      have h3 : 0 < 1 - v ^ 2 := by nlinarith
      refine diffTrig_ok hcfg n hσ (ih ha) (d' := -(1 / Real.sqrt (1 - v ^ 2))) ?_ hv
        (g := Real.arccos) (Real.hasDerivAt_arccos h1.ne' h2.ne) ?_
      · refine wp_bind (hE.pow hσ hv den_two (Spec.pow_two' _)) fun t ht => ?_
        refine wp_bind (minus_vl hE hσ ht) fun m hm => wp_bind (hE.sum hσ (denSum_two den_one hm)) fun s hs => ?_
        refine wp_bind (hE.pow hσ hs (den_ratE _) (v := 1 / Real.sqrt (1 - v ^ 2)) ?_) fun p hp => minus_vl hE hσ hp
        rw [← sub_eq_add_neg, Spec.pow_pos' h3]
        congr 1
        rw [Real.sqrt_eq_rpow, one_div, ← Real.rpow_neg h3.le]
        norm_num
      · filter_upwards [lt_mem_nhds h1, gt_mem_nhds h2] with u hu1 hu2 τ hτ
        exact den_fn.2 ⟨_, hτ, by simp only [Spec.fn, Spec.acos, hu1.le, hu2.le, and_self, if_true]⟩
    | @atan b ha =>
      obtain ⟨v, hv⟩ := ha.val
      refine diffTrig_ok hcfg n hσ (ih ha) (d' := 1 / (1 + v ^ 2)) ?_ hv
        (Real.hasDerivAt_arctan v) (Eventually.of_forall fun u τ hτ => den_fn.2 ⟨_, hτ, rfl⟩)
      refine wp_bind (hE.pow hσ hv den_two (Spec.pow_two' _)) fun t ht => ?_
      refine wp_bind (hE.sum hσ (denSum_two den_one ht)) fun s hs => ?_
      rw [one_div]
      exact oneOver_vl hE hσ hs (by positivity)

end Tsym
