import Verif.Props.Diff
import Mathlib.Analysis.Calculus.FDeriv.Extend

set_option autoImplicit false
set_option linter.unusedSectionVars false

/-!
# C12: derivatives at points where a base is zero
-/

namespace Tsym

open Expr Filter Topology

variable {D : Type} [Flt D]

/-- C12. At a point where the theorem does not apply (a base is zero), but it applies at all other points nearby, and the expression and
the result are continuous, the result is the derivative. -/
theorem C12_limit [LawfulFlt D] (cfg : Cfg D) (hcfg : cfg.Ok) (n : Nat) (σ : Asg) (a : Expr D) (x : Sym) (r : Expr D) (cs : List (Cond D))
    (hr : Api.diff (eng cfg n) a (.sym x) = .ok (r, cs)) (hd : r ≠ .undef)
    (hnear : ∀ᶠ t in 𝓝[≠] (σ x), Asg.Respects (Function.update σ x t) ∧ Smooth (Function.update σ x t) x a ∧ ∀ c ∈ cs, c.holds (Function.update σ x t))
    (f g : ℝ → ℝ) (hf : ∀ᶠ t in 𝓝 (σ x), den (Function.update σ x t) a = some (f t)) (hfc : ContinuousAt f (σ x))
    (hg : ∀ᶠ t in 𝓝 (σ x), den (Function.update σ x t) r = some (g t)) (hgc : ContinuousAt g (σ x)) :
    den σ r = some (g (σ x)) ∧ Derives σ x a (g (σ x)) := by
  have hr0 : den σ r = some (g (σ x)) := by
    have := hg.self_of_nhds
    rwa [Function.update_eq_self] at this
  refine ⟨hr0, f, hf, ?_⟩
  have key : ∀ᶠ t in 𝓝[≠] (σ x), HasDerivAt f (g t) t := by
    have hf' : ∀ᶠ t in 𝓝[≠] (σ x), ∀ᶠ u in 𝓝 t, den (Function.update σ x u) a = some (f u) :=
      (eventually_eventually_nhds.2 hf).filter_mono nhdsWithin_le_nhds
    filter_upwards [hnear, hf', hg.filter_mono nhdsWithin_le_nhds] with t ht hft hgt
    obtain ⟨d, h1, f2, h2, h3⟩ := C12_diff_partial cfg hcfg n _ ht.1 a x ht.2.1 r cs hr ht.2.2 hd
    have hdg : d = g t := by rw [h1] at hgt; exact Option.some.inj hgt
    subst hdg
    simp only [Function.update_self, Function.update_idem] at h2 h3
    refine h3.congr_of_eventuallyEq ?_
    filter_upwards [h2, hft] with u hu1 hu2
    rw [hu2] at hu1
    exact Option.some.inj hu1
  obtain ⟨ε, hε, hball⟩ := Metric.eventually_nhds_iff.1 (eventually_nhdsWithin_iff.1 key)
  have hder : ∀ t, t ≠ σ x → |t - σ x| < ε → HasDerivAt f (g t) t := fun t h1 h2 => hball (by rwa [Real.dist_eq]) h1
  have A : HasDerivWithinAt f (g (σ x)) (Set.Ici (σ x)) (σ x) := by
    have hm : Set.Ioo (σ x) (σ x + ε) ∈ 𝓝[>] (σ x) := Ioo_mem_nhdsGT (by linarith)
    have hd' : ∀ t ∈ Set.Ioo (σ x) (σ x + ε), HasDerivAt f (g t) t := fun t ht =>
      hder t ht.1.ne' (by rw [abs_lt]; constructor <;> linarith [ht.1, ht.2])
    refine hasDerivWithinAt_Ici_of_tendsto_deriv (s := Set.Ioo (σ x) (σ x + ε)) (fun t ht => (hd' t ht).differentiableAt.differentiableWithinAt)
      hfc.continuousWithinAt hm ?_
    refine (hgc.tendsto.mono_left nhdsWithin_le_nhds).congr' ?_
    filter_upwards [hm] with t ht
    exact (hd' t ht).deriv.symm
  have B : HasDerivWithinAt f (g (σ x)) (Set.Iic (σ x)) (σ x) := by
    have hm : Set.Ioo (σ x - ε) (σ x) ∈ 𝓝[<] (σ x) := Ioo_mem_nhdsLT (by linarith)
    have hd' : ∀ t ∈ Set.Ioo (σ x - ε) (σ x), HasDerivAt f (g t) t := fun t ht =>
      hder t ht.2.ne (by rw [abs_lt]; constructor <;> linarith [ht.1, ht.2])
    refine hasDerivWithinAt_Iic_of_tendsto_deriv (s := Set.Ioo (σ x - ε) (σ x)) (fun t ht => (hd' t ht).differentiableAt.differentiableWithinAt)
      hfc.continuousWithinAt hm ?_
    refine (hgc.tendsto.mono_left nhdsWithin_le_nhds).congr' ?_
    filter_upwards [hm] with t ht
    exact (hd' t ht).deriv.symm
  have := B.union A
  rwa [Set.Iic_union_Ici, hasDerivWithinAt_univ] at this

namespace DiffEx

open ExprEx SymEx ValueEx

/-- The derivative of b*(a+b)^3. -/
theorem diff_cubed : Api.diff lib (prod [b, pow (sum [a, b]) (int 3)]) a = .ok (prod [int 3, b, pow (sum [a, b]) (int 2)], []) := by krfl

/-- C12 on an example: the derivative of b*(a+b)^3 at a = -1, b = 1, where the base is zero. -/
example : den (fun s => if s = sa then -1 else 1) (prod [int 3, b, pow (sum [a, b]) (int 2)] : Expr Hyb) = some 0 ∧
    Derives (fun s => if s = sa then -1 else 1) sa (prod [b, pow (sum [a, b]) (int 3)] : Expr Hyb) 0 := by
  have hp : ∀ (x : ℝ) (n : ℕ), n ≠ 0 → Spec.pow x n = some (x ^ n) := fun x n h => Spec.pow_nat h
  have hb : ∀ t : ℝ, den (Function.update (fun s => if s = sa then -1 else 1) sa t) (b : Expr Hyb) = some 1 := by
    intro t
    have : (⟨.named ⟨['b'], [], []⟩, false⟩ : Sym) ≠ sa := by decide
    simp only [b, den]
    rw [Function.update_of_ne this, if_neg this]
  have hs : ∀ t : ℝ, den (Function.update (fun s => if s = sa then -1 else 1) sa t) (sum [a, b] : Expr Hyb) = some (t + 1) := by
    intro t
    refine denSum_two ?_ (hb t)
    show some (Function.update (fun s => if s = sa then (-1 : ℝ) else 1) sa t sa) = _
    rw [Function.update_self]
  have ob : ¬ Occurs (.sym sa) (b : Expr Hyb) := by rw [← has_sym_iff]; decide
  have := C12_limit (Cfg.std 1000) (Cfg.std_ok 1000) 30 (fun s => if s = sa then -1 else 1) (prod [b, pow (sum [a, b]) (int 3)]) sa _ [] diff_cubed
    (by simp) ?_ (fun t => 1 * (t + 1) ^ 3) (fun t => 3 * 1 * (t + 1) ^ 2) ?_ ?_ ?_ ?_
  · simpa using this
  · filter_upwards [self_mem_nhdsWithin] with t ht
    have h0 : t + 1 ≠ 0 := by
      intro h
      exact ht (by simp only [if_true, Set.mem_singleton_iff]; linarith)
    refine ⟨fun s hs => ?_, ?_, by simp⟩
    · by_cases h : s = sa
      · subst h; cases hs
      · rw [Function.update_of_ne h]; simp [h]
    · refine .prod fun y hy => ?_
      simp only [List.mem_cons, List.not_mem_nil, or_false] at hy
      rcases hy with rfl | rfl
      · exact .const ob (hb t)
      · refine .powInt (n := 3) (.sum fun z hz => ?_) (by rw [← has_sym_iff]; decide) (by simp) (hs t) h0
        simp only [List.mem_cons, List.not_mem_nil, or_false] at hz
        rcases hz with rfl | rfl
        · exact .sym
        · exact .const ob (hb t)
  · refine Eventually.of_forall fun t => denProd_two (hb t) (den_pow.2 ⟨_, 3, hs t, by simp, ?_⟩)
    have := hp (t + 1) 3 (by norm_num)
    exact_mod_cast this
  · fun_prop
  · refine Eventually.of_forall fun t => denProd_three (by simp) (hb t) (den_pow.2 ⟨_, 2, hs t, by simp, ?_⟩)
    have := hp (t + 1) 2 (by norm_num)
    exact_mod_cast this
  · fun_prop

end DiffEx

end Tsym
