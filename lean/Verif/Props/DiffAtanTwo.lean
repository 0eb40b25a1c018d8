import Verif.Props.Diff

set_option autoImplicit false
set_option linter.unusedSectionVars false

/-!
# C12: derivatives of atan2 of arguments with the symbol
-/

namespace Tsym

open Expr Filter Topology

/-- Near a point off the vertical axis and off the cut, the angle is the arc tangent of the quotient up to a constant. -/
theorem angle_near {v w : ℝ} (hw : w ≠ 0) (h : 0 < w ∨ v ≠ 0) :
    ∃ c : ℝ, ∀ᶠ p : ℝ × ℝ in 𝓝 (v, w), Spec.atan2 p.1 p.2 = some (Real.arctan (p.1 / p.2) + c) := by
  have hs : ∀ y x : ℝ, x ≠ 0 → Spec.atan2 y x = some (Complex.arg ⟨x, y⟩) := by
    intro y x hx; simp [Spec.atan2, hx]
  have c1 : Tendsto (fun p : ℝ × ℝ => p.1) (𝓝 (v, w)) (𝓝 v) := continuous_fst.continuousAt
  have c2 : Tendsto (fun p : ℝ × ℝ => p.2) (𝓝 (v, w)) (𝓝 w) := continuous_snd.continuousAt
  rcases lt_or_gt_of_ne hw with h0 | h0
  · have hv : v ≠ 0 := h.resolve_left (not_lt.2 h0.le)
    rcases lt_or_gt_of_ne hv with h1 | h1
    · refine ⟨-Real.pi, ?_⟩
      filter_upwards [c1.eventually (gt_mem_nhds h1), c2.eventually (gt_mem_nhds h0)] with p hp1 hp2
      rw [hs _ _ hp2.ne]
      have e := arctan_of_neg (X := p.2) (Y := -p.1) hp2 (by linarith)
      have e2 : Complex.arg ⟨p.2, p.1⟩ = - Complex.arg ⟨p.2, -p.1⟩ := by
        have := Complex.arg_conj ⟨p.2, p.1⟩
        have hne : Complex.arg ⟨p.2, p.1⟩ ≠ Real.pi := by
          intro h; rw [Complex.arg_eq_pi_iff] at h; exact hp1.ne h.2
        rw [if_neg hne] at this
        rw [show (⟨p.2, -p.1⟩ : ℂ) = (starRingEnd ℂ) ⟨p.2, p.1⟩ from rfl, this, neg_neg]
      rw [e2, neg_div, Real.arctan_neg] at *
      congr 1; linarith
    · refine ⟨Real.pi, ?_⟩
      filter_upwards [c1.eventually (lt_mem_nhds h1), c2.eventually (gt_mem_nhds h0)] with p hp1 hp2
      rw [hs _ _ hp2.ne]
      have e := arctan_of_neg (X := p.2) (Y := p.1) hp2 hp1.le
      congr 1; linarith
  · refine ⟨0, ?_⟩
    filter_upwards [c2.eventually (lt_mem_nhds h0)] with p hp2
    rw [hs _ _ hp2.ne', arctan_of_pos hp2, add_zero]

variable {D : Type} [Flt D] [LawfulFlt D]

/-- C12. The derivative of atan2: let both arguments have derivatives, the second one a value other than zero, and let the point not be
on the cut. The code derives the arc tangent of the quotient of the arguments. If this quotient, as the code computes it, is put together
from differentiable functions, and the conditions of its computation hold nearby and those of the derivative at the point, the
result is Undefined or its value is the derivative of the angle. -/
theorem C12_atan2 (cfg : Cfg D) (hcfg : cfg.Ok) (n : Nat) (σ : Asg) (hσ : σ.Respects) (x : Sym) (y z : Expr D)
    (v w dy dz : ℝ) (hy : den σ y = some v) (hz : den σ z = some w) (hDy : Derives σ x y dy) (hDz : Derives σ x z dz)
    (hw : w ≠ 0) (hcut : 0 < w ∨ v ≠ 0) (r : Expr D) (cs : List (Cond D))
    (hr : Api.diff (eng cfg (n + 1)) (.atan2 y z) (.sym x) = .ok (r, cs)) (hc : ∀ c ∈ cs, c.holds σ) (hd : r ≠ .undef)
    (q : Expr D) (cq : List (Cond D)) (hq : Api.div (eng cfg n) y z = .ok (q, cq)) (hs : Smooth σ x q)
    (hnear : ∀ᶠ t in 𝓝 (σ x), Asg.Respects (Function.update σ x t) ∧ ∀ c ∈ cq, c.holds (Function.update σ x t)) :
    ∃ d, den σ r = some d ∧ Derives σ x (.atan2 y z) d ∧ d = (dy * w - v * dz) / (v ^ 2 + w ^ 2) := by
  have hE := sound_eng hcfg n
  obtain ⟨fy, hfy, hfy'⟩ := hDy
  obtain ⟨fz, hfz, hfz'⟩ := hDz
  have ey := Derives.value (d := dy) hfy hy
  have ez := Derives.value (d := dz) hfz hz
  have hne : ∀ᶠ t in 𝓝 (σ x), fz t ≠ 0 := hfz'.continuousAt.eventually_ne (ez.symm ▸ hw)
  -- the quotient near the point
  have hqv : ∀ᶠ t in 𝓝 (σ x), den (Function.update σ x t) q = some (fy t / fz t) := by
    filter_upwards [hfy, hfz, hne, hnear] with t h1 h2 h3 h4
    exact atan2ArgEval_vl hE h4.1 h1 h2 h3 q cq hq h4.2
  have hqd : HasDerivAt (fun t => fy t / fz t) ((dy * w - v * dz) / w ^ 2) (σ x) := by
    have := hfy'.div hfz' (ez.symm ▸ hw)
    rwa [ey, ez] at this
  have hq0 : den σ q = some (v / w) := by
    have := hqv.self_of_nhds
    rwa [Function.update_eq_self, ey, ez] at this
  have hqD : ∀ d, Derives σ x q d → d = (dy * w - v * dz) / w ^ 2 := by
    rintro d ⟨f, hf, hf'⟩
    refine HasDerivAt.unique ?_ hqd
    refine hf'.congr_of_eventuallyEq ?_
    filter_upwards [hf, hqv] with t h1 h2
    rw [h1] at h2; exact (Option.some.inj h2).symm
  -- the angle
  have hang : Derives σ x (.atan2 y z) ((1 + (v / w) ^ 2)⁻¹ * ((dy * w - v * dz) / w ^ 2)) := by
    obtain ⟨c, hc'⟩ := angle_near hw hcut
    refine ⟨fun t => Real.arctan (fy t / fz t) + c, ?_, ?_⟩
    · have ht : Tendsto (fun t => (fy t, fz t)) (𝓝 (σ x)) (𝓝 (v, w)) := by
        rw [← ey, ← ez]; exact hfy'.continuousAt.prodMk hfz'.continuousAt
      filter_upwards [hfy, hfz, ht.eventually hc'] with t h1 h2 h3
      simp only [den, h1, h2, Option.bind_some]; exact h3
    · have := hqd.arctan.add_const c
      rwa [ey, ez, one_div] at this
  have hval : (1 + (v / w) ^ 2)⁻¹ * ((dy * w - v * dz) / w ^ 2) = (dy * w - v * dz) / (v ^ 2 + w ^ 2) := by
    have : v ^ 2 + w ^ 2 ≠ 0 := by positivity
    have : 1 + (v / w) ^ 2 ≠ 0 := by positivity
    field_simp
    ring
  have key : wp (Cond.holds σ) ((eng cfg (n + 1)).diff (.sym x) (.atan2 y z)) fun r => r = .undef ∨
      den σ r = some ((1 + (v / w) ^ 2)⁻¹ * ((dy * w - v * dz) / w ^ 2)) := by
    have hrun : wp (Cond.holds σ) (atan2ArgEval (eng cfg n) y z) fun q' => q' = q := by
      intro q' cs' h _
      have h' : atan2ArgEval (eng cfg n) y z = .ok (q, cq) := hq
      rw [h'] at h
      cases h; rfl
    refine wp_bind hrun fun q' hq' => ?_
    subst hq'
    refine wp_bind (diff_ok hcfg n hσ hs) fun d hd => ?_
    have hi : Vl σ (do
        let q ← atan2ArgEval (eng cfg n) y z
        let s ← square (eng cfg n) q
        let t ← (eng cfg n).sumCreate [one, s]
        (eng cfg n).oneOver t) (1 + (v / w) ^ 2)⁻¹ := by
      refine wp_bind hrun fun q'' hq'' => ?_
      subst hq''
      refine wp_bind (hE.pow hσ hq0 den_two (Spec.pow_two' _)) fun t ht => ?_
      refine wp_bind (hE.sum hσ (denSum_two den_one ht)) fun s hs => ?_
      exact oneOver_vl hE hσ hs (by positivity)
    refine wp_bind hi fun i hi => ?_
    rcases hd with rfl | ⟨d', hd', hD⟩
    · refine wp_bind (prodCreate_undef cfg n (by simp)) ?_
      rintro _ rfl
      exact wp_mono (normal_zu hcfg n (.inr rfl)) fun _ h => .inl (h.2 rfl)
    · rw [hqD d' hD] at hd'
      refine wp_bind (hE.prod hσ (denProd_two hi hd')) fun p hp => ?_
      exact wp_mono (hE.normal hσ hp) fun r hr => .inr hr
  have hr' : (eng cfg (n + 1)).diff (.sym x) (.atan2 y z) = .ok (r, cs) := by
    simpa only [Api.diff, show Expr.isSymbol (.sym x : Expr D) = true from rfl, if_true] using hr
  exact ⟨_, (key r cs hr' hc).resolve_left hd, hang, hval⟩

namespace DiffEx

open ExprEx SymEx ValueEx

/-- The derivative of atan2(a, b) by a. -/
theorem diff_angle : Api.diff lib (.atan2 a b) a = .ok (prod [b, pow (sum [pow a (int 2), pow b (int 2)]) (int (-1))],
    List.replicate 9 (.within [] (.nz (int 1))) ++ [.within [] (.nz b)]) := by krfl

/-- The quotient. -/
theorem quot_ab : Api.div (eng (Cfg.std 1000) 29) a b = .ok (prod [a, pow b (int (-1))], ([] : List (Cond Hyb))) := by krfl

/-- The symbol b. -/
def symB : Sym := ⟨.named ⟨['b'], [], []⟩, false⟩

/-- An assignment for a and b. -/
def point (v w : ℝ) : Asg := fun s => if s = sa then v else if s = symB then w else 0

theorem point_respects (v w : ℝ) : (point v w).Respects := by
  intro s hs
  have h1 : s ≠ sa := by rintro rfl; cases hs
  have h2 : s ≠ symB := by rintro rfl; cases hs
  simp [point, h1, h2]

theorem den_a (v w : ℝ) : den (point v w) (a : Expr Hyb) = some v := rfl

theorem den_b (v w : ℝ) : den (point v w) (b : Expr Hyb) = some w := by
  show some (point v w symB) = _
  simp [point, show symB ≠ sa by decide]

theorem point_update (v w t : ℝ) : Function.update (point v w) sa t = point t w := by
  funext s
  by_cases h : s = sa
  · subst h; simp [point]
  · rw [Function.update_of_ne h]; simp [point, h]

theorem b_const : ¬ Occurs (.sym sa) (b : Expr Hyb) := by rw [← has_sym_iff]; decide

theorem den_rate (v w : ℝ) (h : w ≠ 0) :
    den (point v w) (prod [b, pow (sum [pow a (int 2), pow b (int 2)]) (int (-1))] : Expr Hyb) = some (w * (v ^ 2 + w ^ 2)⁻¹) := by
  have hp : ∀ x : ℝ, Spec.pow x 2 = some (x ^ 2) := fun x => Spec.pow_nat (n := 2) (by decide)
  have h2 : den (point v w) (int 2 : Expr Hyb) = some 2 := by simp
  refine denProd_two (den_b v w) (den_pow.2 ⟨_, ((-1 : ℤ) : ℝ), denSum_two (den_pow.2 ⟨_, _, den_a v w, h2, hp v⟩) (den_pow.2 ⟨_, _, den_b v w, h2, hp w⟩), by simp, ?_⟩)
  rw [Spec.pow_int _ (by positivity), zpow_neg_one]

/-- C12 on an example: the derivative of atan2(a, b) by a at a = 1, b = -2 is -2/5. -/
example : den (point 1 (-2)) (prod [b, pow (sum [pow a (int 2), pow b (int 2)]) (int (-1))] : Expr Hyb) = some (-2 / 5) ∧
    Derives (point 1 (-2)) sa (.atan2 a b : Expr Hyb) (-2 / 5) := by
  have hb1 : Derives (point 1 (-2)) sa (a : Expr Hyb) 1 := by
    refine ⟨id, Eventually.of_forall fun t => ?_, hasDerivAt_id _⟩
    rw [point_update]; rfl
  have hb2 : Derives (point 1 (-2)) sa (b : Expr Hyb) 0 := .const b_const (den_b 1 (-2))
  have key := C12_atan2 (Cfg.std 1000) (Cfg.std_ok 1000) 29 (point 1 (-2)) (point_respects _ _) sa a b 1 (-2) 1 0
    (den_a _ _) (den_b _ _) hb1 hb2 (by norm_num) (.inr (by norm_num)) _ _ diff_angle ?_ (by simp) _ _ quot_ab ?_ ?_
  · obtain ⟨d, h1, h2, rfl⟩ := key
    rw [show ((1 : ℝ) * -2 - 1 * 0) / (1 ^ 2 + (-2) ^ 2) = -2 / 5 by norm_num] at h1 h2
    exact ⟨h1, h2⟩
  · intro c hc
    simp only [List.mem_append, List.mem_replicate, List.mem_singleton] at hc
    rcases hc with ⟨-, rfl⟩ | rfl
    · exact ⟨1, by simp [extend], by norm_num⟩
    · exact ⟨-2, den_b _ _, by norm_num⟩
  · refine .prod fun y hy => ?_
    simp only [List.mem_cons, List.not_mem_nil, or_false] at hy
    rcases hy with rfl | rfl
    · exact .sym
    · exact .const (v := (-2)⁻¹) (by rw [← has_sym_iff]; decide)
        (den_pow.2 ⟨_, ((-1 : ℤ) : ℝ), den_b _ _, by simp, by rw [Spec.pow_int _ (by norm_num), zpow_neg_one]⟩)
  · refine Eventually.of_forall fun t => ⟨?_, by simp⟩
    rw [point_update]; exact point_respects _ _

/-- C12 is false on the cut: at a = 0, b = -1 the derivative of atan2(a, b) by a has the value -1, but the angle jumps. -/
theorem C12_false_cut :
    (∃ cs, Api.diff lib (.atan2 a b) a = .ok (prod [b, pow (sum [pow a (int 2), pow b (int 2)]) (int (-1))], cs)) ∧
    den (point 0 (-1)) (prod [b, pow (sum [pow a (int 2), pow b (int 2)]) (int (-1))] : Expr Hyb) = some (-1) ∧
    (∀ t, ∃ v, den (point t (-1)) (.atan2 a b : Expr Hyb) = some v) ∧
    ∀ d, ¬ Derives (point 0 (-1)) sa (.atan2 a b : Expr Hyb) d := by
  have hden : ∀ t : ℝ, den (point t (-1)) (.atan2 a b : Expr Hyb) = some (Complex.arg ⟨-1, t⟩) := by
    intro t
    rw [den, den_a, den_b]
    simp [Spec.atan2]
  refine ⟨⟨_, diff_angle⟩, ?_, fun t => ⟨_, hden t⟩, ?_⟩
  · rw [den_rate _ _ (by norm_num)]; norm_num
  · rintro d ⟨f, hf, hf'⟩
    have h0 : f 0 = Real.pi := by
      have := Derives.value (d := d) hf (hden 0)
      have e : point 0 (-1) sa = 0 := rfl
      rw [e] at this
      rw [this, Complex.arg_eq_pi_iff]; norm_num
    have hpos : ∀ᶠ t in 𝓝 (0 : ℝ), 0 < f t :=
      hf'.continuousAt.eventually (lt_mem_nhds (show 0 < f (point 0 (-1) sa) by rw [show point 0 (-1) sa = 0 from rfl, h0]; exact Real.pi_pos))
    have hf0 : ∀ᶠ t in 𝓝 (0 : ℝ), den (Function.update (point 0 (-1)) sa t) (.atan2 a b : Expr Hyb) = some (f t) := hf
    obtain ⟨ε, hε, h⟩ := Metric.eventually_nhds_iff.1 (hpos.and hf0)
    obtain ⟨h1, h2⟩ := h (y := -(ε / 2)) (by rw [Real.dist_eq, sub_zero, abs_neg, abs_of_pos (by linarith)]; linarith)
    rw [point_update, hden] at h2
    have h3 : Complex.arg ⟨-1, -(ε / 2)⟩ < 0 := Complex.arg_neg_iff.2 (by simpa using hε)
    rw [Option.some.inj h2] at h3
    linarith

end DiffEx

end Tsym
