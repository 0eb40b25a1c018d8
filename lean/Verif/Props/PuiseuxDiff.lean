import Verif.QDiff
import Verif.Props.Puiseux
import Verif.Props.Diff

set_option autoImplicit false
set_option linter.unusedSectionVars false
set_option linter.unusedSimpArgs false
set_option linter.unusedVariables false

/-!
# C77: derivatives of Puiseux polynomials
-/

namespace Tsym

open Expr Filter Topology

section

open Qf

variable {D : Type} [Flt D] [LawfulFlt D] {cfg : Cfg D} {σ τ : Asg}

/-! ## Calls -/

/-- The derivative by one symbol and then by another. -/
def diffTwice {D : Type} [Flt D] (E : Eng D) (r : Expr D) (x y : Sym) : M D (Expr D) := do
  let d ← Api.diff E r (.sym x)
  Api.diff E d (.sym y)

/-- The derivative of the expanded product. -/
def diffOfProduct {D : Type} [Flt D] (E : Eng D) (r w : Expr D) (x : Sym) : M D (Expr D) := do
  let p ← Api.mul E r w
  let q ← Api.expand E p
  Api.diff E q (.sym x)

/-- The product rule. -/
def productRule {D : Type} [Flt D] (E : Eng D) (r w : Expr D) (x : Sym) : M D (Expr D) := do
  let dr ← Api.diff E r (.sym x)
  let dw ← Api.diff E w (.sym x)
  let a ← Api.mul E dr w
  let b ← Api.mul E r dw
  let s ← Api.add E a b
  Api.expand E s

theorem apiDiff_sym_mono (r : Expr D) (x : Sym) : Lean.Order.monotone fun E : Eng D => Api.diff E r (.sym x) := by
  unfold Api.diff; simp only [isSymbol, if_true]; repeat' mono_step
theorem diffTwice_mono (r : Expr D) (x y : Sym) : Lean.Order.monotone fun E : Eng D => diffTwice E r x y := by
  unfold diffTwice Api.diff; simp only [isSymbol, if_true]; repeat' mono_step
theorem diffOfProduct_mono (r w : Expr D) (x : Sym) : Lean.Order.monotone fun E : Eng D => diffOfProduct E r w x := by
  unfold diffOfProduct Api.diff Api.mul Api.expand; simp only [isSymbol, if_true]; repeat' mono_step
theorem productRule_mono (r w : Expr D) (x : Sym) : Lean.Order.monotone fun E : Eng D => productRule E r w x := by
  unfold productRule Api.diff Api.mul Api.expand Api.add; simp only [isSymbol, if_true]; repeat' mono_step

theorem tot_apiDiff {r d : Expr D} {x : Sym} (h : Tot cfg (fun E => diff E (.sym x) r) d) : Tot cfg (fun E => Api.diff E r (.sym x)) d := by
  unfold Api.diff; simp only [isSymbol, if_true]; exact tot_diff h

/-! ## C77 -/

/-- C77. The derivative of the expansion of a Puiseux polynomial that has a value somewhere is returned, without conditions. It is an
expanded Puiseux polynomial, and it is the derivative of the function the user has written at every point where this function is
defined nearby and the symbol is not zero. -/
theorem C77_diff (hc : cfg.Ok) (hp : cfg.maxPrime < 324) (hσ : σ.Respects) (t : RootTree) (ht : t.Puiseux) {x : ℝ}
    (hx : t.val σ = some x) (r : Expr D) (hr : Gives cfg (fun E => t.expanded E) r) (s : Sym) :
    ∃ d : Expr D, Gives cfg (fun E => Api.diff E r (.sym s)) d ∧ PuiseuxExpanded d ∧
      ∀ σ' : Asg, σ'.Respects → σ' s ≠ 0 → ∀ f : ℝ → ℝ, (∀ᶠ y in 𝓝 (σ' s), t.val (Function.update σ' s y) = some (f y)) →
        ∃ v, den σ' d = some v ∧ HasDerivAt f v (σ' s) := by
  obtain ⟨L, hL, hT, hv⟩ := ht.expanded (D := D) hc hp hσ hx
  have e1 : sumOf (L.map Qf.em) = r := hT.unique hr.1
  subst e1
  obtain ⟨M, hM, hd, -⟩ := tot_diff_el hc s hL
  refine ⟨_, (tot_apiDiff hd).gives (apiDiff_sym_mono _ _), puiseuxExpanded hM, fun σ' h' hs f hf => ?_⟩
  have h0 := hf.self_of_nhds
  rw [Function.update_eq_self] at h0
  have hr0 := hv σ' _ h' h0
  obtain ⟨N, hN⟩ := tot_apiDiff hd
  obtain ⟨v, h1, f', h2, h3⟩ := C12_diff_partial cfg hc N σ' h' (sumOf (L.map Qf.em)) s (smooth_el h' s hs hL hr0) _ [] (hN N le_rfl) (by simp) (by
    have := Qf.sumOf_isUndefined hM.sl
    intro h; rw [h] at this; simp [Expr.isUndefined] at this)
  refine ⟨v, h1, h3.congr_of_eventuallyEq ?_⟩
  have hne : ∀ᶠ y in 𝓝 (σ' s), Asg.Respects (Function.update σ' s y) := by
    by_cases hpos : s.positive = true
    · have : 0 < σ' s := lt_of_le_of_ne (h' s hpos) hs.symm
      filter_upwards [lt_mem_nhds this] with y hy u hu
      by_cases h : u = s
      · subst h; rw [Function.update_self]; exact hy.le
      · rw [Function.update_of_ne h]; exact h' u hu
    · refine Eventually.of_forall fun y u hu => ?_
      have h : u ≠ s := by rintro rfl; exact hpos hu
      rw [Function.update_of_ne h]; exact h' u hu
  filter_upwards [h2, hf, hne] with y hy1 hy2 hy3
  rw [hv _ _ hy3 hy2] at hy1
  exact Option.some.inj hy1

/-- C77. The derivative is zero if and only if the symbol does not occur in the expansion. -/
theorem C77_zero (hc : cfg.Ok) (hp : cfg.maxPrime < 324) (hσ : σ.Respects) (t : RootTree) (ht : t.Puiseux) {x : ℝ}
    (hx : t.val σ = some x) (r : Expr D) (hr : Gives cfg (fun E => t.expanded E) r) (s : Sym) :
    Gives cfg (fun E => Api.diff E r (.sym s)) (.num (.rat 0)) ↔ ¬ Occurs (.sym s) r := by
  obtain ⟨L, hL, hT, hv⟩ := ht.expanded (D := D) hc hp hσ hx
  have e1 : sumOf (L.map Qf.em) = r := hT.unique hr.1
  subst e1
  obtain ⟨d, h1, h2, h3⟩ := Qf.tot_diff_ep hc s (r := sumOf (L.map Qf.em)) ⟨L, hL, rfl⟩
  constructor
  · intro h
    have e : d = .num (.rat 0) := (tot_apiDiff h1).unique h.1
    rw [e, lv_num, AddMonoidAlgebra.single_zero, lv_sumOf hL.sl] at h3
    exact not_occurs s hL h3.symm
  · intro h
    obtain ⟨N, hN⟩ := tot_apiDiff h1
    have := C13_absent_symbol cfg hc N (sumOf (L.map Qf.em)) s (by rw [Bool.eq_false_iff, ne_eq, has_sym_iff]; exact h) d [] (hN N le_rfl) (by
      have := h2.isUndefined
      intro h; rw [h] at this; simp [Expr.isUndefined] at this)
    have e0 : (.num 0 : Expr D) = .num (.rat 0) := zero_eq
    rw [← e0, ← this]
    exact (tot_apiDiff h1).gives (apiDiff_sym_mono _ _)

/-- C77. The order of the derivatives by two symbols does not matter: the results are the same expression. -/
theorem C77_symmetric (hc : cfg.Ok) (hp : cfg.maxPrime < 324) (hσ : σ.Respects) (t : RootTree) (ht : t.Puiseux) {x : ℝ}
    (hx : t.val σ = some x) (r : Expr D) (hr : Gives cfg (fun E => t.expanded E) r) (s u : Sym) :
    ∃ d : Expr D, Gives cfg (fun E => diffTwice E r s u) d ∧ Gives cfg (fun E => diffTwice E r u s) d := by
  obtain ⟨L, hL, hT, hv⟩ := ht.expanded (D := D) hc hp hσ hx
  have e1 : sumOf (L.map Qf.em) = r := hT.unique hr.1
  subst e1
  obtain ⟨M, hM, h1, h2⟩ := tot_diff_el hc s hL
  obtain ⟨N, hN, h3, h4⟩ := tot_diff_el hc u hL
  obtain ⟨M', hM', h1', h2'⟩ := tot_diff_el hc u hM
  obtain ⟨N', hN', h3', h4'⟩ := tot_diff_el hc s hN
  have e : (sumOf (M'.map Qf.em) : Expr D) = sumOf (N'.map Qf.em) := hM'.qv_inj hN' (by rw [h2', h4', h2, h4, pd_comm])
  refine ⟨_, Tot.gives (tot_bind (tot_apiDiff h1) (tot_apiDiff h1')) (diffTwice_mono _ _ _), ?_⟩
  rw [e]
  exact Tot.gives (tot_bind (tot_apiDiff h3) (tot_apiDiff h3')) (diffTwice_mono _ _ _)

/-- C77. The product rule holds as an equation between expressions: the derivative of the expanded product is the expansion of
r'*w + r*w'. -/
theorem C77_product (hc : cfg.Ok) (hp : cfg.maxPrime < 324) (hσ : σ.Respects) (hτ : τ.Respects) (t u : RootTree) (ht : t.Puiseux)
    (hu : u.Puiseux) {x y : ℝ} (hx : t.val σ = some x) (hy : u.val τ = some y) (r w : Expr D)
    (hr : Gives cfg (fun E => t.expanded E) r) (hw : Gives cfg (fun E => u.expanded E) w) (s : Sym) :
    ∃ d : Expr D, Gives cfg (fun E => diffOfProduct E r w s) d ∧ Gives cfg (fun E => productRule E r w s) d := by
  obtain ⟨L, hL, hT, hv⟩ := ht.expanded (D := D) hc hp hσ hx
  obtain ⟨K, hK, hT', hv'⟩ := hu.expanded (D := D) hc hp hτ hy
  have e1 : sumOf (L.map Qf.em) = r := hT.unique hr.1
  have e2 : sumOf (K.map Qf.em) = w := hT'.unique hw.1
  subst e1 e2
  obtain ⟨L', hL', d1, q1⟩ := tot_diff_el hc s hL
  obtain ⟨K', hK', d2, q2⟩ := tot_diff_el hc s hK
  obtain ⟨p, P, p1, -, -, hP, p2, p3⟩ := tot_mul_el hc hL hK
  obtain ⟨P', hP', d3, q3⟩ := tot_diff_el hc s hP
  obtain ⟨a, A, a1, a2, a3, -⟩ := tot_mul_el hc hL' hK
  obtain ⟨b, B, b1, b2, b3, -⟩ := tot_mul_el hc hL hK'
  obtain ⟨c, c1, c2⟩ := tot_sum_lf hc (es := [a, b]) (by simp) (by
    intro x hx
    simp only [List.mem_cons, List.not_mem_nil, or_false] at hx
    rcases hx with rfl | rfl
    exacts [a2, b2])
  obtain ⟨e, e1, R, hR, rfl⟩ := c2.xe hc
  have hq : qv R = qv P' := by
    rw [q3, p3, pd_mul, ← q1, ← q2]
    refine ev_inj fun g => ?_
    have hcv : den g.asg c = some (ev g (qv L' * qv K + qv L * qv K')) := by
      rw [map_add]
      exact Zf.tv (tot_sum c1) fun n => (sound_eng hc n).sum g.respects (denSum_two (a3 g) (b3 g))
    have := Zf.tv_expand hc g.respects e1 hcv
    rw [den_qv g hR.sb] at this
    exact Option.some.inj this
  refine ⟨_, Tot.gives (tot_bind (tot_prod p1) (tot_bind (tot_expand p2) (tot_apiDiff d3))) (diffOfProduct_mono _ _ _), ?_⟩
  rw [← hR.qv_inj hP' hq]
  exact Tot.gives (tot_bind (tot_apiDiff d1) (tot_bind (tot_apiDiff d2) (tot_bind (tot_prod a1) (tot_bind (tot_prod b1)
    (tot_bind (tot_sum c1) (tot_expand e1)))))) (productRule_mono _ _ _)

end

/-! ## Examples -/

namespace PuiseuxDiffEx

open ExprEx SymEx ValueEx RootTree RationalEx PuiseuxEx

/-- The hypotheses are met by (sqrt(x) + 1/a)*(sqrt(x) - 1/a), and so there are all these results. -/
example : ∃ r : Expr Hyb, Gives (Cfg.std 323) (fun E => p1.expanded E) r ∧
    (∃ d, Gives (Cfg.std 323) (fun E => Api.diff E r (.sym sx)) d ∧ PuiseuxExpanded d) ∧
    (∃ d, Gives (Cfg.std 323) (fun E => diffTwice E r sx sa) d ∧ Gives (Cfg.std 323) (fun E => diffTwice E r sa sx) d) ∧
    (∃ d, Gives (Cfg.std 323) (fun E => diffOfProduct E r r sa) d ∧ Gives (Cfg.std 323) (fun E => productRule E r r sa) d) := by
  have h1 : (all 1).Respects := fun s _ => by simp [all]
  have hv : p1.val (all 1) = some 0 := by simp [p1, RootTree.val, all, Spec.pow_pos' (one_pos : (0 : ℝ) < 1)]
  have hp : (Cfg.std 323 : Cfg Hyb).maxPrime < 324 := by simp [Cfg.std]
  obtain ⟨r, hr, -, -⟩ := C74_expanded (D := Hyb) (Cfg.std_ok 323) hp h1 p1 p1_pui hv
  obtain ⟨d, h2, h3, -⟩ := C77_diff (Cfg.std_ok 323) hp h1 p1 p1_pui hv r hr sx
  exact ⟨r, hr, ⟨d, h2, h3⟩, C77_symmetric (Cfg.std_ok 323) hp h1 p1 p1_pui hv r hr sx sa,
    C77_product (Cfg.std_ok 323) hp h1 h1 p1 p1 p1_pui p1_pui hv hv r r hr hr sa⟩

/-- The derivative of x - a^(-2) by a is not zero; that by another symbol is. -/
example : Api.diff lib60 (sum [prod [int (-1), pow a (int (-2))], x]) a = .ok (prod [int 2, pow a (int (-3))], []) ∧
    Api.diff lib60 (sum [prod [int (-1), pow a (int (-2))], x]) y = .ok (int 0, []) := ⟨by krfl, by krfl⟩

/-- The derivatives of sqrt(x)*y^(2/3) by x and y, in both orders. -/
example : diffTwice lib60 (prod [pow x (num (.rat (1 / 2))), pow y (num (.rat (2 / 3)))]) sx sy =
      .ok (prod [num (.rat (1 / 3)), pow x (num (.rat (-1 / 2))), pow y (num (.rat (-1 / 3)))], []) ∧
    diffTwice lib60 (prod [pow x (num (.rat (1 / 2))), pow y (num (.rat (2 / 3)))]) sy sx =
      .ok (prod [num (.rat (1 / 3)), pow x (num (.rat (-1 / 2))), pow y (num (.rat (-1 / 3)))], []) := ⟨by krfl, by krfl⟩

end PuiseuxDiffEx

end Tsym
