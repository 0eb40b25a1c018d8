import Verif.ArcThm
import Verif.TrigMul
import Verif.Props.QuotNormal
import Verif.Props.TrigInv
import Verif.Props.TrigPow

/-!
# C78: a trigonometric function of a trigonometric function of a symbol
-/

set_option autoImplicit false
set_option linter.unusedSectionVars false

namespace Tsym

open Expr

/-! ## Specification -/

namespace ArcSpec

variable {D : Type} [Flt D]

/-- The rational number `r`. -/
def q (r : ℚ) : Expr D := .num (.rat r)

/-- `1 - s²`. -/
def oneMinus (s : Sym) : Expr D := .sum [q 1, .prod [q (-1), .pow (.sym s) (q 2)]]

/-- `1 + s²`. -/
def onePlus (s : Sym) : Expr D := .sum [q 1, .pow (.sym s) (q 2)]

/-- The function `f` of the function `g` of the symbol `s`, as textbooks have it: a function of an arc function is algebraic, all
other compositions remain. -/
def composed (s : Sym) : Fn → Fn → Expr D
  | .sin, .asin => .sym s
  | .cos, .acos => .sym s
  | .tan, .atan => .sym s
  | .sin, .acos => .pow (oneMinus s) (q (1 / 2))
  | .cos, .asin => .pow (oneMinus s) (q (1 / 2))
  | .sin, .atan => .prod [.sym s, .pow (onePlus s) (q (-1 / 2))]
  | .cos, .atan => .pow (onePlus s) (q (-1 / 2))
  | .tan, .asin => .prod [.sym s, .pow (oneMinus s) (q (-1 / 2))]
  | .tan, .acos => .prod [.pow (.sym s) (q (-1)), .pow (oneMinus s) (q (1 / 2))]
  | f, g => .fn f (.fn g (.sym s))

end ArcSpec

/-- The function `f` of the function `g` of the symbol `s`, with the functions of the interface. -/
def trigCompose {D : Type} [Flt D] (E : Eng D) (f g : Fn) (s : Sym) : M D (Expr D) := do
  let a ← Api.trig E g (.sym s)
  Api.trig E f a

/-! ## Proofs -/

section

variable {D : Type} [Flt D] [LawfulFlt D] {cfg : Cfg D}

theorem trigCompose_mono (f g : Fn) (s : Sym) : Lean.Order.monotone fun E : Eng D => trigCompose E f g s := by
  unfold trigCompose Api.trig; repeat' mono_step

namespace Arc

theorem rs_noInverse_other (hc : cfg.Ok) {s : Sym} (hs : s.id.Ok) {f g : Fn} {other : Expr D}
    (h : ¬ (f = .sin ∧ (g = .acos ∨ g = .atan) ∨ f = .cos ∧ (g = .asin ∨ g = .atan) ∨ f = .tan ∧ (g = .asin ∨ g = .acos))) :
    Tot cfg (fun E => createFromTrigoNoInverse E f (some g) other (.sym s) (.sym s)) (.fn f other) := by
  obtain ⟨w, hw⟩ := tot_aux3 hc (cfg := cfg) (D := D) hs
  unfold createFromTrigoNoInverse
  refine tot_bind (tot_capture (tot_aux1 hc hs)) (tot_bind (tot_capture (tot_aux2 hc hs)) (tot_bind (tot_capture hw) ?_))
  cases f <;> cases g <;> first | exact tot_pure _ | (exfalso; revert h; decide)

theorem numEval_fn_sym (g : Fn) (s : Sym) : numEval (.fn g (.sym s) : Expr D) = .ok none := by
  simp [numEval, pure, Except.pure, bind, Except.bind]

theorem rs_composed (hc : cfg.Ok) {s : Sym} (hs : s.id.Ok) {f g : Fn} (hg : g ≠ .log) :
    Rs cfg Tt (fun E => trigCreate E f (.fn g (.sym s))) (ArcSpec.composed s f g) := by
  have e : ∀ E : Eng D, trigCreate E f (.fn g (.sym s)) = createFromTrigo E f g (.sym s) := by
    intro E; cases g <;> first | rfl | exact absurd rfl hg
  simp only [e, createFromTrigo]
  by_cases hi : isOtherTheInverse f g = true
  · simp only [hi, if_true]
    cases f <;> cases g <;> first | exact (tot_pure _).rs | cases hi
  · rw [Bool.not_eq_true] at hi
    simp only [hi, Bool.false_eq_true, if_false]
    refine rs_bind (a := none) (Tot.rs ?_) ?_
    · cases isOtherTheInverse g f
      · exact tot_pure _
      · exact tot_lift (numEval_fn_sym g s)
    · by_cases h : f = .sin ∧ (g = .acos ∨ g = .atan) ∨ f = .cos ∧ (g = .asin ∨ g = .atan) ∨ f = .tan ∧ (g = .asin ∨ g = .acos)
      · have o1 : ordered (.sym s) (rt (Wp s : Expr D) (-1 / 2)) = _ := ordered_over ⟨_, rfl⟩ (perm_Wp s) (-1 / 2)
        have o2 : ordered (.sym s) (rt (Wm s : Expr D) (-1 / 2)) = _ := ordered_over ⟨_, rfl⟩ (perm_Wm s) (-1 / 2)
        have o3 : ordered (rt (Wm s : Expr D) (1 / 2)) (.pow (.sym s) (.num (.rat (-1)))) = _ := ordered_under ⟨_, rfl⟩ (perm_Wm s) (1 / 2) (-1)
        rcases h with ⟨rfl, rfl | rfl⟩ | ⟨rfl, rfl | rfl⟩ | ⟨rfl, rfl | rfl⟩
        · exact rs_noInverse hc hs (.inl ⟨rfl, rfl, rfl⟩)
        · exact rs_noInverse hc hs (.inr (.inr (.inl ⟨rfl, rfl, by rw [o1]; rfl⟩)))
        · exact rs_noInverse hc hs (.inr (.inl ⟨rfl, rfl, rfl⟩))
        · exact rs_noInverse hc hs (.inr (.inr (.inr (.inl ⟨rfl, rfl, rfl⟩))))
        · exact rs_noInverse hc hs (.inr (.inr (.inr (.inr (.inl ⟨rfl, rfl, by rw [o2]; rfl⟩)))))
        · exact rs_noInverse hc hs (.inr (.inr (.inr (.inr (.inr ⟨rfl, rfl, by rw [o3]; rfl⟩)))))
      · have := (rs_noInverse_other (cfg := cfg) hc hs (other := .fn g (.sym s)) h).rs (S := Tt)
        have hr : (ArcSpec.composed s f g : Expr D) = .fn f (.fn g (.sym s)) := by
          cases f <;> cases g <;> first | rfl | (exfalso; revert h; decide) | (exfalso; revert hi; decide)
        rw [hr]; exact this

theorem rs_trigCompose (hc : cfg.Ok) {s : Sym} (hs : s.id.Ok) {f g : Fn} (hg : g ≠ .log) :
    Rs cfg Tt (fun E => trigCompose E f g s) (ArcSpec.composed s f g) := by
  unfold trigCompose Api.trig
  exact rs_bind (rs_succ (fun _ => rfl) (((TrigProd.TA.sym (cfg := cfg) hs).trig g).rs)) (rs_succ (fun _ => rfl) (rs_composed hc hs hg))

end Arc

/-! ## C78 -/

/-- C78: for all symbols and all two trigonometric functions (sin, cos, tan, asin, acos, atan) the function of the function of the
symbol is what the table says: a function of an arc function becomes the algebraic expression, all other compositions remain as
they are. No condition is recorded that is not always met. -/
theorem C78_trig_of_trig (hc : cfg.Ok) {s : Sym} (hs : s.id.Ok) {f g : Fn} (_hf : f ≠ .log) (hg : g ≠ .log) :
    ReturnsWhere cfg (fun _ => True) (fun E => trigCompose E f g s) (ArcSpec.composed s f g) :=
  (Arc.rs_trigCompose hc hs hg).returnsWhere (trigCompose_mono f g s)

namespace ArcSpec

variable (σ : Asg) (s : Sym)

theorem den_oneMinus : den σ (oneMinus s : Expr D) = some (1 - σ s ^ 2) := by
  have h : Spec.pow (σ s) 2 = some (σ s ^ 2) := Spec.pow_nat (n := 2) (by decide)
  simp [oneMinus, q, den, denSum, denProd, Number.val, h, sub_eq_add_neg]

theorem den_onePlus : den σ (onePlus s : Expr D) = some (1 + σ s ^ 2) := by
  have h : Spec.pow (σ s) 2 = some (σ s ^ 2) := Spec.pow_nat (n := 2) (by decide)
  simp [onePlus, q, den, denSum, Number.val, h]

theorem pow_half {x : ℝ} (hx : 0 ≤ x) : Spec.pow x ((1 / 2 : ℚ) : ℝ) = some (√x) := by
  have : 0 < x ∨ (x = 0 ∧ (0 : ℝ) < ((1 / 2 : ℚ) : ℝ)) ∨ (x < 0 ∧ ∃ n : ℤ, ((1 / 2 : ℚ) : ℝ) = n) := by
    rcases hx.lt_or_eq with h | h
    · exact .inl h
    · exact .inr (.inl ⟨h.symm, by norm_num⟩)
  rw [Spec.pow, if_pos this, Real.sqrt_eq_rpow]; norm_num

theorem pow_neg_half {x : ℝ} (hx : 0 < x) : Spec.pow x ((-1 / 2 : ℚ) : ℝ) = some (√x)⁻¹ := by
  rw [Spec.pow_pos' hx, Real.sqrt_eq_rpow, ← Real.rpow_neg hx.le]; norm_num

theorem den_root {W : Expr D} {x : ℝ} (h : den σ W = some x) (hx : 0 ≤ x) : den σ (.pow W (q (1 / 2))) = some (√x) := by
  simp only [den, h, q, Option.bind_some, Number.val, pow_half hx]

theorem den_recRoot {W : Expr D} {x : ℝ} (h : den σ W = some x) (hx : 0 < x) : den σ (.pow W (q (-1 / 2))) = some (√x)⁻¹ := by
  simp only [den, h, q, Option.bind_some, Number.val, pow_neg_half hx]

end ArcSpec

/-- C78: the table is right: at all points where the function of the function of the symbol has a value, the entry of the table
has the same value. -/
theorem C78_value (σ : Asg) (s : Sym) {f g : Fn} {x y : ℝ} (hx : Spec.fn g (σ s) = some x) (hy : Spec.fn f x = some y) :
    den σ (ArcSpec.composed s f g : Expr D) = some y := by
  have hp : 0 < 1 + σ s ^ 2 := by positivity
  have dm := ArcSpec.den_oneMinus (D := D) σ s
  have dp := ArcSpec.den_onePlus (D := D) σ s
  have hm : -1 ≤ σ s ∧ σ s ≤ 1 → 0 ≤ 1 - σ s ^ 2 := fun h => by nlinarith [h.1, h.2]
  have keep : den σ (.fn f (.fn g (.sym s)) : Expr D) = some y := by simp only [den, Option.bind_some, hx, hy]
  cases f <;> cases g <;> first | exact keep | skip
  all_goals simp only [Spec.fn, Spec.asin, Spec.acos, Option.some.injEq, Option.ite_none_right_eq_some, Spec.tan] at hx hy
  all_goals simp only [ArcSpec.composed]
  · obtain ⟨h, rfl⟩ := hx; subst hy; simp only [den, Real.sin_arcsin h.1 h.2]
  · obtain ⟨h, rfl⟩ := hx; subst hy; rw [ArcSpec.den_root σ dm (hm h), Real.sin_arccos]
  · subst hx; subst hy
    rw [den, denProd, denProd, denProd, ArcSpec.den_recRoot σ dp hp, Real.sin_arctan]
    simp [den, div_eq_mul_inv]
  · obtain ⟨h, rfl⟩ := hx; subst hy; rw [ArcSpec.den_root σ dm (hm h), Real.cos_arcsin]
  · obtain ⟨h, rfl⟩ := hx; subst hy; simp only [den, Real.cos_arccos h.1 h.2]
  · subst hx; subst hy; rw [ArcSpec.den_recRoot σ dp hp, Real.cos_arctan, one_div]
  · obtain ⟨h, rfl⟩ := hx; obtain ⟨h0, rfl⟩ := hy
    rw [Real.cos_arcsin] at h0
    rw [den, denProd, denProd, denProd, ArcSpec.den_recRoot σ dm (Real.sqrt_ne_zero'.1 h0), Real.tan_arcsin]
    simp [den, div_eq_mul_inv]
  · obtain ⟨h, rfl⟩ := hx; obtain ⟨h0, rfl⟩ := hy
    rw [Real.cos_arccos h.1 h.2] at h0
    have h1 : Spec.pow (σ s) ((-1 : ℚ) : ℝ) = some (σ s)⁻¹ := by
      have := Spec.pow_int (-1) h0
      rw [zpow_neg_one] at this; rw [← this]; norm_num
    rw [den, denProd, denProd, denProd, ArcSpec.den_root σ dm (hm h), Real.tan_arccos]
    simp only [den, ArcSpec.q, Number.val, Option.bind_some, h1, mul_one]
    rw [div_eq_mul_inv, mul_comm]
  · subst hx; obtain ⟨h0, rfl⟩ := hy; simp only [den, Real.tan_arctan]

end

/-! ## The statements are about something -/

namespace ArcCompEx

open TrigPowEx

/-- A symbol of the parser, a function of an arc function and one that remains. -/
example : ReturnsWhere (Cfg.std 323 : Cfg Hyb) (fun _ => True) (fun E => trigCompose E .tan .acos sa)
    (.prod [.pow (.sym sa) (.num (.rat (-1))), .pow (.sum [.num (.rat 1), .prod [.num (.rat (-1)), .pow (.sym sa) (.num (.rat 2))]]) (.num (.rat (1 / 2)))]) :=
  C78_trig_of_trig (Cfg.std_ok 323) sa_ok (by decide) (by decide)

example : ReturnsWhere (Cfg.std 323 : Cfg Hyb) (fun _ => True) (fun E => trigCompose E .asin .sin sa) (.fn .asin (.fn .sin (.sym sa))) :=
  C78_trig_of_trig (Cfg.std_ok 323) sa_ok (by decide) (by decide)

/-- The tangent of the arc sine of 3/5. -/
example : ∃ x y : ℝ, Spec.fn .asin (3 / 5) = some x ∧ Spec.fn .tan x = some y := by
  have h : (0 : ℝ) < 1 - (3 / 5) ^ 2 := by norm_num
  refine ⟨Real.arcsin (3 / 5), _, if_pos ⟨by norm_num, by norm_num⟩, if_pos ?_⟩
  rw [Real.cos_arcsin]; exact (Real.sqrt_pos.2 h).ne'

end ArcCompEx

end Tsym
