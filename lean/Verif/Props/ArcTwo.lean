import Verif.ArcTwo
import Verif.Props.ArcComp
import Verif.Props.AtanTwo

/-!
# C79: a trigonometric function of the angle of a point with two symbols
-/

set_option autoImplicit false
set_option linter.unusedSectionVars false

namespace Tsym

open Expr

/-! ## Specification -/

namespace ArcSpec

variable {D : Type} [Flt D]

/-- The sum of the squares of two symbols, the first one first. -/
def squares (a b : Sym) : Expr D := .sum [.pow (.sym a) (q 2), .pow (.sym b) (q 2)]

/-- The function of the angle of the point `(x, y)`, where `w` is the sum of the squares and `t` the quotient `y/x`. -/
def ofAngle (y x : Sym) (w t : Expr D) : Fn → Expr D
  | .sin => .prod [.sym y, .pow w (q (-1 / 2))]
  | .cos => .prod [.sym x, .pow w (q (-1 / 2))]
  | .tan => t
  | f => .fn f (.atan2 (.sym y) (.sym x))

/-- The function of the angle of the point `(b, a)`, where the name of `a` comes first. -/
def angleFirst (a b : Sym) : Fn → Expr D := ofAngle a b (squares a b) (.prod [.sym a, .pow (.sym b) (q (-1))])

/-- The function of the angle of the point `(a, b)`, where the name of `a` comes first. -/
def angleSecond (a b : Sym) : Fn → Expr D := ofAngle b a (squares a b) (.prod [.pow (.sym a) (q (-1)), .sym b])

end ArcSpec

/-- The function `f` of the angle of the point `(x, y)`, with the functions of the interface. -/
def trigOfAngle {D : Type} [Flt D] (E : Eng D) (f : Fn) (y x : Sym) : M D (Expr D) := do
  let a ← Api.atan2 E (.sym y) (.sym x)
  Api.trig E f a

/-! ## Proofs -/

section

variable {D : Type} [Flt D] [LawfulFlt D] {cfg : Cfg D}

theorem trigOfAngle_mono (f : Fn) (y x : Sym) : Lean.Order.monotone fun E : Eng D => trigOfAngle E f y x := by
  unfold trigOfAngle Api.trig Api.atan2; repeat' mono_step

theorem Arc.rs_trigOfAngle (hc : cfg.Ok) {a b y x : Sym} (ha : a.id.Ok) (hb : b.id.Ok) (h : symLt a b = true)
    (hyx : y = a ∧ x = b ∨ y = b ∧ x = a) {t : Expr D} (ht : .prod (ordered (.sym y) (.pow (.sym x) (.num (.rat (-1))))) = t) (f : Fn) :
    Rs cfg Tt (fun E => trigOfAngle E f y x) (ArcSpec.ofAngle y x (ArcSpec.squares a b) t f) := by
  have hne : y ≠ x := by
    rintro rfl
    have : a = b := by rcases hyx with ⟨rfl, rfl⟩ | ⟨rfl, rfl⟩ <;> rfl
    subst this
    rw [symLt_irrefl] at h; cases h
  unfold trigOfAngle Api.atan2 Api.trig
  refine rs_bind (tot_atan2 (tot_angle y x)).rs (rs_succ (f := fun E => trigCreate E f (.atan2 (.sym y) (.sym x))) (fun _ => rfl) ?_)
  by_cases hf : f = .tan
  · subst hf ht; exact (tot_tan_angle hne).rs
  · by_cases h1 : f = .sin
    · subst h1; exact rs_angle hc ha hb h hyx (.inl ⟨rfl, rfl⟩)
    · by_cases h2 : f = .cos
      · subst h2; exact rs_angle hc ha hb h hyx (.inr (.inl ⟨rfl, rfl⟩))
      · refine rs_angle hc ha hb h hyx (.inr (.inr ⟨h1, h2, hf, ?_⟩))
        cases f <;> first | rfl | exact absurd rfl h1 | exact absurd rfl h2 | exact absurd rfl hf

/-! ## C79 -/

/-- C79: sine, cosine and tangent of the angle atan2(y, x) of two different symbols are y and x over the root of the sum of their
squares, and y/x; the arc functions of the angle remain. The order of the operands is that of the symbols: `a` comes before `b`. -/
theorem C79_trig_of_angle (hc : cfg.Ok) {a b : Sym} (ha : a.id.Ok) (hb : b.id.Ok) (h : symLt a b = true) {f : Fn} (_hf : f ≠ .log) :
    ReturnsWhere cfg (fun _ => True) (fun E => trigOfAngle E f a b) (ArcSpec.angleFirst a b f) ∧
    ReturnsWhere cfg (fun _ => True) (fun E => trigOfAngle E f b a) (ArcSpec.angleSecond a b f) :=
  ⟨(Arc.rs_trigOfAngle hc ha hb h (.inl ⟨rfl, rfl⟩) (by rw [(Arc.perm_inv h).1]; rfl) f).returnsWhere (trigOfAngle_mono f a b),
    (Arc.rs_trigOfAngle hc ha hb h (.inr ⟨rfl, rfl⟩) (by rw [(Arc.perm_inv h).2]; rfl) f).returnsWhere (trigOfAngle_mono f b a)⟩

/-- C79: for two different symbols one comes before the other. -/
theorem C79_order {a b : Sym} (ha : a.id.Ok) (hb : b.id.Ok) (h : a ≠ b) : symLt a b = true ∨ symLt b a = true := by
  cases h1 : symLt a b
  · cases h2 : symLt b a
    · exact absurd (symLt_total ha hb h1 h2) h
    · exact .inr rfl
  · exact .inl rfl

namespace ArcSpec

variable (σ : Asg)

theorem den_squares (a b : Sym) : den σ (squares a b : Expr D) = some (σ a ^ 2 + σ b ^ 2) := by
  have h : ∀ s, Spec.pow (σ s) 2 = some (σ s ^ 2) := fun s => Spec.pow_nat (n := 2) (by decide)
  simp [squares, q, den, denSum, Number.val, h]

theorem den_over {W : Expr D} {w : ℝ} (h : den σ W = some w) (hw : 0 < w) (s : Sym) : den σ (.prod [.sym s, .pow W (q (-1 / 2))]) = some (σ s / √w) := by
  rw [den, denProd, denProd, denProd, den_recRoot σ h hw]
  simp [den, div_eq_mul_inv]

theorem den_ofAngle {y x : Sym} {w t : Expr D} (hw : den σ w = some (σ x ^ 2 + σ y ^ 2)) (ht : σ x ≠ 0 → den σ t = some (σ y / σ x)) {f : Fn} {u v : ℝ}
    (hu : Spec.atan2 (σ y) (σ x) = some u) (hv : Spec.fn f u = some v) : den σ (ofAngle y x w t f) = some v := by
  have hu' := hu
  simp only [Spec.atan2, Option.ite_none_left_eq_some, Option.some.injEq] at hu'
  obtain ⟨h0, h1⟩ := hu'
  have hz : (⟨σ x, σ y⟩ : ℂ) ≠ 0 := by
    intro h; rw [Complex.ext_iff] at h; exact h0 h
  have hw0 : 0 < σ x ^ 2 + σ y ^ 2 := by
    by_contra hn
    exact h0 ⟨by nlinarith [sq_nonneg (σ x), sq_nonneg (σ y)], by nlinarith [sq_nonneg (σ x), sq_nonneg (σ y)]⟩
  have hn : ‖(⟨σ x, σ y⟩ : ℂ)‖ = √(σ x ^ 2 + σ y ^ 2) := by rw [Complex.norm_eq_sqrt_sq_add_sq]
  have hs : Real.sin u = σ y / √(σ x ^ 2 + σ y ^ 2) := by rw [← h1, Complex.sin_arg, hn]
  have hc : Real.cos u = σ x / √(σ x ^ 2 + σ y ^ 2) := by rw [← h1, Complex.cos_arg hz, hn]
  have keep : den σ (.fn f (.atan2 (.sym y) (.sym x)) : Expr D) = some v := by simp only [den, Option.bind_some, hu, hv]
  cases f <;> first | exact keep | skip
  · rw [ofAngle, den_over σ hw hw0, ← hs]; exact hv
  · rw [ofAngle, den_over σ hw hw0, ← hc]; exact hv
  · simp only [Spec.fn, Spec.tan, Option.ite_none_right_eq_some, Option.some.injEq] at hv
    obtain ⟨h2, rfl⟩ := hv
    have hx : σ x ≠ 0 := by rintro h; rw [hc, h] at h2; simp at h2
    rw [ofAngle, ht hx, ← h1, Complex.tan_arg]

theorem den_inv {s : Sym} (h0 : σ s ≠ 0) : den σ (.pow (.sym s) (q (-1)) : Expr D) = some (σ s)⁻¹ := by
  have h1 : Spec.pow (σ s) ((-1 : ℚ) : ℝ) = some (σ s)⁻¹ := by
    have := Spec.pow_int (-1) h0
    rw [zpow_neg_one] at this; rw [← this]; norm_num
  simp only [den, q, Number.val, Option.bind_some, h1]

end ArcSpec

/-- C79: the results are right: where the angle and the function of it have a value, the results have the same value. -/
theorem C79_value (σ : Asg) (a b : Sym) {f : Fn} {u v : ℝ} (hv : Spec.fn f u = some v) :
    (Spec.atan2 (σ a) (σ b) = some u → den σ (ArcSpec.angleFirst a b f : Expr D) = some v) ∧
    (Spec.atan2 (σ b) (σ a) = some u → den σ (ArcSpec.angleSecond a b f : Expr D) = some v) := by
  refine ⟨fun hu => ?_, fun hu => ?_⟩
  · refine ArcSpec.den_ofAngle σ (by rw [ArcSpec.den_squares, add_comm]) (fun h => ?_) hu hv
    rw [den, denProd, denProd, denProd, ArcSpec.den_inv σ h]; simp [den, div_eq_mul_inv]
  · refine ArcSpec.den_ofAngle σ (ArcSpec.den_squares σ a b) (fun h => ?_) hu hv
    rw [den, denProd, denProd, denProd, ArcSpec.den_inv σ h]; simp [den, div_eq_mul_inv, mul_comm]

end

/-! ## The statements are about something -/

namespace ArcTwoEx

open TrigPowEx

/-- The symbol b. -/
def sb : Sym := ⟨.named ⟨['b'], [], []⟩, false⟩

theorem sb_ok : sb.id.Ok := by simp only [sb, SymId.Ok]; decide

/-- The sine of atan2(b, a) is b*(a^2 + b^2)^(-1/2). -/
example : ReturnsWhere (Cfg.std 323 : Cfg Hyb) (fun _ => True) (fun E => trigOfAngle E .sin sb sa)
    (.prod [.sym sb, .pow (.sum [.pow (.sym sa) (.num (.rat 2)), .pow (.sym sb) (.num (.rat 2))]) (.num (.rat (-1 / 2)))]) :=
  (C79_trig_of_angle (Cfg.std_ok 323) sa_ok sb_ok (by decide) (by decide)).2

/-- The angle of the point (0, 2) and its sine. -/
example : ∃ u v : ℝ, Spec.atan2 2 0 = some u ∧ Spec.fn .sin u = some v := ⟨_, _, if_neg (by norm_num), rfl⟩

end ArcTwoEx

end Tsym
