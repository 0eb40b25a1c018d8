import Verif.DiffFn
import Verif.Props.ArcTwo
import Verif.Props.PuiseuxDiff
import Mathlib.Analysis.SpecialFunctions.Trigonometric.ArctanDeriv
import Mathlib.Analysis.SpecialFunctions.Trigonometric.InverseDeriv

set_option autoImplicit false
set_option linter.unusedSectionVars false
set_option linter.unusedSimpArgs false
set_option linter.unusedVariables false

/-!
# C82: derivatives of functions of a symbol
-/

namespace Tsym

open Expr Filter Topology

/-! ## Specification -/

namespace FnDiffSpec

/-- A rational number. -/
def q {D : Type} (x : ℚ) : Expr D := .num (.rat x)

/-- The derivatives of the functions as expressions. -/
def derivative {D : Type} (s : Sym) : Fn → Expr D
  | .log => .pow (.sym s) (q (-1))
  | .sin => .fn .cos (.sym s)
  | .cos => .prod [q (-1), .fn .sin (.sym s)]
  | .tan => .sum [q 1, .pow (.fn .tan (.sym s)) (q 2)]
  | .asin => .pow (.sum [q 1, .prod [q (-1), .pow (.sym s) (q 2)]]) (q (-1 / 2))
  | .acos => .prod [q (-1), .pow (.sum [q 1, .prod [q (-1), .pow (.sym s) (q 2)]]) (q (-1 / 2))]
  | .atan => .pow (.sum [q 1, .pow (.sym s) (q 2)]) (q (-1))

/-- The points where the function has a derivative. -/
def Inside : Fn → ℝ → Prop
  | .log, y => 0 < y
  | .tan, y => Real.cos y ≠ 0
  | .asin, y => -1 < y ∧ y < 1
  | .acos, y => -1 < y ∧ y < 1
  | _, _ => True

/-- The derivatives of the real functions. -/
noncomputable def rate : Fn → ℝ → ℝ
  | .log, y => 1 / y
  | .sin, y => Real.cos y
  | .cos, y => - Real.sin y
  | .tan, y => 1 / Real.cos y ^ 2
  | .asin, y => 1 / √(1 - y ^ 2)
  | .acos, y => - (1 / √(1 - y ^ 2))
  | .atan, y => 1 / (1 + y ^ 2)

end FnDiffSpec

open FnDiffSpec

/-! ## Calls -/

/-- The function of the symbol. -/
def fnOfSym {D : Type} [Flt D] (E : Eng D) (f : Fn) (s : Sym) : M D (Expr D) :=
  match f with
  | .log => Api.log E (.sym s)
  | f => Api.trig E f (.sym s)

/-- The derivative of the function of the symbol. -/
def diffOfFn {D : Type} [Flt D] (E : Eng D) (f : Fn) (s x : Sym) : M D (Expr D) := do
  let e ← fnOfSym E f s
  Api.diff E e (.sym x)

/-- The derivative of the exponential function of the symbol. -/
def diffOfExp {D : Type} [Flt D] (E : Eng D) (s x : Sym) : M D (Expr D) := do
  let e ← Api.pow E (.cst .e) (.sym s)
  Api.diff E e (.sym x)

section

variable {D : Type} [Flt D] [LawfulFlt D] {cfg : Cfg D}

/-! ## Proofs -/

theorem diffOfFn_mono (f : Fn) (s x : Sym) : Lean.Order.monotone fun E : Eng D => diffOfFn E f s x := by
  unfold diffOfFn fnOfSym Api.diff Api.trig Api.log
  cases f <;> (repeat' mono_step)

theorem diffOfExp_mono (s x : Sym) : Lean.Order.monotone fun E : Eng D => diffOfExp E s x := by
  unfold diffOfExp Api.diff Api.pow; repeat' mono_step

namespace Dfn

theorem tab_eq (s : Sym) (f : Fn) : (derivative s f : Expr D) = tab s f := by
  cases f <;> simp [derivative, tab, q, Arc.Wm, Arc.Wp, one_eq, mOne_rat, Arc.rt]

theorem tot_fnOf {s : Sym} (hs : s.id.Ok) (f : Fn) : Tot cfg (fun E => fnOfSym E f s) (.fn f (.sym s) : Expr D) := by
  unfold fnOfSym Api.trig Api.log
  cases f <;> first | exact tot_log_sym s | exact tot_trig_s hs _

theorem tot_ex (s : Sym) : Tot cfg (fun E => Api.pow E (.cst .e) (.sym s)) (ex s : Expr D) := by
  unfold Api.pow
  refine tot_pow ?_
  simp only [powCreate, show (sym s : Expr D).isUndefined = false from rfl, show (cst .e : Expr D).isUndefined = false from rfl, Bool.or_self, Bool.false_eq_true, if_false,
    show (cst .e : Expr D).isOne = false from rfl, show (cst .e : Expr D).isZero = false from rfl, show (sym s : Expr D).isOne = false from rfl,
    show (sym s : Expr D).isZero = false from rfl, powCreateNonTrivial]
  refine tot_bind (a := (.cst .e, .sym s)) (tot_simplPow ?_) ?_
  · unfold Tsym.simplPow
    refine tot_bind (a := false) ?_ ?_
    · unfold doesInvolveComplexNumbers
      refine tot_whenTrue (tot_bind (tot_lift (a := none) (by simp [numEval, pure, Except.pure])) ?_)
      exact tot_bind (a := false) (tot_isNeg (tot_pure _)) (tot_pure _)
    · simp only [Bool.false_eq_true, if_false, simplifyConstantBase, show (sym s : Expr D).isFunction = false from rfl, Bool.and_false]; exact tot_pure _
  simp only [show (sym s : Expr D).isOne = false from rfl, show (cst .e : Expr D).isOne = false from rfl, Bool.false_eq_true, if_false]
  exact tot_pure _

end Dfn

/-! ## C82 -/

/-- C82: for all symbols and all functions of one argument the derivative of the function of the symbol with respect to this
symbol is the expression of the table. No condition is recorded that is not always met. -/
theorem C82_diff (hc : cfg.Ok) (s : Sym) (hs : s.id.Ok) (f : Fn) :
    ReturnsWhere cfg (fun _ => True) (fun E => diffOfFn E f s s) (derivative s f) := by
  refine Rs.returnsWhere (diffOfFn_mono f s s) ?_
  rw [Dfn.tab_eq]
  unfold diffOfFn
  refine rs_bind (Dfn.tot_fnOf hs f).rs ?_
  simp only [Api.diff, show Expr.isSymbol (.sym s : Expr D) = true from rfl, if_true]
  exact Dfn.rs_diff hc hs f

/-- C82: but for the arc cosine no condition is recorded at all. -/
theorem C82_unconditional (hc : cfg.Ok) (s : Sym) (hs : s.id.Ok) (f : Fn) (hf : f ≠ .acos) :
    Gives cfg (fun E => diffOfFn E f s s) (derivative s f) := by
  refine Tot.gives ?_ (diffOfFn_mono f s s)
  rw [Dfn.tab_eq]
  unfold diffOfFn
  refine tot_bind (Dfn.tot_fnOf hs f) ?_
  simp only [Api.diff, show Expr.isSymbol (.sym s : Expr D) = true from rfl, if_true]
  exact Dfn.tot_diff_of hc hs f hf

/-- C82: with respect to any other symbol the derivative is zero. -/
theorem C82_other (hc : cfg.Ok) (s : Sym) (hs : s.id.Ok) (f : Fn) (x : Sym) (h : x ≠ s) :
    Gives cfg (fun E => diffOfFn E f s x) (.num (.rat 0)) := by
  refine Tot.gives ?_ (diffOfFn_mono f s x)
  rw [← zero_eq]
  unfold diffOfFn
  refine tot_bind (Dfn.tot_fnOf hs f) ?_
  simp only [Api.diff, show Expr.isSymbol (.sym x : Expr D) = true from rfl, if_true]
  exact Dfn.tot_diff_zero hc hs h.symm f

/-- C82: the exponential function is its own derivative, and the derivative by any other symbol is zero. -/
theorem C82_exp (hc : cfg.Ok) (s x : Sym) :
    Gives cfg (fun E => diffOfExp E s x) (if x = s then .pow (.cst .e) (.sym s) else .num (.rat 0)) := by
  refine Tot.gives ?_ (diffOfExp_mono s x)
  unfold diffOfExp
  refine tot_bind (Dfn.tot_ex s) ?_
  simp only [Api.diff, show Expr.isSymbol (.sym x : Expr D) = true from rfl, if_true]
  by_cases h : x = s
  · subst h; rw [if_pos rfl]; exact Dfn.tot_diff_ex hc
  · rw [if_neg h, ← zero_eq]; exact Dfn.tot_diff_ex_zero hc (Ne.symm h)

namespace FnDiffSpec

theorem near {σ : Asg} {s : Sym} {f : Fn} (h : Inside f (σ s)) : ∀ᶠ t in 𝓝 (σ s), Inside f t := by
  cases f <;> simp only [Inside] at h ⊢ <;> try exact Filter.Eventually.of_forall fun _ => trivial
  · exact lt_mem_nhds h
  · exact Real.continuous_cos.continuousAt.eventually_ne h
  · exact (lt_mem_nhds h.1).and (gt_mem_nhds h.2)
  · exact (lt_mem_nhds h.1).and (gt_mem_nhds h.2)

/-- The real functions. -/
noncomputable def real : Fn → ℝ → ℝ
  | .log => Real.log
  | .sin => Real.sin
  | .cos => Real.cos
  | .tan => Real.tan
  | .asin => Real.arcsin
  | .acos => Real.arccos
  | .atan => Real.arctan

theorem fn_real {f : Fn} {y : ℝ} (h : Inside f y) : Spec.fn f y = some (real f y) := by
  cases f <;> simp only [Inside] at h <;> simp only [Spec.fn, real, Spec.log, Spec.tan, Spec.asin, Spec.acos, ite_eq_left_iff, reduceCtorEq]
  · simpa using h
  · simpa using h
  · intro h'; exact h' ⟨h.1.le, h.2.le⟩
  · intro h'; exact h' ⟨h.1.le, h.2.le⟩

theorem real_deriv {f : Fn} {y : ℝ} (h : Inside f y) : HasDerivAt (real f) (rate f y) y := by
  cases f <;> simp only [Inside] at h <;> simp only [real, rate]
  · rw [one_div]; exact Real.hasDerivAt_log h.ne'
  · exact Real.hasDerivAt_sin y
  · exact Real.hasDerivAt_cos y
  · exact Real.hasDerivAt_tan h
  · exact Real.hasDerivAt_arcsin h.1.ne' h.2.ne
  · exact Real.hasDerivAt_arccos h.1.ne' h.2.ne
  · exact Real.hasDerivAt_arctan y

end FnDiffSpec

/-- C82: the table is right: at all points inside the domain of the function, the function of the symbol has the derivative of the
real function, and this is the value of the entry of the table. -/
theorem C82_value (σ : Asg) (s : Sym) (f : Fn) (h : Inside f (σ s)) :
    Derives σ s (.fn f (.sym s) : Expr D) (rate f (σ s)) ∧ den σ (derivative s f : Expr D) = some (rate f (σ s)) := by
  constructor
  · refine ⟨real f, ?_, real_deriv h⟩
    filter_upwards [near h] with t ht
    simp only [den, Function.update_self, Option.bind_some, fn_real ht]
  · have h2 : Spec.pow (σ s) 2 = some (σ s ^ 2) := Spec.pow_nat (n := 2) (by decide)
    have dm := ArcSpec.den_oneMinus (D := D) σ s
    have dp := ArcSpec.den_onePlus (D := D) σ s
    cases f <;> simp only [Inside] at h <;> simp only [derivative, rate]
    · have h1 : Spec.pow (σ s) ((-1 : ℚ) : ℝ) = some (σ s)⁻¹ := by
        have := Spec.pow_int (-1) h.ne'
        rw [zpow_neg_one] at this; rw [← this]; norm_num
      simp only [den, q, Number.val, Option.bind_some, h1, one_div]
    · simp [den, Spec.fn]
    · simp [den, denProd, Spec.fn, q, Number.val]
    · have h3 : Spec.pow (Real.tan (σ s)) 2 = some (Real.tan (σ s) ^ 2) := Spec.pow_nat (n := 2) (by decide)
      have h4 : Spec.tan (σ s) = some (Real.tan (σ s)) := by simp [Spec.tan, h]
      have e : 1 / Real.cos (σ s) ^ 2 = 1 + Real.tan (σ s) ^ 2 := by
        rw [Real.tan_eq_sin_div_cos]; field_simp; rw [Real.cos_sq_add_sin_sq]
      rw [e]
      simp [den, denSum, Spec.fn, q, Number.val, h4, h3]
    · have hp : 0 < 1 - σ s ^ 2 := by nlinarith [h.1, h.2]
      rw [one_div]
      exact ArcSpec.den_recRoot σ dm hp
    · have hp : 0 < 1 - σ s ^ 2 := by nlinarith [h.1, h.2]
      have := ArcSpec.den_recRoot σ dm hp
      rw [one_div]
      simp only [ArcSpec.oneMinus, ArcSpec.q] at this
      rw [den, denProd, denProd, denProd]
      simp only [q, this]
      simp [den, Number.val]
    · have hp : 0 < 1 + σ s ^ 2 := by positivity
      have h1 : Spec.pow (1 + σ s ^ 2) ((-1 : ℚ) : ℝ) = some (1 + σ s ^ 2)⁻¹ := by
        have := Spec.pow_int (-1) hp.ne'
        rw [zpow_neg_one] at this; rw [← this]; norm_num
      simp only [ArcSpec.onePlus, ArcSpec.q] at dp
      rw [den]
      simp only [q, dp, Option.bind_some]
      simp only [den, Number.val, Option.bind_some, h1, one_div]

/-- C82: but for the logarithm, the entry of the table has a value only inside the domain of the function. -/
theorem C82_domain (σ : Asg) (s : Sym) (f : Fn) (hf : f ≠ .log) (v : ℝ) (h : den σ (derivative s f : Expr D) = some v) : Inside f (σ s) := by
  have dm := ArcSpec.den_oneMinus (D := D) σ s
  have key : ∀ v, den σ (.pow (ArcSpec.oneMinus s) (ArcSpec.q (-1 / 2)) : Expr D) = some v → -1 < σ s ∧ σ s < 1 := by
    intro v hv
    simp only [den, dm, ArcSpec.q, Option.bind_some, Number.val, Spec.pow, Option.ite_none_right_eq_some] at hv
    have hp : 0 < 1 - σ s ^ 2 := by
      rcases hv.1 with h | ⟨-, h⟩ | ⟨-, n, h⟩
      · exact h
      · norm_num at h
      · have : (-1 : ℝ) = ((2 * n : ℤ) : ℝ) := by push_cast; rw [← h]; push_cast; ring
        have : (-1 : ℤ) = 2 * n := by exact_mod_cast this
        omega
    constructor <;> nlinarith
  cases f <;> simp only [Inside]
  · exact absurd rfl hf
  · intro h0
    simp [derivative, den, denSum, q, Spec.fn, Spec.tan, h0] at h
  · exact key v h
  · simp only [derivative] at h
    rw [den, denProd, denProd] at h
    cases hx : den σ (.pow (ArcSpec.oneMinus s) (ArcSpec.q (-1 / 2)) : Expr D) with
    | none =>
      simp only [ArcSpec.oneMinus, ArcSpec.q] at hx
      simp only [q, hx] at h
      simp [den] at h
    | some w => exact key w hx

/-- C82: the derivative of the logarithm also has a value where the logarithm has none. -/
theorem C82_log_outside (σ : Asg) (s : Sym) (h : σ s < 0) :
    den σ (.fn .log (.sym s) : Expr D) = none ∧ den σ (derivative s .log : Expr D) = some (1 / σ s) := by
  have h1 : Spec.pow (σ s) ((-1 : ℚ) : ℝ) = some (σ s)⁻¹ := by
    have := Spec.pow_int (-1) h.ne
    rw [zpow_neg_one] at this; rw [← this]; norm_num
  constructor
  · simp [den, Spec.fn, Spec.log, h.le]
  · simp only [derivative, den, q, Number.val, Option.bind_some, h1, one_div]

end

/-! ## The statements are about something -/

namespace DiffFnEx

open TrigPowEx ArcTwoEx

example : ReturnsWhere (Cfg.std 323 : Cfg Hyb) (fun _ => True) (fun E => diffOfFn E .acos sa sa)
    (.prod [.num (.rat (-1)), .pow (.sum [.num (.rat 1), .prod [.num (.rat (-1)), .pow (.sym sa) (.num (.rat 2))]]) (.num (.rat (-1 / 2)))]) :=
  C82_diff (Cfg.std_ok 323) sa sa_ok .acos

example : Gives (Cfg.std 323 : Cfg Hyb) (fun E => diffOfFn E .tan sa sa) (.sum [.num (.rat 1), .pow (.fn .tan (.sym sa)) (.num (.rat 2))]) :=
  C82_unconditional (Cfg.std_ok 323) sa sa_ok .tan (by decide)

example : Gives (Cfg.std 323 : Cfg Hyb) (fun E => diffOfFn E .atan sa sb) (.num (.rat 0)) :=
  C82_other (Cfg.std_ok 323) sa sa_ok .atan sb (by decide)

example : Gives (Cfg.std 323 : Cfg Hyb) (fun E => diffOfExp E sa sa) (.pow (.cst .e) (.sym sa)) := C82_exp (Cfg.std_ok 323) sa sa

/-- There are points inside and points outside the domain. -/
example : Inside .asin (1 / 2) ∧ ¬ Inside .asin 1 ∧ ¬ Inside .log 0 := by
  simp only [Inside]; norm_num

example : den (fun _ => 1 / 2) (derivative sa .asin : Expr Hyb) = some (1 / √(1 - (1 / 2) ^ 2)) :=
  (C82_value _ sa .asin (by simp only [Inside]; norm_num)).2

/-- The hypothesis of the theorem on the domain is met. -/
example : ∃ v, den (fun _ => 1 / 2) (derivative sa .acos : Expr Hyb) = some v :=
  ⟨_, (C82_value _ sa .acos (by simp only [Inside]; norm_num)).2⟩

end DiffFnEx

end Tsym
