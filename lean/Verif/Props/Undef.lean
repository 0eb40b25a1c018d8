import Verif.Props.Symbols

set_option autoImplicit false
set_option linter.unusedSectionVars false

/-!
# Undefined: C15, and C03 for the number zero

These calls return Undefined for every floating point unit and every depth from three on; that they return
is part of the statement.
-/

namespace Tsym

open Expr

variable {D : Type} [Flt D]

/-- Does the call have the operand Undefined? (For subst only the first argument counts, for diff only
the expression.) -/
inductive Call.Hit : Call D → Prop
  | add1 (b) : Hit (.add .undef b) | add2 (a) : Hit (.add a .undef)
  | sub1 (b) : Hit (.sub .undef b) | sub2 (a) : Hit (.sub a .undef)
  | neg : Hit (.neg .undef)
  | mul1 (b) : Hit (.mul .undef b) | mul2 (a) : Hit (.mul a .undef)
  | div1 (b) : Hit (.div .undef b) | div2 (a) : Hit (.div a .undef)
  | pow1 (b) : Hit (.pow .undef b) | pow2 (a) : Hit (.pow a .undef)
  | sqrt : Hit (.sqrt .undef) | log : Hit (.log .undef) | trig (f) : Hit (.trig f .undef)
  | atan2y (x) : Hit (.atan2 .undef x) | atan2x (y) : Hit (.atan2 y .undef)
  | expand : Hit (.expand .undef) | normal : Hit (.normal .undef) | simplify : Hit (.simplify .undef)
  | numerator : Hit (.numerator .undef)
  | diff (x : Sym) : Hit (.diff .undef (.sym x))
  | subst (x : Sym) (t) : Hit (.subst .undef (.sym x) t)

theorem sum_undef {cfg : Cfg D} {n : Nat} {l : List (Expr D)} (h : .undef ∈ l) :
    (eng cfg (n + 1)).sumCreate l = .ok (.undef, []) := by
  have : l.any isUndefined = true := List.any_eq_true.2 ⟨_, h, rfl⟩
  simp only [eng, engStep, sumCreate, this, if_true]
  rfl

theorem prod_undef {cfg : Cfg D} {n : Nat} {l : List (Expr D)} (h : .undef ∈ l) :
    (eng cfg (n + 1)).prodCreate l = .ok (.undef, []) := by
  have : l.any isUndefined = true := List.any_eq_true.2 ⟨_, h, rfl⟩
  simp only [eng, engStep, prodCreate, this, if_true]
  rfl

theorem pow_undef {cfg : Cfg D} {n : Nat} {b e : Expr D} (h : b = .undef ∨ e = .undef) :
    (eng cfg (n + 1)).powCreate b e = .ok (.undef, []) := by
  rcases h with rfl | rfl
  · cases e <;> rfl
  · cases b <;> rfl

theorem atan2_undef {cfg : Cfg D} {n : Nat} {b e : Expr D} (h : b = .undef ∨ e = .undef) :
    (eng cfg (n + 1)).atan2Create b e = .ok (.undef, []) := by
  rcases h with rfl | rfl
  · cases e <;> rfl
  · cases b <;> rfl

theorem eng_cfg {cfg : Cfg D} : ∀ m, (eng cfg m).cfg = cfg
  | 0 => rfl
  | m + 1 => eng_cfg m

theorem replaceBack_nil {cfg : Cfg D} (hcfg : cfg.Ok) {n : Nat} {e : Expr D}
    (he : e = .undef ∨ e = one) : replaceBack (eng cfg (n + 1)) [] e = .ok (e, []) := by
  have h : (eng cfg (n + 1)).cfg.mapOrder [] = [] := by
    rw [eng_cfg]
    exact List.Perm.eq_nil (hcfg.mapOrder [])
  rcases he with rfl | rfl <;> simp only [replaceBack, replacePass, h] <;> rfl

theorem normal_undef {cfg : Cfg D} (hcfg : cfg.Ok) {n : Nat} :
    (eng cfg (n + 3)).normal .undef = .ok (.undef, []) := by
  have h1 := replaceBack_nil hcfg (n := n + 1) (e := .undef) (.inl rfl)
  have h2 := replaceBack_nil hcfg (n := n + 1) (e := one) (.inr rfl)
  refine M.bind_ok.2 ⟨((⟨.undef, one⟩, ⟨[], []⟩), []), [], [], rfl, ?_, rfl⟩
  refine M.bind_ok.2 ⟨(.undef, []), [], [], by simp only [h1]; rfl, ?_, rfl⟩
  refine M.bind_ok.2 ⟨(one, []), [], [], by simp only [h2]; rfl, ?_, rfl⟩
  refine M.bind_ok.2 ⟨(), [], [], rfl, ?_, rfl⟩
  exact M.bind_ok.2 ⟨one, [], [], rfl, prod_undef (by simp), rfl⟩

/-- Does the call evaluate nothing but Undefined? (a - b and a/b evaluate -b and 1/b first.) -/
def Call.Direct : Call D → Prop
  | .sub _ b => b = .undef
  | .div _ b => b = .undef
  | _ => True

theorem run_undef {cfg : Cfg D} (hcfg : cfg.Ok) (n : Nat) (c : Call D) (hc : c.Hit) (hd : c.Direct) :
    c.run (eng cfg (n + 3)) = .ok (.undef, []) := by
  cases hc
  case add1 => exact sum_undef (by simp)
  case add2 => exact sum_undef (by simp)
  case mul1 => exact prod_undef (by simp)
  case mul2 => exact prod_undef (by simp)
  case neg => exact prod_undef (by simp)
  case sub1 => cases hd; exact M.bind_ok.2 ⟨.undef, [], [], prod_undef (by simp), sum_undef (by simp), rfl⟩
  case sub2 => exact M.bind_ok.2 ⟨.undef, [], [], prod_undef (by simp), sum_undef (by simp), rfl⟩
  case div1 => cases hd; exact M.bind_ok.2 ⟨.undef, [], [], pow_undef (by simp), prod_undef (by simp), rfl⟩
  case div2 => exact M.bind_ok.2 ⟨.undef, [], [], pow_undef (by simp), prod_undef (by simp), rfl⟩
  case pow1 => exact pow_undef (by simp)
  case pow2 => exact pow_undef (by simp)
  case sqrt => exact pow_undef (by simp)
  case atan2y => exact atan2_undef (by simp)
  case atan2x => exact atan2_undef (by simp)
  case normal => exact normal_undef hcfg
  case simplify =>
    refine M.bind_ok.2 ⟨.undef, [], [], rfl, ?_, rfl⟩
    exact M.bind_ok.2 ⟨.undef, [], [], normal_undef hcfg, rfl, rfl⟩
  case numerator =>
    have h1 := replaceBack_nil hcfg (n := n + 2) (e := .undef) (.inl rfl)
    have h2 := replaceBack_nil hcfg (n := n + 2) (e := one) (.inr rfl)
    refine M.bind_ok.2 ⟨⟨.undef, one⟩, [], [], ?_, rfl, rfl⟩
    refine M.bind_ok.2 ⟨((⟨.undef, one⟩, ⟨[], []⟩), []), [], [], rfl, ?_, rfl⟩
    refine M.bind_ok.2 ⟨(one, []), [], [], by simp only [h2]; rfl, ?_, rfl⟩
    refine M.bind_ok.2 ⟨(.undef, []), [], [], by simp only [h1]; rfl, ?_, rfl⟩
    rfl
  all_goals rfl

/-- C15. A call with the operand Undefined returns Undefined, if it returns. -/
theorem C15_undefined_contagious (cfg : Cfg D) (hcfg : cfg.Ok) (n : Nat) (c : Call D)
    (hc : c.Hit) (r : Expr D) (cs : List (Cond D)) (hr : c.run (eng cfg (n + 3)) = .ok (r, cs)) :
    r = .undef := by
  by_cases hd : c.Direct
  · rw [run_undef hcfg n c hc hd] at hr
    cases hr
    rfl
  · cases hc <;> simp only [Call.Direct, not_true_eq_false] at hd
    all_goals
      obtain ⟨a, c1, c2, -, h2, -⟩ := M.bind_ok.1 hr
    · rw [sum_undef (by simp)] at h2
      cases h2
      rfl
    · rw [prod_undef (by simp)] at h2
      cases h2
      rfl

/-- C15, that the call returns. For a - b and a/b with the operand a, it depends on b. -/
theorem C15_returns (cfg : Cfg D) (hcfg : cfg.Ok) (n : Nat) (c : Call D) (hc : c.Hit) (hd : c.Direct) :
    c.run (eng cfg (n + 3)) = .ok (.undef, []) := run_undef hcfg n c hc hd

/-- C15 for sums and products of any number of operands. -/
theorem C15_lists (cfg : Cfg D) (n : Nat) (l : List (Expr D)) (h : .undef ∈ l) :
    (eng cfg (n + 1)).sumCreate l = .ok (.undef, []) ∧ (eng cfg (n + 1)).prodCreate l = .ok (.undef, []) :=
  ⟨sum_undef h, prod_undef h⟩

/-- C03 for the number zero: a/0 is Undefined, for every expression a and every floating point unit
that knows that -1 is less than 0. -/
theorem C03_division_by_zero (cfg : Cfg D) (n : Nat) (a : Expr D)
    (hd : Flt.lt (Flt.ofRat (-1) : D) (Flt.ofRat 0) = true) :
    Api.div (eng cfg (n + 2)) a (int 0) = .ok (.undef, []) := by
  have hneg : (eng cfg (n + 1)).isNeg (mOne : Expr D) = .ok (true, []) := by
    show Except.ok (Flt.lt (Flt.ofRat (-1) : D) (Flt.ofRat _), []) = _
    simp [hd]
  have h : (eng cfg (n + 2)).oneOver (int 0) = .ok (.undef, []) := by
    show powCreate (eng cfg (n + 1)) (int 0) mOne = _
    have h1 : (mOne : Expr D).isZero = false := by krfl
    have h2 : (int 0 : Expr D).isOne = false := by krfl
    have h3 : (int 0 : Expr D).isZero = true := by krfl
    simp only [powCreate, h1, h2, h3, hneg, M.whenTrue]
    rfl
  exact M.bind_ok.2 ⟨.undef, [], [], h, prod_undef (by simp), rfl⟩

namespace UndefEx

open ExprEx SymEx

/-- C15 on an example: sin(Undefined), and a - 1/0. -/
example : (Call.trig .sin (.undef : Expr Hyb)).Hit := .trig _
example : (Call.sub a (.undef : Expr Hyb)).Hit ∧ (Call.sub a (.undef : Expr Hyb)).Direct := ⟨.sub2 _, rfl⟩
example : ∃ cs, Api.sub lib a .undef = .ok (.undef, cs) := M.val_some (by krfl)
/-- C15: for Undefined - b, the call returns as well. -/
example : ∃ cs, Api.sub lib .undef (sum [a, b]) = .ok (.undef, cs) := M.val_some (by krfl)

/-- C03: the assumption is met. -/
example : Flt.lt (Flt.ofRat (-1) : Hyb) (Flt.ofRat 0) = true := by krfl

end UndefEx

end Tsym
