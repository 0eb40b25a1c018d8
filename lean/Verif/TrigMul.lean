import Verif.TrigProd

set_option autoImplicit false
set_option linter.unusedSectionVars false
set_option linter.unusedSimpArgs false
set_option linter.unusedVariables false

/-!
# contractTrigFctPowers, helpers for C76
-/

namespace Tsym

namespace TrigProd

open Expr

/-- A power of a function. -/
def tp {D : Type} (f : Fn) (x : Expr D) (q : ℚ) : Expr D :=
  if q = 0 then .num (.rat 1) else if q = 1 then .fn f x else .pow (.fn f x) (.num (.rat q))

variable {D : Type} [Flt D] [LawfulFlt D] {cfg : Cfg D}

/-- What is needed of the argument. -/
structure TA (cfg : Cfg D) (x : Expr D) : Prop where
  good : Expr.Good x
  eval : numEval x = .ok none
  trig : ∀ f, Tot cfg (fun E => trigCreate E f x) (.fn f x)
  subst : ∀ (k : ℕ) (b : Bool) (r : Expr D), k ∉ x.tmpIds → Tot cfg (fun E => subst E (.sym ⟨.tmp k, b⟩) r x) x

/-- Symbols. -/
theorem TA.sym {s : Sym} (hs : s.id.Ok) : TA cfg (.sym s : Expr D) where
  good := (Qf.qb_sym (cfg := cfg) hs).good
  eval := by simp [numEval, pure, Except.pure]
  trig f := tot_trig_plain rfl rfl (by simp [numEval, pure, Except.pure]) (by simp only [doesSymmetryApply]; exact tot_pure _) f
  subst k b r hk := by
    have hne : (.sym s : Expr D) ≠ .sym ⟨.tmp k, b⟩ := by
      rintro h
      simp only [Expr.sym.injEq] at h
      subst h
      simp [Expr.tmpIds] at hk
    have : isEqual (.sym s : Expr D) (.sym ⟨.tmp k, b⟩) = false := isEqual_ne (exact_sym _) (exact_sym _) hne
    simp only [Tsym.subst, this, Bool.false_eq_true, if_false]
    exact tot_pure _

/-- Sine, cosine and tangent. -/
def Tr (f : Fn) : Prop := f = .sin ∨ f = .cos ∨ f = .tan

section

variable {x : Expr D} {f g : Fn} {p q : ℚ}

theorem tp_cases (f : Fn) (x : Expr D) (h : p ≠ 0) :
    tp f x p = .fn f x ∧ p = 1 ∨ tp f x p = .pow (.fn f x) (.num (.rat p)) ∧ p ≠ 1 := by
  by_cases h1 : p = 1
  · exact .inl ⟨by simp [tp, h1], h1⟩
  · exact .inr ⟨by simp only [tp, h, h1, if_false], h1⟩

theorem tp_base (h : p ≠ 0) : (tp f x p).base = .fn f x := by
  rcases tp_cases f x h with ⟨e, _⟩ | ⟨e, _⟩ <;> rw [e] <;> rfl

theorem tp_exp (h : p ≠ 0) : (tp f x p).exp = .num (.rat p) := by
  rcases tp_cases f x h with ⟨e, rfl⟩ | ⟨e, _⟩ <;> rw [e]
  · simp only [Expr.exp]; exact one_eq
  · rfl

theorem tp_isProduct (h : p ≠ 0) : (tp f x p).isProduct = false := by rcases tp_cases f x h with ⟨e, _⟩ | ⟨e, _⟩ <;> rw [e] <;> rfl
theorem tp_isOne (h : p ≠ 0) : (tp f x p).isOne = false := by rcases tp_cases f x h with ⟨e, _⟩ | ⟨e, _⟩ <;> rw [e] <;> rfl
theorem tp_isZero (h : p ≠ 0) : (tp f x p).isZero = false := by rcases tp_cases f x h with ⟨e, _⟩ | ⟨e, _⟩ <;> rw [e] <;> rfl
theorem tp_isUndefined (h : p ≠ 0) : (tp f x p).isUndefined = false := by rcases tp_cases f x h with ⟨e, _⟩ | ⟨e, _⟩ <;> rw [e] <;> rfl
theorem tp_isConst (h : p ≠ 0) : (tp f x p).isConst = false := by
  rcases tp_cases f x h with ⟨e, _⟩ | ⟨e, _⟩ <;> rw [e] <;> simp [Expr.isConst]
theorem tp_factors (h : p ≠ 0) : factors (tp f x p) = [tp f x p] := by rcases tp_cases f x h with ⟨e, _⟩ | ⟨e, _⟩ <;> rw [e] <;> rfl
theorem tp_ne_prod (h : p ≠ 0) (l : List (Expr D)) : tp f x p ≠ .prod l := by
  rcases tp_cases f x h with ⟨e, _⟩ | ⟨e, _⟩ <;> rw [e] <;> exact nofun
theorem tp_item (h : p ≠ 0) : GItem (tp f x p) := by
  rcases tp_cases f x h with ⟨e, _⟩ | ⟨e, _⟩ <;> rw [e] <;> exact .inr ⟨rfl, by simp [isContractableConst, isConst], rfl⟩
theorem tp_tmpIds (h : p ≠ 0) : (tp f x p).tmpIds = x.tmpIds := by
  rcases tp_cases f x h with ⟨e, _⟩ | ⟨e, _⟩ <;> rw [e] <;> simp [Expr.tmpIds]
theorem tp_viewB (h : p ≠ 0) : viewB (tp f x p) = .fn f x := by rcases tp_cases f x h with ⟨e, _⟩ | ⟨e, _⟩ <;> rw [e] <;> rfl
theorem tp_big (h : p ≠ 0) : big (tp f x p) = true := by rcases tp_cases f x h with ⟨e, _⟩ | ⟨e, _⟩ <;> rw [e] <;> rfl

theorem TA.fn_good (hx : TA cfg x) (f : Fn) : Expr.Good (.fn f x : Expr D) := by
  refine Good.of_ops (by simp) (by simp) (by simp) (by simp) (by simp) (by simp) ?_
  intro o ho
  simp only [operands, List.mem_cons, List.not_mem_nil, or_false] at ho
  rw [ho]; exact hx.good

theorem TA.tp_good (hx : TA cfg x) (f : Fn) (h : p ≠ 0) : Expr.Good (tp f x p) := by
  rcases tp_cases f x h with ⟨e, _⟩ | ⟨e, h1⟩ <;> rw [e]
  · exact hx.fn_good f
  · refine Good.of_ops (by simp) (by simp) (by simp) (by simp) (by simp) ?_ ?_
    · intro b e
      simp only [Expr.pow.injEq] at e
      have := e.2
      rw [one_eq] at this
      simp only [Expr.num.injEq, Number.rat.injEq] at this
      exact h1 this
    · intro o ho
      simp only [operands, List.mem_cons, List.not_mem_nil, or_false] at ho
      rcases ho with rfl | rfl
      · exact hx.fn_good f
      · exact Qf.good_ratE _

theorem TA.exact (hx : TA cfg x) (f : Fn) (h : p ≠ 0) : Exact (tp f x p) := (hx.tp_good f h).exact

theorem tp_inj (h : p ≠ 0) (h' : q ≠ 0) (e : tp f x p = tp g x q) : f = g ∧ p = q := by
  have h1 := congrArg Expr.base e
  have h2 := congrArg Expr.exp e
  rw [tp_base h, tp_base h'] at h1
  rw [tp_exp h, tp_exp h'] at h2
  simp only [Expr.num.injEq, Number.rat.injEq, Expr.fn.injEq] at h1 h2
  exact ⟨h1.1, h2⟩

theorem TA.neg (hx : TA cfg x) (hf : Tr f) : Tot cfg (fun E => isNeg E (.fn f x)) false := by
  rcases hf with rfl | rfl | rfl <;> simp only [isNeg, evalIsNeg] <;> exact tot_bind (tot_lift (eval_fn hx.eval _)) (tot_pure _)

theorem TA.pos (hx : TA cfg x) (hf : Tr f) : Tot cfg (fun E => isPos E (.fn f x)) false := by
  rcases hf with rfl | rfl | rfl <;> simp only [isPos, evalIsPos] <;> exact tot_bind (tot_lift (eval_fn hx.eval _)) (tot_pure _)

theorem TA.tot_pow (hx : TA cfg x) (hf : Tr f) (q : ℚ) : Tot cfg (fun E => powCreate E (.fn f x) (num (.rat q))) (tp f x q) := by
  by_cases h0 : q = 0
  · subst h0
    simp only [tp, if_true]
    exact Tower.tot_pow_zero rfl
  have e1 : (num (.rat q) : Expr D).isUndefined = false := rfl
  have e2 : (num (.rat q) : Expr D).isZero = false := by rw [isZero_ratE]; simpa using h0
  have e3 : (num (.rat q) : Expr D).isOne = decide (q = 1) := isOne_ratE _
  simp only [powCreate, e1, show (Expr.fn f x).isUndefined = false from rfl, Bool.or_self, Bool.false_eq_true, if_false, e2,
    show (Expr.fn f x).isOne = false from rfl, show (Expr.fn f x).isZero = false from rfl, e3]
  by_cases h1 : q = 1
  · simp only [h1, decide_true, if_true, tp, one_ne_zero, if_false]; exact tot_pure _
  · simp only [h1, decide_false, Bool.false_eq_true, if_false, powCreateNonTrivial, tp, h0]
    refine tot_bind (a := (.fn f x, num (.rat q))) (tot_simplPow ?_) ?_
    · unfold simplPow
      refine tot_bind (Qf.tot_noComplex (hx.neg hf) (.inr rfl)) ?_
      simp only [Bool.false_eq_true, if_false]; exact tot_pure _
    · simp only [e3, h1, decide_false, show (Expr.fn f x).isOne = false from rfl, Bool.false_eq_true, if_false]
      exact tot_pure _

/-! ## Order -/

theorem permute_cos_sin (x : Expr D) : doPermute (.fn .cos x) (.fn .sin x) = false ∧ doPermute (.fn .sin x) (.fn .cos x) = true := by
  have h1 : ((Fn.cos).name = (Fn.sin).name) = False := by simp [Fn.name]
  have h2 : ((Fn.sin).name = (Fn.cos).name) = False := by simp [Fn.name]
  rw [doPermute_eq, doPermute_eq]
  simp only [permStep, permSame, h1, h2, ne_eq, not_false_eq_true, if_true]
  exact ⟨by decide, by decide⟩

theorem TA.order (hx : TA cfg x) (hp : p ≠ 0) (hq : q ≠ 0) :
    doPermute (tp .cos x p) (tp .sin x q) = false ∧ doPermute (tp .sin x q) (tp .cos x p) = true := by
  have hne : (Expr.fn .cos x : Expr D) ≠ .fn .sin x := by simp
  have h1 := (L_viewB (hx.tp_good .sin hq) (hx.tp_good .cos hp) (tp_big hq) (tp_big hp) (tp_ne_prod hq) (tp_ne_prod hp)).2
    (by rw [tp_viewB hq, tp_viewB hp]; exact hne.symm)
  have h2 := (L_viewB (hx.tp_good .cos hp) (hx.tp_good .sin hq) (tp_big hp) (tp_big hq) (tp_ne_prod hp) (tp_ne_prod hq)).2
    (by rw [tp_viewB hq, tp_viewB hp]; exact hne)
  rw [tp_viewB hq, tp_viewB hp] at h1 h2
  unfold L at h1 h2
  rw [h1, h2]
  exact permute_cos_sin x

theorem viewE_tp (hp : p ≠ 0) : viewE (tp f x p) = .num (.rat p) := by
  rcases tp_cases f x hp with ⟨e, rfl⟩ | ⟨e, _⟩ <;> rw [e]
  · exact one_eq
  · rfl

theorem TA.order_same (hx : TA cfg x) (f : Fn) (hp : p ≠ 0) (hq : q ≠ 0) :
    doPermute (tp f x p) (tp f x q) = decide (q < p) := by
  have h1 := (L_viewB (hx.tp_good f hq) (hx.tp_good f hp) (tp_big hq) (tp_big hp) (tp_ne_prod hq) (tp_ne_prod hp)).1
    (by rw [tp_viewB hq, tp_viewB hp])
  rw [viewE_tp hp, viewE_tp hq] at h1
  unfold L at h1
  rw [h1, doPermute_eq]
  simp only [permStep, permSame, lt_rat]

/-! ## Substitution of the temporary symbols -/

theorem TA.subst_fn (hx : TA cfg x) (hf : Tr f) {k : ℕ} (hk : k ∉ x.tmpIds) (b : Bool) (r : Expr D) :
    Tot cfg (fun E => Tsym.subst E (.sym ⟨.tmp k, b⟩) r (.fn f x)) (.fn f x) := by
  have e : isEqual (.fn f x) (.sym ⟨.tmp k, b⟩ : Expr D) = false := isEqual_ne (hx.fn_good f).exact (exact_sym _) (by simp)
  rcases hf with rfl | rfl | rfl <;> simp only [Tsym.subst, e, Bool.false_eq_true, if_false] <;>
    exact tot_bind (tot_subst (hx.subst k b r hk)) (tot_trig (hx.trig _))

theorem subst_num (q : ℚ) (s : Sym) (r : Expr D) : Tot cfg (fun E => Tsym.subst E (.sym s) r (num (.rat q))) (num (.rat q)) := by
  have e : isEqual (num (.rat q)) (.sym s : Expr D) = false := isEqual_ne (exact_ratE _) (exact_sym _) (by simp)
  simp only [Tsym.subst, e, Bool.false_eq_true, if_false]
  exact tot_pure _

theorem TA.subst_tp (hx : TA cfg x) (hf : Tr f) {k : ℕ} (hk : k ∉ x.tmpIds) (b : Bool) (r : Expr D) (p : ℚ) :
    Tot cfg (fun E => Tsym.subst E (.sym ⟨.tmp k, b⟩) r (tp f x p)) (tp f x p) := by
  by_cases hp : p = 0
  · subst hp; simp only [tp, if_true]; exact subst_num _ _ _
  rcases tp_cases f x hp with ⟨e, _⟩ | ⟨e, _⟩
  · rw [e]; exact hx.subst_fn hf hk b r
  · rw [e]
    have e' : isEqual (.pow (.fn f x) (num (.rat p))) (.sym ⟨.tmp k, b⟩ : Expr D) = false := by
      rw [← e]; exact isEqual_ne (hx.exact f hp) (exact_sym _) (by rw [e]; simp)
    simp only [Tsym.subst, e', Bool.false_eq_true, if_false]
    rw [← e]
    exact tot_bind (tot_subst (hx.subst_fn hf hk b r)) (tot_bind (tot_subst (subst_num _ _ _)) (Tsym.tot_pow (hx.tot_pow hf p)))

/-- A power of the symbol becomes a power of the function. -/
theorem TA.subst_power (hx : TA cfg x) (hf : Tr f) (s : Sym) (p : ℚ) :
    Tot cfg (fun E => Tsym.subst E (.sym s) (.fn f x) (Tower.power s p)) (tp f x p) := by
  by_cases hp : p = 0
  · subst hp; simp only [tp, Tower.power, if_true]; exact subst_num _ _ _
  rcases Tower.power_cases (D := D) s hp with ⟨e, rfl⟩ | ⟨e, h1⟩
  · rw [e]
    simp only [Tsym.subst, isEqual_refl (exact_sym s), if_true, tp, one_ne_zero, if_false]
    exact tot_pure _
  · rw [e]
    have e' : isEqual (.pow (.sym s) (num (.rat p))) (.sym s : Expr D) = false := by simp [isEqual]
    simp only [Tsym.subst, e', Bool.false_eq_true, if_false]
    refine tot_bind (a := .fn f x) (tot_subst ?_) (tot_bind (tot_subst (subst_num _ _ _)) (Tsym.tot_pow (hx.tot_pow hf p)))
    simp only [Tsym.subst, isEqual_refl (exact_sym s), if_true]
    exact tot_pure _

/-- A power of another symbol stays. -/
theorem subst_power_other {s t : Sym} (hst : (.sym s : Expr D) ≠ .sym t) (r : Expr D) (p : ℚ) :
    Tot cfg (fun E => Tsym.subst E (.sym t) r (Tower.power s p)) (Tower.power s p) := by
  have hs : Tot cfg (fun E => Tsym.subst E (.sym t) r (.sym s)) (.sym s) := by
    simp only [Tsym.subst, isEqual_ne (exact_sym s) (exact_sym t) hst, Bool.false_eq_true, if_false]
    exact tot_pure _
  by_cases hp : p = 0
  · subst hp; simp only [Tower.power, if_true]; exact subst_num _ _ _
  rcases Tower.power_cases (D := D) s hp with ⟨e, rfl⟩ | ⟨e, h1⟩
  · rw [e]; exact hs
  · rw [e]
    have e' : isEqual (.pow (.sym s) (num (.rat p))) (.sym t : Expr D) = false := by simp [isEqual]
    simp only [Tsym.subst, e', Bool.false_eq_true, if_false]
    rw [← e]
    exact tot_bind (tot_subst hs) (tot_bind (tot_subst (subst_num _ _ _)) (Tsym.tot_pow (Tower.tot_power s p)))

end

end TrigProd

end Tsym
