import Verif.TrigFin
import Verif.TrigAll

set_option autoImplicit false
set_option linter.unusedSectionVars false
set_option linter.unusedSimpArgs false
set_option linter.unusedVariables false

/-!
# Sums of squares of sine and cosine, helpers for C80
-/

namespace Tsym

namespace Pyth

open Expr TrigProd

variable {D : Type} [Flt D] [LawfulFlt D] {cfg : Cfg D}

/-- What is needed of the argument. -/
structure PX (cfg : Cfg D) (x : Expr D) : Prop where
  exact : Exact x
  eval : numEval x = .ok none
  trig : ∀ f, Tot cfg (fun E => trigCreate E f x) (.fn f x)

variable {x : Expr D}

/-- The square of a function. -/
abbrev S (f : Fn) (x : Expr D) : Expr D := .pow (.fn f x) (.num (.rat 2))

/-- A multiple of the square. -/
def tm (a : ℚ) (f : Fn) (x : Expr D) : Expr D := if a = 0 then .num (.rat 0) else if a = 1 then S f x else .prod [.num (.rat a), S f x]

theorem numEval_fn (h : numEval x = .ok none) (f : Fn) : numEval (.fn f x : Expr D) = .ok none := by
  simp [numEval, h, bind, Except.bind, pure, Except.pure]

theorem tot_sq (hx : PX cfg x) {f : Fn} (hf : f = .sin ∨ f = .cos) : Tot cfg (fun E => powCreate E (.fn f x) (num (.rat 2))) (S f x) := by
  have e2 : (num (.rat 2) : Expr D).isZero = false := by rw [isZero_ratE]; decide
  have e3 : (num (.rat 2) : Expr D).isOne = false := by rw [isOne_ratE]; decide
  have hn : Tot cfg (fun E => isNeg E (.fn f x)) false := by
    have : ∀ E : Eng D, isNeg E (.fn f x) = evalIsNeg (.fn f x) := by rcases hf with rfl | rfl <;> (intro E; rfl)
    simp only [this, evalIsNeg]
    exact tot_bind (tot_lift (numEval_fn hx.eval f)) (tot_pure _)
  simp only [powCreate, show (num (.rat 2) : Expr D).isUndefined = false from rfl, show (fn f x).isUndefined = false from rfl, Bool.or_self, Bool.false_eq_true, if_false, e2,
    show (fn f x).isOne = false from rfl, show (fn f x).isZero = false from rfl, e3, powCreateNonTrivial]
  refine tot_bind (a := (.fn f x, num (.rat 2))) (tot_simplPow ?_) ?_
  · unfold Tsym.simplPow
    refine tot_bind (Qf.tot_noComplex hn (.inr rfl)) ?_
    simp only [Bool.false_eq_true, if_false]; exact tot_pure _
  simp only [e3, show (fn f x).isOne = false from rfl, Bool.false_eq_true, if_false]
  exact tot_pure _

theorem ordered_num (a : ℚ) (f : Fn) : ordered (num (.rat a)) (S f x) = [num (.rat a), S f x] := by
  have : doPermute (num (.rat a)) (S f x) = false := by rw [doPermute_eq]; rfl
  simp only [ordered, this, Bool.false_eq_true, if_false]

theorem tot_tm (a : ℚ) (f : Fn) : Tot cfg (fun E => prodCreate E [num (.rat a), S f x]) (tm a f x) := by
  have h1 : [num (.rat a), S f x].any isUndefined = false := rfl
  by_cases h0 : a = 0
  · have h2 : [num (.rat a), S f x].any Expr.isZero = true := by simp [isZero_ratE, h0]
    simp only [prodCreate, h1, h2, Bool.false_eq_true, if_false, if_true, tm, h0]
    exact tot_pure _
  have h2 : [num (.rat a), S f x].any Expr.isZero = false := by simp only [List.any_cons, isZero_ratE, h0]; rfl
  simp only [prodCreate, h1, h2, Bool.false_eq_true, if_false, tm, h0]
  have key : ∀ r : List (Expr D), Tot cfg (fun E => simplTwoFactors E (num (.rat a)) (S f x)) r → Tot cfg (fun E => E.prodSimplify [num (.rat a), S f x]) r := by
    intro r hr
    refine tot_prodSimplify ?_
    unfold simplProd
    refine tot_bind (tot_extract_two rfl rfl) (tot_bind (a := [num (.rat a), S f x]) (tot_contract_pw ?_) hr)
    simp only [List.pairwise_cons, List.mem_singleton, forall_eq, List.not_mem_nil, false_implies, implies_true, List.Pairwise.nil, and_true]
    exact num_trig_pair _ _
  by_cases h3 : a = 1
  · have o : (num (.rat a) : Expr D).isOne = true := by rw [isOne_ratE]; simpa using h3
    rw [if_pos h3]
    refine tot_bind (key [S f x] ?_) (tot_pure _)
    simp only [simplTwoFactors, show (num (.rat a) : Expr D).isProduct = false from rfl, show (S f x).isProduct = false from rfl, Bool.or_self, Bool.false_eq_true, if_false,
      simplTwoFactorsWithoutProduct, o, if_true]
    exact tot_pure _
  · have o : (num (.rat a) : Expr D).isOne = false := by rw [isOne_ratE]; simpa using h3
    rw [if_neg h3]
    refine tot_bind (key [num (.rat a), S f x] ?_) ?_
    · have c : (S f x).isConst = false := by simp [Expr.isConst]
      simp only [simplTwoFactors, show (num (.rat a) : Expr D).isProduct = false from rfl, show (S f x).isProduct = false from rfl, Bool.or_self, Bool.false_eq_true, if_false,
        simplTwoFactorsWithoutProduct, o, show (S f x).isOne = false from rfl, c, Bool.and_false, haveEqualBases,
        show isEqual (num (.rat a) : Expr D).base (S f x).base = false from rfl, ordered_num]
      exact tot_pure _
    · have hn : needsExpansion [num (.rat a), S f x] = false := by
        simp [needsExpansion, constElements, nonConstElements, Expr.isConst, Expr.isSum]
      simp only [hn, Bool.false_eq_true, if_false]
      exact tot_pure _

/-! ## The parts of the terms -/

theorem tm_cases {a : ℚ} (h : a ≠ 0) (f : Fn) (x : Expr D) : (a = 1 ∧ tm a f x = S f x) ∨ (a ≠ 1 ∧ tm a f x = .prod [.num (.rat a), S f x]) := by
  unfold tm; rw [if_neg h]
  by_cases h1 : a = 1
  · exact .inl ⟨h1, by rw [if_pos h1]⟩
  · exact .inr ⟨h1, by rw [if_neg h1]⟩

variable {a b : ℚ} {f g : Fn}

theorem tot_single (y : Expr D) (h : y.isUndefined = false) (h' : y.isZero = false) : Tot cfg (fun E => E.prodCreate [y]) y := by
  refine tot_prod ?_
  simp only [prodCreate, List.any_cons, List.any_nil, h, h', Bool.or_self, Bool.false_eq_true, if_false]
  exact tot_pure _

theorem tm_nonConst (h : a ≠ 0) : Tot cfg (fun E => nonConstTerm E (tm a f x)) (S f x) := by
  rcases tm_cases h f x with ⟨-, e⟩ | ⟨-, e⟩ <;> rw [e]
  · simp only [nonConstTerm, Expr.isConst, Bool.false_and, Bool.false_eq_true, if_false]; exact tot_pure _
  · have : nonConstElements [num (.rat a), S f x] = [S f x] := by simp [nonConstElements, Expr.isConst]
    simp only [nonConstTerm, this, List.isEmpty_cons, Bool.false_eq_true, if_false]
    exact tot_single _ rfl rfl

theorem tm_const (h : a ≠ 0) : Tot cfg (fun E => constTerm E (tm a f x)) (num (.rat a)) := by
  rcases tm_cases h f x with ⟨h1, e⟩ | ⟨-, e⟩ <;> rw [e]
  · simp only [constTerm, Expr.isConst, Bool.false_and, Bool.false_eq_true, if_false, h1]; rw [← one_eq]; exact tot_pure _
  · have : constElements [num (.rat a), S f x] = [num (.rat a)] := by simp [constElements, Expr.isConst, List.filter_cons]
    simp only [constTerm, this, List.isEmpty_cons, Bool.false_eq_true, if_false]
    exact tot_single _ rfl (by rw [isZero_ratE]; simpa using h)

theorem tm_nonNumeric (h : a ≠ 0) : Tot cfg (fun E => nonNumericTerm E (tm a f x)) (S f x) := by
  rcases tm_cases h f x with ⟨-, e⟩ | ⟨-, e⟩ <;> rw [e]
  · exact tot_pure _
  · simp only [nonNumericTerm, show (num (.rat a) : Expr D).isNumeric = true from rfl, if_true]
    exact tot_single _ rfl rfl

theorem tm_zero (h : a ≠ 0) : (tm a f x).isZero = false := by rcases tm_cases h f x with ⟨-, e⟩ | ⟨-, e⟩ <;> rw [e] <;> rfl
theorem tm_sum (h : a ≠ 0) : (tm a f x).isSum = false := by rcases tm_cases h f x with ⟨-, e⟩ | ⟨-, e⟩ <;> rw [e] <;> rfl
theorem tm_undef (h : a ≠ 0) : (tm a f x).isUndefined = false := by rcases tm_cases h f x with ⟨-, e⟩ | ⟨-, e⟩ <;> rw [e] <;> rfl
theorem tm_num (h : a ≠ 0) (n : Number D) : tm a f x ≠ .num n := by rcases tm_cases h f x with ⟨-, e⟩ | ⟨-, e⟩ <;> rw [e] <;> exact nofun

theorem tm_exact (hx : Exact x) (h : a ≠ 0) : Exact (tm a f x) := by
  have h1 : Exact (S f x) := exact_of_op (by simp) (by simp) (by
    simp only [operands, List.mem_cons, List.not_mem_nil, or_false, forall_eq_or_imp, forall_eq]
    exact ⟨exact_of_op (by simp) (by simp) (by simpa [operands] using hx), exact_ratE 2⟩)
  rcases tm_cases h f x with ⟨-, e⟩ | ⟨-, e⟩ <;> rw [e]
  · exact h1
  · exact exact_of_op (by simp) (by simp) (by simpa [operands] using ⟨exact_ratE a, h1⟩)

theorem S_ne (h : f ≠ g) : isEqual (S f x) (S g x) = false := by
  have : isEqual (.fn f x) (.fn g x) = false := by
    simp [isEqual, h]
  simp only [S, isEqual] at this ⊢
  simp [this, h]

/-- Two terms that are not numbers. -/
theorem twoOther {s1 s2 : Expr D} (h1 : s1.isZero = false) (h2 : s2.isZero = false) (h : (∀ n, s1 ≠ .num n) ∨ ∀ n, s2 ≠ .num n) (E : Eng D) :
    simplTwoSummandsWithoutSum E s1 s2 = simplTwoOther E s1 s2 := by
  unfold simplTwoSummandsWithoutSum
  simp only [h1, h2, Bool.false_eq_true, if_false]
  split
  · next a b => rcases h with h | h <;> exact absurd rfl (h _)
  · rfl

/-- A sine and a cosine. -/
theorem tot_two_terms (hx : Exact x) (ha : a ≠ 0) (hb : b ≠ 0) (hfg : f = .sin ∧ g = .cos ∨ f = .cos ∧ g = .sin) :
    Tot cfg (fun E => simplTwoSummands E (tm a f x) (tm b g x)) (if a = b then [num (.rat a)] else ordered (tm a f x) (tm b g x)) := by
  have hne : f ≠ g := by rcases hfg with ⟨rfl, rfl⟩ | ⟨rfl, rfl⟩ <;> decide
  simp only [simplTwoSummands, tm_sum ha, tm_sum hb, Bool.or_self, Bool.false_eq_true, if_false, twoOther (tm_zero ha) (tm_zero hb) (.inl (tm_num ha)), simplTwoOther]
  refine tot_bind (a := false) (tot_whenTrue ?_) ?_
  · unfold haveEqualNonConstTerms
    refine tot_bind (tm_nonConst ha) (tot_bind (tm_nonConst hb) ?_)
    simp only [show ∀ f, (S f x).isOne = false from fun _ => rfl, Bool.or_self, Bool.false_eq_true, if_false, S_ne hne]
    exact tot_pure _
  simp only [Bool.false_eq_true, if_false]
  refine tot_bind (a := false) (tot_whenTrue ?_) ?_
  · unfold haveEqualNonNumericTerms
    refine tot_bind (tm_nonNumeric ha) (tot_bind (tm_nonNumeric hb) ?_)
    simp only [S_ne hne]
    exact tot_pure _
  simp only [Bool.false_eq_true, if_false]
  refine tot_bind (a := decide (a = b)) (tot_whenTrue ?_) ?_
  · unfold haveContractableSinCos
    refine tot_bind (tm_nonConst ha) (tot_bind (tm_nonConst hb) (tot_bind (tm_const ha) (tot_bind (tm_const hb) ?_)))
    have e : isEqual (num (.rat a) : Expr D) (num (.rat b)) = decide (a = b) := by
      rw [Bool.eq_iff_iff]; simp [isEqual, eqv_rat]
    rw [e]
    by_cases hab : a = b
    · simp only [hab, decide_true, if_true]
      have e2 : (Number.rat 2 : Number D).eqv 2 = true := by
        rw [show (2 : Number D) = .rat 2 from rfl, eqv_rat]
      have ev : Tot cfg (fun _ => evalsTo (num (.rat 2) : Expr D) 2) true := by
        unfold evalsTo
        simp only [numEval_rat]
        refine tot_bind (tot_lift rfl) ?_
        simp only [e2]; exact tot_pure _
      have sc : areSinAndCos (.fn f x) (.fn g x) = true := by rcases hfg with ⟨rfl, rfl⟩ | ⟨rfl, rfl⟩ <;> rfl
      refine tot_bind (a := true) ?_ ?_
      · unfold areSinAndCosSquare
        simp only [show ∀ f, (S f x).isPower = true from fun _ => rfl, Bool.not_true, Bool.or_self, Bool.false_eq_true, if_false]
        refine tot_bind ev ?_
        simp only [if_true]
        refine tot_bind ev ?_
        simp only [Expr.base, sc, Bool.and_true]
        exact tot_pure _
      · simp only [if_true, haveEqualFirstOperands, Expr.base, operands, isEqual_refl hx]
        exact tot_pure _
    · simp only [hab, decide_false, Bool.false_eq_true, if_false]
      exact tot_pure _
  by_cases hab : a = b
  · simp only [hab, decide_true, if_true]
    exact tot_bind (tm_const hb) (tot_pure _)
  · simp only [hab, decide_false, Bool.false_eq_true, if_false]
    exact tot_pure _

/-- The cosine comes first. -/
theorem perm_S : doPermute (S .sin x) (S .cos x) = true ∧ doPermute (S .cos x) (S .sin x) = false := by
  have h1 : isEqual (.fn .sin x) (.fn .cos x) = false := by simp [isEqual]
  have h2 : isEqual (.fn .cos x) (.fn .sin x) = false := by simp [isEqual]
  have n1 : Fn.sin.name ≠ Fn.cos.name := by decide
  have k1 : doPermute (.fn .sin x) (.fn .cos x) = true := by
    rw [doPermute_eq]
    simp only [permStep, permSame, ne_eq, n1, not_false_eq_true, if_true]
    decide
  have k2 : doPermute (.fn .cos x) (.fn .sin x) = false := by
    rw [doPermute_eq]
    simp only [permStep, permSame, ne_eq, n1.symm, not_false_eq_true, if_true]
    decide
  constructor
  · rw [doPermute_eq]; simp only [permStep, permSame, h1, Bool.not_false, if_true]; exact k1
  · rw [doPermute_eq]; simp only [permStep, permSame, h2, Bool.not_false, if_true]; exact k2

theorem perm_tm (ha : a ≠ 0) (hb : b ≠ 0) : doPermute (tm a .sin x) (tm b .cos x) = true ∧ doPermute (tm b .cos x) (tm a .sin x) = false := by
  obtain ⟨k1, k2⟩ := perm_S (x := x)
  have e1 : isEqual (S .sin x) (S .cos x) = false := S_ne (by decide)
  have e2 : isEqual (S .cos x) (S .sin x) = false := S_ne (by decide)
  rcases tm_cases ha .sin x with ⟨-, h1⟩ | ⟨-, h1⟩ <;> rcases tm_cases hb .cos x with ⟨-, h2⟩ | ⟨-, h2⟩ <;> rw [h1, h2]
  · exact ⟨k1, k2⟩
  · constructor <;> rw [doPermute_eq] <;> simp only [permStep, permSame, permDiff, permLast, List.getLast?_cons_cons, List.getLast?_singleton, e1, e2, k1, k2, Bool.false_eq_true, if_false, Bool.not_false, Bool.not_true]
  · constructor <;> rw [doPermute_eq] <;> simp only [permStep, permSame, permDiff, permLast, List.getLast?_cons_cons, List.getLast?_singleton, e1, e2, k1, k2, Bool.false_eq_true, if_false, Bool.not_false, Bool.not_true]
  · constructor <;> rw [doPermute_eq] <;> simp [permStep, permSame, permLists, lexCmp, e1, e2, k1, k2]

theorem ordered_tm (ha : a ≠ 0) (hb : b ≠ 0) : ordered (tm a .sin x) (tm b .cos x) = [tm b .cos x, tm a .sin x] ∧
    ordered (tm b .cos x) (tm a .sin x) = [tm b .cos x, tm a .sin x] := by
  obtain ⟨k1, k2⟩ := perm_tm (x := x) ha hb
  simp [ordered, k1, k2]

theorem tm_ne (ha : a ≠ 0) (hb : b ≠ 0) (h : f ≠ g) : isEqual (tm a f x) (tm b g x) = false := by
  rcases tm_cases ha f x with ⟨-, h1⟩ | ⟨-, h1⟩ <;> rcases tm_cases hb g x with ⟨-, h2⟩ | ⟨-, h2⟩ <;> rw [h1, h2]
  · exact S_ne h
  · simp [isEqual]
  · simp [isEqual]
  · have := S_ne (x := x) h
    simp only [S] at this ⊢
    rw [isEqual]
    simp [areEqual, this]

/-- A number and a term. -/
theorem tot_num_tm {p : ℚ} (hp : p ≠ 0) (ha : a ≠ 0) : Tot cfg (fun E => simplTwoSummands E (num (.rat p)) (tm a f x)) [num (.rat p), tm a f x] ∧
    Tot cfg (fun E => simplTwoSummands E (tm a f x) (num (.rat p))) [num (.rat p), tm a f x] := by
  have z : (num (.rat p) : Expr D).isZero = false := by rw [isZero_ratE]; simpa using hp
  have o1 : ∀ g, isEqual (one : Expr D) (S g x) = false := fun _ => rfl
  have o2 : ∀ g, isEqual (S g x) (one : Expr D) = false := fun _ => rfl
  have i1 : (one : Expr D).isOne = true := by rw [one_eq, isOne_ratE]; decide
  have hc : Tot cfg (fun E => constTerm E (num (.rat p))) (num (.rat p)) := tot_pure _
  have hn : Tot cfg (fun E => nonConstTerm E (num (.rat p))) one := tot_pure _
  have hm : Tot cfg (fun E => nonNumericTerm E (num (.rat p))) one := tot_pure _
  have w1 : doPermute (num (.rat p)) (tm a f x) = false := by
    rw [doPermute_eq]; rcases tm_cases ha f x with ⟨-, h1⟩ | ⟨-, h1⟩ <;> rw [h1] <;> rfl
  have w2 : doPermute (tm a f x) (num (.rat p)) = true := by
    rw [doPermute_eq]; rcases tm_cases ha f x with ⟨-, h1⟩ | ⟨-, h1⟩ <;> rw [h1] <;> rfl
  constructor
  · simp only [simplTwoSummands, tm_sum ha, show (num (.rat p) : Expr D).isSum = false from rfl, Bool.or_self, Bool.false_eq_true, if_false,
      twoOther z (tm_zero ha) (.inr (tm_num ha)), simplTwoOther]
    refine tot_bind (a := false) (tot_whenTrue ?_) ?_
    · unfold haveEqualNonConstTerms
      refine tot_bind hn (tot_bind (tm_nonConst ha) ?_)
      simp only [i1, Bool.true_or, if_true]; exact tot_pure _
    simp only [Bool.false_eq_true, if_false]
    refine tot_bind (a := false) (tot_whenTrue ?_) ?_
    · unfold haveEqualNonNumericTerms
      refine tot_bind hm (tot_bind (tm_nonNumeric ha) ?_)
      simp only [o1]; exact tot_pure _
    simp only [Bool.false_eq_true, if_false]
    refine tot_bind (a := false) (tot_whenTrue ?_) ?_
    · unfold haveContractableSinCos
      refine tot_bind hn (tot_bind (tm_nonConst ha) (tot_bind hc (tot_bind (tm_const ha) ?_)))
      have : areSinAndCosSquare (one : Expr D) (S f x) = pure false := rfl
      simp only [this]
      split
      · exact tot_bind (tot_pure _) (by simp only [Bool.false_eq_true, if_false]; exact tot_pure _)
      · exact tot_pure _
    simp only [Bool.false_eq_true, if_false, ordered, w1]
    exact tot_pure _
  · simp only [simplTwoSummands, tm_sum ha, show (num (.rat p) : Expr D).isSum = false from rfl, Bool.or_self, Bool.false_eq_true, if_false,
      twoOther (tm_zero ha) z (.inl (tm_num ha)), simplTwoOther]
    refine tot_bind (a := false) (tot_whenTrue ?_) ?_
    · unfold haveEqualNonConstTerms
      refine tot_bind (tm_nonConst ha) (tot_bind hn ?_)
      simp only [i1, Bool.or_true, if_true]; exact tot_pure _
    simp only [Bool.false_eq_true, if_false]
    refine tot_bind (a := false) (tot_whenTrue ?_) ?_
    · unfold haveEqualNonNumericTerms
      refine tot_bind (tm_nonNumeric ha) (tot_bind hm ?_)
      simp only [o2]; exact tot_pure _
    simp only [Bool.false_eq_true, if_false]
    refine tot_bind (a := false) (tot_whenTrue ?_) ?_
    · unfold haveContractableSinCos
      refine tot_bind (tm_nonConst ha) (tot_bind hn (tot_bind (tm_const ha) (tot_bind hc ?_)))
      have : areSinAndCosSquare (S f x) (one : Expr D) = pure false := rfl
      simp only [this]
      split
      · exact tot_bind (tot_pure _) (by simp only [Bool.false_eq_true, if_false]; exact tot_pure _)
      · exact tot_pure _
    simp only [Bool.false_eq_true, if_false, ordered, w2, if_true]
    exact tot_pure _

/-- The sum of a list of terms: nothing, a term, or a sum. -/
def mk : List (Expr D) → Expr D
  | [] => zero
  | [r] => r
  | l => .sum l

theorem tot_sumCreate {l r : List (Expr D)} (h : l.any isUndefined = false) (hl : l.length ≠ 1) (hr : Tot cfg (fun E => E.sumSimplify l) r) :
    Tot cfg (fun E => sumCreate E l) (mk r) := by
  unfold sumCreate
  rw [h]
  simp only [Bool.false_eq_true, if_false]
  match l, hl with
  | [], _ =>
    refine tot_bind hr ?_
    match r with
    | [] => exact tot_pure _
    | [_] => exact tot_pure _
    | _ :: _ :: _ => exact tot_pure _
  | _ :: _ :: _, _ =>
    refine tot_bind hr ?_
    match r with
    | [] => exact tot_pure _
    | [_] => exact tot_pure _
    | _ :: _ :: _ => exact tot_pure _

theorem tot_sum_two {u v : Expr D} {r : List (Expr D)} (hu : u.isUndefined = false) (hv : v.isUndefined = false)
    (hr : Tot cfg (fun E => simplTwoSummands E u v) r) : Tot cfg (fun E => sumCreate E [u, v]) (mk r) :=
  tot_sumCreate (by simp [hu, hv]) (by simp) (tot_sumSimplify (by unfold simplSum; exact hr))

/-- The terms that are not zero, cosine first. -/
def terms (a b : ℚ) (x : Expr D) : List (Expr D) :=
  (if b = 0 then [] else [tm b .cos x]) ++ if a = 0 then [] else [tm a .sin x]

/-- The sum of two squares. -/
def two (a b : ℚ) (x : Expr D) : Expr D := if a = b then num (.rat a) else mk (terms a b x)

theorem tm0 (f : Fn) (x : Expr D) : tm 0 f x = num (.rat 0) := by simp [tm]

theorem tm_undef' (a : ℚ) : (tm a f x).isUndefined = false := by
  by_cases h : a = 0
  · rw [h, tm0]; rfl
  · exact tm_undef h

theorem tm_sum' (a : ℚ) : (tm a f x).isSum = false := by
  by_cases h : a = 0
  · rw [h, tm0]; rfl
  · exact tm_sum h

theorem tot_zero_left (v : Expr D) (hv : v.isSum = false) : Tot cfg (fun E => simplTwoSummands E (num (.rat 0)) v) [v] := by
  have z : (num (.rat 0) : Expr D).isZero = true := by rw [isZero_ratE]; decide
  simp only [simplTwoSummands, show (num (.rat 0) : Expr D).isSum = false from rfl, hv, Bool.or_self, Bool.false_eq_true, if_false, simplTwoSummandsWithoutSum, z, if_true]
  exact tot_pure _

theorem tot_zero_right (v : Expr D) (hv : v.isSum = false) (h : v.isZero = false) : Tot cfg (fun E => simplTwoSummands E v (num (.rat 0))) [v] := by
  have z : (num (.rat 0) : Expr D).isZero = true := by rw [isZero_ratE]; decide
  simp only [simplTwoSummands, show (num (.rat 0) : Expr D).isSum = false from rfl, hv, h, Bool.or_self, Bool.false_eq_true, if_false, simplTwoSummandsWithoutSum, z, if_true]
  exact tot_pure _

theorem tot_two_sum (hx : Exact x) (a b : ℚ) : Tot cfg (fun E => sumCreate E [tm a .sin x, tm b .cos x]) (two a b x) ∧
    Tot cfg (fun E => sumCreate E [tm b .cos x, tm a .sin x]) (two a b x) := by
  suffices h : ∃ r : List (Expr D), mk r = two a b x ∧ Tot cfg (fun E => simplTwoSummands E (tm a .sin x) (tm b .cos x)) r ∧
      Tot cfg (fun E => simplTwoSummands E (tm b .cos x) (tm a .sin x)) r by
    obtain ⟨r, e, h1, h2⟩ := h
    exact ⟨e ▸ tot_sum_two (tm_undef' a) (tm_undef' b) h1, e ▸ tot_sum_two (tm_undef' b) (tm_undef' a) h2⟩
  by_cases ha : a = 0
  · by_cases hb : b = 0
    · subst ha hb
      exact ⟨[num (.rat 0)], by simp [mk, two], by rw [tm0, tm0]; exact tot_zero_left _ rfl, by rw [tm0, tm0]; exact tot_zero_left _ rfl⟩
    · subst ha
      exact ⟨[tm b .cos x], by simp [mk, two, terms, hb, Ne.symm hb], by rw [tm0]; exact tot_zero_left _ (tm_sum hb), by
        rw [tm0]; exact tot_zero_right _ (tm_sum hb) (tm_zero hb)⟩
  · by_cases hb : b = 0
    · subst hb
      exact ⟨[tm a .sin x], by simp [mk, two, terms, ha], by rw [tm0]; exact tot_zero_right _ (tm_sum ha) (tm_zero ha), by
        rw [tm0]; exact tot_zero_left _ (tm_sum ha)⟩
    · have h1 := tot_two_terms (cfg := cfg) hx ha hb (.inl ⟨rfl, rfl⟩)
      have h2 := tot_two_terms (cfg := cfg) hx hb ha (.inr ⟨rfl, rfl⟩)
      rw [(ordered_tm ha hb).1] at h1
      rw [(ordered_tm ha hb).2] at h2
      by_cases hab : a = b
      · subst hab
        simp only [if_true] at h1 h2
        exact ⟨_, by simp [mk, two], h1, h2⟩
      · simp only [hab, Ne.symm hab, if_false] at h1 h2
        exact ⟨_, by simp [mk, two, terms, ha, hb, hab], h1, h2⟩

/-! ## With a number -/

theorem areEqual_two {u v : Expr D} (hu : Exact u) (hv : Exact v) : areEqual [u, v] [u, v] = true := by
  simp [areEqual, isEqual_refl hu, isEqual_refl hv]

theorem tot_merge_nil (l : List (Expr D)) : Tot cfg (fun E => E.mergeSum [] l) l := tot_mergeSum (tot_pure _)

theorem tot_merge_nil' (l : List (Expr D)) : Tot cfg (fun E => E.mergeSum l []) l := by
  cases l <;> exact tot_mergeSum (tot_pure _)

/-- The first element of the first list comes first. -/
theorem tot_merge_left {p q : Expr D} {l m r : List (Expr D)} (hp : Exact p) (hq : Exact q) (h : Tot cfg (fun E => simplTwoSummands E p q) [p, q])
    (hr : Tot cfg (fun E => E.mergeSum l (q :: m)) r) : Tot cfg (fun E => E.mergeSum (p :: l) (q :: m)) (p :: r) := by
  refine tot_mergeSum ?_
  unfold mergeSum
  refine tot_bind h ?_
  simp only [areEqual_two hp hq, if_true]
  exact tot_bind hr (tot_pure _)

/-- The first element of the second list comes first. -/
theorem tot_merge_right {p q : Expr D} {l m r : List (Expr D)} (hp : Exact p) (hq : Exact q) (hne : isEqual q p = false)
    (h : Tot cfg (fun E => simplTwoSummands E p q) [q, p])
    (hr : Tot cfg (fun E => E.mergeSum (p :: l) m) r) : Tot cfg (fun E => E.mergeSum (p :: l) (q :: m)) (q :: r) := by
  refine tot_mergeSum ?_
  unfold mergeSum
  refine tot_bind h ?_
  have : areEqual [q, p] [p, q] = false := by simp [areEqual, hne]
  simp only [areEqual_two hq hp, this, Bool.false_eq_true, if_false, if_true]
  exact tot_bind hr (tot_pure _)

/-- A number and one term. -/
theorem tot_num_sum {p : ℚ} (hp : p ≠ 0) (ha : a ≠ 0) (f : Fn) : Tot cfg (fun E => sumCreate E [num (.rat p), tm a f x]) (.sum [num (.rat p), tm a f x]) :=
  tot_sum_two (r := [num (.rat p), tm a f x]) rfl (tm_undef ha) (tot_num_tm hp ha).1

/-- A number and the sum of two terms. -/
theorem tot_right (hx : Exact x) {p : ℚ} (hp : p ≠ 0) (h : a ≠ b) :
    Tot cfg (fun E => sumCreate E [num (.rat p), two a b x]) (.sum (num (.rat p) :: terms a b x)) := by
  simp only [two, if_neg h]
  by_cases ha : a = 0
  · have hb : b ≠ 0 := fun e => h (ha.trans e.symm)
    simp only [ha, hb, terms, if_true, if_false, List.append_nil, mk]
    exact tot_num_sum hp hb _
  · by_cases hb : b = 0
    · simp only [ha, hb, terms, if_true, if_false, List.nil_append, mk]
      exact tot_num_sum hp ha _
    · simp only [ha, hb, terms, if_false, List.cons_append, List.nil_append, mk]
      refine tot_sum_two (r := [num (.rat p), tm b .cos x, tm a .sin x]) rfl rfl ?_
      simp only [simplTwoSummands, Expr.isSum, Bool.or_true, if_true, summands]
      exact tot_merge_left (exact_ratE _) (tm_exact hx hb) (tot_num_tm hp hb).1 (tot_merge_nil _)

theorem two_sum {l : List (Expr D)} (ha : a ≠ 0) (E : Eng D) : simplTwoSummands E (.sum l) (tm a f x) = E.mergeSum l [tm a f x] := by
  rcases tm_cases ha f x with ⟨-, h1⟩ | ⟨-, h1⟩ <;> rw [h1] <;> rfl

/-- The sum of a number and a term, and another term. -/
theorem tot_left (hx : Exact x) {p : ℚ} (hp : p ≠ 0) (ha : a ≠ 0) (hb : b ≠ 0) :
    Tot cfg (fun E => sumCreate E [.sum [num (.rat p), tm b .cos x], tm a .sin x])
      (.sum (num (.rat p) :: if a = b then [num (.rat a)] else [tm b .cos x, tm a .sin x])) ∧
    Tot cfg (fun E => sumCreate E [.sum [num (.rat p), tm a .sin x], tm b .cos x])
      (.sum (num (.rat p) :: if a = b then [num (.rat a)] else [tm b .cos x, tm a .sin x])) := by
  have hm : ∀ l : List (Expr D), l ≠ [] → mk (num (.rat p) :: l) = .sum (num (.rat p) :: l) := by
    intro l hl; cases l
    · exact absurd rfl hl
    · rfl
  have hne : (if a = b then [num (.rat a)] else [tm b .cos x, tm a .sin x] : List (Expr D)) ≠ [] := by split <;> simp
  have hz : (num (.rat a) : Expr D).isZero = false := by rw [isZero_ratE]; simpa using ha
  rw [← hm _ hne]
  constructor
  · refine tot_sum_two rfl (tm_undef ha) ?_
    simp only [two_sum ha]
    refine tot_merge_left (exact_ratE _) (tm_exact hx ha) (tot_num_tm hp ha).1 ?_
    have h2 := tot_two_terms (cfg := cfg) hx hb ha (.inr ⟨rfl, rfl⟩)
    rw [(ordered_tm ha hb).2] at h2
    by_cases hab : a = b
    · subst hab
      simp only [if_true] at h2 ⊢
      refine tot_mergeSum ?_
      unfold mergeSum
      refine tot_bind h2 ?_
      simp only [hz, Bool.false_eq_true, if_false]
      exact tot_bind (tot_merge_nil _) (tot_pure _)
    · simp only [hab, Ne.symm hab, if_false] at h2 ⊢
      exact tot_merge_left (tm_exact hx hb) (tm_exact hx ha) h2 (tot_merge_nil _)
  · refine tot_sum_two rfl (tm_undef hb) ?_
    simp only [two_sum hb]
    refine tot_merge_left (exact_ratE _) (tm_exact hx hb) (tot_num_tm hp hb).1 ?_
    have h2 := tot_two_terms (cfg := cfg) hx ha hb (.inl ⟨rfl, rfl⟩)
    rw [(ordered_tm ha hb).1] at h2
    by_cases hab : a = b
    · subst hab
      simp only [if_true] at h2 ⊢
      refine tot_mergeSum ?_
      unfold mergeSum
      refine tot_bind h2 ?_
      simp only [hz, Bool.false_eq_true, if_false]
      exact tot_bind (tot_merge_nil _) (tot_pure _)
    · simp only [hab, if_false] at h2 ⊢
      exact tot_merge_right (tm_exact hx ha) (tm_exact hx hb) (tm_ne hb ha (by decide)) h2 (tot_merge_nil' _)

end Pyth

end Tsym
