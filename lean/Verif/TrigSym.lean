import Verif.PolySign
import Verif.QuotNormal
import Verif.Props.PolySign

set_option autoImplicit false
set_option linter.unusedSectionVars false
set_option linter.unusedSimpArgs false
set_option linter.unusedVariables false

/-!
# Functions of polynomials: products of a number and a function, symmetry
-/

namespace Tsym

open Expr

variable {D : Type} [Flt D] [LawfulFlt D] {cfg : Cfg D}

/-! ## Loops that change nothing -/

/-- contract, if no two factors can be contracted. -/
theorem tot_contract_pw {check : Expr D → Expr D → M D Bool} {simpl : Eng D → Expr D → Expr D → M D (List (Expr D))}
    {u : List (Expr D)} (h : u.Pairwise fun x y => check x y = pure false) :
    Tot cfg (fun E => contract E check (simpl E) u) u := by
  unfold contract
  match u with
  | [] => exact tot_pure _
  | x :: l =>
    simp only [contractStart]
    refine tot_loop (f := fun E => contractStep check (simpl E)) ?_
    suffices key : ∀ (a b : ℕ) (pre mid rest : List (Expr D)) (x : Expr D) (u : List (Expr D)),
        (u.Pairwise fun x y => check x y = pure false) →
        pre ++ x :: (mid ++ rest) = u → mid.length + rest.length = a → rest.length = b →
        Rounds cfg (fun E => contractStep check (simpl E)) u ⟨pre, x, mid, rest, false, false⟩ by
      exact key _ _ [] [] l x _ h rfl rfl rfl
    intro a
    induction a using Nat.strong_induction_on with
    | _ a iha =>
    intro b
    induction b with
    | zero =>
      intro pre mid rest x u h hu ha hb
      obtain rfl := List.length_eq_zero_iff.1 hb
      match mid with
      | [] =>
        refine .done _ ?_
        simp only [contractStep, Bool.false_eq_true, if_false]
        rw [← hu]
        exact tot_pure _
      | m :: ms =>
        refine .next _ ⟨pre ++ [x], m, [], ms, false, false⟩ ?_ ?_
        · simp only [contractStep, Bool.false_eq_true, if_false]
          exact tot_pure _
        · refine iha ms.length ?_ ms.length (pre ++ [x]) [] ms m u h ?_ (by simp) rfl
          · simp at ha; omega
          · simpa using hu
    | succ b ihb =>
      intro pre mid rest x u h hu ha hb
      match rest with
      | y :: rest =>
        refine .next _ ⟨pre, x, mid ++ [y], rest, false, false⟩ ?_ ?_
        · simp only [contractStep]
          have hxy : check x y = pure false := by
            rw [← hu, List.pairwise_append] at h
            exact (List.pairwise_cons.1 h.2.1).1 y (by simp)
          rw [hxy]
          exact tot_bind (tot_pure false) (tot_pure _)
        · refine ihb pre (mid ++ [y]) rest x u h (by simpa using hu) ?_ (by simpa using hb)
          simp at ha ⊢; omega

theorem num_not_trig (n : Number D) : isContractableTrigFctPower (.num n : Expr D) = pure false := rfl

/-- The first factor is a number. -/
theorem num_trig_pair (n : Number D) (y : Expr D) : areContractableTrigFctPowers (.num n : Expr D) y = pure false := by
  unfold areContractableTrigFctPowers
  rw [num_not_trig]; rfl

/-! ## Preparation of a list of factors -/

/-- A rational number, or a factor that is no number and no power of numbers. -/
def GItem (e : Expr D) : Prop :=
  (∃ q : ℚ, e = .num (.rat q)) ∨ (e.isNumeric = false ∧ isContractableConst e = false ∧ e.isNumericPower = false)

theorem GItem.contr {e : Expr D} (h : GItem e) : isContractableConst e = e.isNumeric := by
  rcases h with ⟨q, rfl⟩ | ⟨h1, h2, h3⟩
  · rfl
  · rw [h1, h2]

theorem GItem.numPow {e : Expr D} (h : GItem e) : e.isNumericPower = false := by
  rcases h with ⟨q, rfl⟩ | ⟨h1, h2, h3⟩
  · rfl
  · exact h3

theorem GItem.pon {l : List (Expr D)} (h : ∀ e ∈ l, GItem e) (p : ℚ) :
    productOfNumerics (.rat p) l = (.rat (p * qs l) : Number D) := by
  induction l generalizing p with
  | nil => simp [productOfNumerics, qs]
  | cons e l ih =>
    have ih := ih fun x hx => h x (by simp [hx])
    unfold qs at ih ⊢
    rcases h e (by simp) with ⟨q, rfl⟩ | ⟨h1, h2, h3⟩
    · simp only [productOfNumerics, Number.mul, ih, List.map_cons, List.prod_cons, qOf, mul_assoc]
    · simp only [List.map_cons, List.prod_cons]
      cases e <;> simp_all [productOfNumerics, Expr.isNumeric, qOf]

theorem tot_prepare_gen (hc : cfg.Ok) {l : List (Expr D)} (h : ∀ e ∈ l, GItem e) :
    ∃ P, P.Perm (l.filter fun e => !e.isNumeric) ∧ Tot cfg (fun E => prepareConst E l)
      (if qs l ≠ 1 ∨ P = [] then .num (.rat (qs l)) :: P else P) := by
  have hp := hc.sort doPermute l
  refine ⟨(cfg.sort doPermute l).filter fun e => !e.isNumeric, hp.filter _, ?_⟩
  have hcfg : ∀ n, (eng cfg n).cfg = cfg := fun n => by
    induction n with
    | zero => rfl
    | succ n ih => exact ih
  set P := (cfg.sort doPermute l).filter fun e => !e.isNumeric with hP
  have e1 : contractNumerics (cfg.sort doPermute l) = if qs l ≠ 1 ∨ P = [] then .num (.rat (qs l)) :: P else P := by
    unfold contractNumerics
    have h1 : (1 : Number D) = .rat 1 := by change Number.rat ((1 : ℕ) : ℚ) = _; norm_num
    rw [h1, GItem.pon fun e he => h e (hp.mem_iff.1 he), qs_perm hp, one_mul, ← h1, eqv_rat_one, ← hP]
    simp
  set v := if qs l ≠ 1 ∨ P = [] then Expr.num (.rat (qs l)) :: P else P with hv
  have hiP : ∀ e ∈ P, GItem e := fun e he => h e (hp.mem_iff.1 (List.mem_filter.1 he).1)
  have hnP : ∀ e ∈ P, e.isNumeric = false := fun e he => by simpa using (List.mem_filter.1 he).2
  have hi : ∀ e ∈ v, GItem e := by
    intro e he
    rw [hv] at he
    split at he
    · rcases List.mem_cons.1 he with rfl | he
      · exact .inl ⟨_, rfl⟩
      · exact hiP e he
    · exact hiP e he
  have key : Tot cfg (fun E => contractConst E v >>= fun u =>
      contract E (fun a b => pure (areNumPowersWithEqualExp a b)) (simplTwoEqualExp E) u >>= fun u =>
        contract E (fun a b => pure (areNumPowersWithEqualExpDenom a b)) (simplTwoEqualExpDenom E) u) v := by
    refine tot_bind (a := v) (tot_contractConst ?_) (tot_bind (a := v) ?_ ?_)
    · intro i j x y hij hx hy
      rw [(hi x (List.mem_of_getElem? hx)).contr, (hi y (List.mem_of_getElem? hy)).contr]
      by_contra hcon
      simp only [Bool.not_eq_false, Bool.and_eq_true] at hcon
      have tail : ∀ (k : ℕ) (e : Expr D), v[k + 1]? = some e → e.isNumeric = false := by
        intro k e he
        rw [hv] at he
        split at he
        · rw [List.getElem?_cons_succ] at he
          exact hnP e (List.mem_of_getElem? he)
        · exact hnP e (List.mem_of_getElem? he)
      rcases i with _ | i
      · rcases j with _ | j
        · exact hij rfl
        · rw [tail j y hy] at hcon; simp at hcon
      · rw [tail i x hx] at hcon; simp at hcon
    · refine tot_contract (simpl := fun E => simplTwoEqualExp E) fun x hx y hy => ?_
      unfold areNumPowersWithEqualExp
      rw [(hi x hx).numPow]; rfl
    · refine tot_contract (simpl := fun E => simplTwoEqualExpDenom E) fun x hx y hy => ?_
      have := (hi x hx).numPow
      unfold areNumPowersWithEqualExpDenom
      split
      · simp [Expr.isNumericPower, Expr.isNumeric] at this
      · rfl
  obtain ⟨N, hN⟩ := key
  refine ⟨N, fun n hn => ?_⟩
  unfold prepareConst
  dsimp only
  rw [hcfg, e1]
  exact hN n hn

theorem GItem.fn (f : Fn) (x : Expr D) : GItem (.fn f x : Expr D) := .inr ⟨rfl, by simp [isContractableConst, isConst], rfl⟩
theorem GItem.mOne : GItem (mOne : Expr D) := .inl ⟨-1, mOne_rat⟩

/-! ## A number and a function -/

section atoms

variable {f : Fn} {x : Expr D} (hx : Exact x)
include hx

theorem exact_fn : Exact (.fn f x : Expr D) := by
  refine exact_of_op (by simp) (by simp) fun o ho => ?_
  simp only [operands, List.mem_cons, List.not_mem_nil, or_false] at ho
  rw [ho]; exact hx

theorem tot_two_num_fn {q : ℚ} (hq : q ≠ 1) :
    Tot cfg (fun E => simplTwoFactors E (.num (.rat q)) (.fn f x)) [.num (.rat q), .fn f x] := by
  have hb : haveEqualBases (.num (.rat q)) (.fn f x : Expr D) = false := by
    unfold haveEqualBases
    exact isEqual_ne (exact_ratE _) (exact_fn hx) (by simp [Expr.base])
  have hp : doPermute (.num (.rat q)) (.fn f x : Expr D) = false := by
    rw [doPermute_eq]; simp [permStep, permSame, permDiff]
  simp only [simplTwoFactors, Expr.isProduct, Bool.or_self, Bool.false_eq_true, if_false,
    simplTwoFactorsWithoutProduct, isOne_ratE, hq, decide_false, show (Expr.fn f x).isOne = false from rfl,
    show (Expr.fn f x).isConst = false by simp [isConst], Bool.and_false, hb, ordered, hp]
  exact tot_pure _

/-- A number times a function. -/
theorem tot_num_fn {q : ℚ} (h0 : q ≠ 0) (hq : q ≠ 1) :
    Tot cfg (fun E => prodCreate E [.num (.rat q), .fn f x]) (.prod [.num (.rat q), .fn f x]) := by
  have z : (num (.rat q) : Expr D).isZero = false := by rw [isZero_ratE]; simpa using h0
  simp only [prodCreate, List.any_cons, List.any_nil, show (Expr.num (.rat q) : Expr D).isUndefined = false from rfl,
    show (Expr.fn f x).isUndefined = false from rfl, z, show (Expr.fn f x).isZero = false from rfl, Bool.or_self, Bool.false_eq_true, if_false]
  refine tot_bind (a := [.num (.rat q), .fn f x]) (tot_prodSimplify ?_) ?_
  · unfold simplProd
    refine tot_bind (a := [.num (.rat q), .fn f x]) (tot_extract (u := [.num (.rat q), .fn f x]) (by simp)) ?_
    refine tot_bind (a := [.num (.rat q), .fn f x]) (tot_contract_pw (simpl := fun E => contractTrigFctPowers E) ?_) ?_
    · simp [num_trig_pair]
    · exact tot_two_num_fn hx hq
  · simp only
    have : needsExpansion [num (Number.rat q), fn f x] = false := by
      simp [needsExpansion, constElements, nonConstElements, isConst, Expr.isSum]
    simp only [this, Bool.false_eq_true, if_false]
    exact tot_pure _

theorem tot_minus_fn : Tot cfg (fun E => E.minus (.fn f x)) (.prod [mOne, .fn f x]) := by
  unfold Eng.minus
  have := tot_num_fn (cfg := cfg) (f := f) hx (q := -1) (by norm_num) (by norm_num)
  rw [mOne_rat]
  exact tot_prod this

/-- Twice the sign. -/
theorem tot_minus_minus_fn (hc : cfg.Ok) : Tot cfg (fun E => E.minus (.prod [mOne, .fn f x])) (.fn f x : Expr D) := by
  unfold Eng.minus
  refine tot_prod ?_
  have z : (mOne : Expr D).isZero = false := by rw [mOne_rat, isZero_ratE]; simp
  simp only [prodCreate, List.any_cons, List.any_nil, show (mOne : Expr D).isUndefined = false from rfl,
    show (Expr.prod [mOne, Expr.fn f x]).isUndefined = false from rfl, z, show (Expr.prod [mOne, Expr.fn f x]).isZero = false from rfl,
    Bool.or_self, Bool.false_eq_true, if_false]
  refine tot_bind (a := [.fn f x]) (tot_prodSimplify ?_) (by simp only; exact tot_pure _)
  unfold simplProd
  refine tot_bind (a := [mOne, mOne, .fn f x]) ?_ ?_
  · have := tot_extract (cfg := cfg) (u := [mOne, .prod [mOne, .fn f x]]) (by
      intro l hl y hy
      simp only [List.mem_cons, List.not_mem_nil, or_false, Expr.prod.injEq] at hl
      rcases hl with hl | hl
      · cases hl
      · subst hl
        simp only [List.mem_cons, List.not_mem_nil, or_false] at hy
        rcases hy with rfl | rfl <;> rfl)
    exact this
  refine tot_bind (a := [mOne, mOne, .fn f x]) (tot_contract_pw (simpl := fun E => contractTrigFctPowers E) ?_) ?_
  · simp [mOne_rat, num_trig_pair]
  · obtain ⟨P, hP, hT⟩ := tot_prepare_gen (cfg := cfg) hc (l := [mOne, mOne, .fn f x]) (by simp [GItem.fn, GItem.mOne])
    have e : [mOne, mOne, Expr.fn f x].filter (fun e => !e.isNumeric) = [Expr.fn f x] := rfl
    rw [e, List.perm_singleton] at hP
    subst hP
    have e2 : qs [mOne, mOne, Expr.fn f x] = 1 := by
      simp [qs, qOf, mOne_rat]
    rw [e2] at hT
    simp only [ne_eq, not_true_eq_false, false_or, reduceCtorEq, if_false] at hT
    exact tot_bind hT (by simp only [simplPreparedFactors]; exact tot_pure _)

end atoms

/-! ## The test for symmetry -/

theorem tot_trig {f : Fn} {e : Expr D} {a : Expr D} (h : Tot cfg (fun E => trigCreate E f e) a) : Tot cfg (fun E => E.trigCreate f e) a :=
  tot_succ (fun _ => rfl) h

/-- All coefficients are negative. -/
def AllNeg (p : MvPolynomial Sym ℚ) : Prop := ∀ d ∈ p.support, p.coeff d < 0

theorem EL.allNeg {L : List (Mono D)} (h : EL L) : AllNeg (psum L) ↔ ∀ m ∈ L, m.1 < 0 := by
  constructor
  · intro hn m hm
    obtain ⟨K, hK⟩ := h.ks.key m hm
    have := hn _ (h.mem_support hm hK)
    rwa [((h.coeff hK).1 hm).1] at this
  · intro hn d hd
    obtain ⟨m, hm, K, hK, rfl⟩ := h.of_support hd
    rw [((h.coeff hK).1 hm).1]
    exact hn m hm

theorem tot_allNegative {L : List (Mono D)} (h : EL L) :
    Tot cfg (fun E => haveAllNegativePrefactors E (L.map em)) (L.all fun m => decide (m.1 < 0)) := by
  obtain ⟨hne, hkey⟩ : (∀ m ∈ L, m.1 ≠ 0) ∧ ∀ m ∈ L, ∃ K, IsKey m.2 K := ⟨h.ne, h.ks.key⟩
  clear h
  induction L with
  | nil => simp only [List.map_nil, haveAllNegativePrefactors, List.all_nil]; exact tot_pure _
  | cons m L ih =>
    have ih := ih (fun x hx => hne x (by simp [hx])) fun x hx => hkey x (by simp [hx])
    obtain ⟨K, hK⟩ := hkey m (by simp)
    have hm := hne m (by simp)
    simp only [List.map_cons, haveAllNegativePrefactors, List.all_cons]
    refine tot_bind (tot_constTerm hm hK.pfacs) (tot_bind (tot_isPos (sg_num m.1).pos) ?_)
    by_cases h0 : 0 < m.1
    · have e1 : sgq m.1 = 1 := sgq_pos.2 h0
      have e2 : ¬ m.1 < 0 := by linarith
      simp only [e1, decide_true, if_true, e2, decide_false, Bool.false_and]
      exact tot_pure _
    · have e1 : ¬ sgq m.1 = 1 := fun h => h0 (sgq_pos.1 h)
      have e2 : m.1 < 0 := lt_of_le_of_ne (not_lt.1 h0) hm
      simp only [e1, decide_false, Bool.false_eq_true, if_false, e2, decide_true, Bool.true_and]
      exact ih

/-- A polynomial that is not a number. -/
structure NC (r : Expr D) : Prop where
  ep : EP r
  nc : ∀ c, poly r ≠ MvPolynomial.C c

theorem NC.ne_zero {r : Expr D} (h : NC r) : poly r ≠ 0 := fun e => h.nc 0 (by rw [e, map_zero])

theorem NC.cases {r : Expr D} (h : NC r) :
    (∃ m K, m.1 ≠ 0 ∧ IsKey m.2 K ∧ m.2 ≠ [] ∧ r = em m) ∨ ∃ L, EL L ∧ 2 ≤ L.length ∧ r = .sum (L.map em) := by
  rcases h.ep.cases with e | ⟨m, K, hm, hK, e⟩ | h'
  · exact absurd (by rw [e, poly_zero]) h.ne_zero
  · refine .inl ⟨m, K, hm, hK, ?_, e⟩
    intro hn
    refine h.nc m.1 ?_
    rw [e]
    have : em m = num (.rat m.1) := by unfold em; rw [hn, num_mexpr]
    rw [this, poly_ratE]
  · exact .inr h'

theorem NC.eval {r : Expr D} (h : NC r) : numEval r = .ok none := by
  rcases h.cases with ⟨m, K, hm, hK, hne, rfl⟩ | ⟨L, hL, h2, rfl⟩
  · exact mexpr_eval (hK.pfacs (cfg := Cfg.std 0)) hne
  · exact (pbase_sum (hL.sl (cfg := Cfg.std 0) (B := fun _ => True) (by simp)) h2).eval

theorem NC.exact {r : Expr D} (h : NC r) : Exact r := h.ep.exact

theorem NC.neg {r r' : Expr D} (h : NC r) (h' : EP r') (hp : poly r' = - poly r) : NC r' :=
  ⟨h', fun c hc => h.nc (-c) (by rw [map_neg, ← hc, hp, neg_neg])⟩

/-- Product::minus for a polynomial. -/
theorem NC.tot_minus (hc : cfg.Ok) {r r' : Expr D} (h : NC r) (h' : EP r') (hp : poly r' = - poly r) : Tot cfg (fun E => E.minus r) r' := by
  obtain ⟨x, hx, ex, px⟩ := tot_prod_mix (cfg := cfg) hc (A := [mOne, r]) (by simp) (by
    intro e he
    simp only [List.mem_cons, List.not_mem_nil, or_false] at he
    rcases he with rfl | rfl
    · rw [mOne_rat]; exact ⟨EP.num _, by rw [poly_ratE]; simp⟩
    · exact ⟨h.ep, h.ne_zero⟩) (.inr ⟨[mOne], r, [], rfl, by simp [mOne_rat]⟩)
  have : x = r' := ex.unique h' (by rw [px, hp, mOne_rat]; simp [poly_ratE])
  rw [this] at hx
  exact hx

open Classical in
theorem NC.tot_symm (hc : cfg.Ok) {r : Expr D} (h : NC r) : Tot cfg (fun E => doesSymmetryApply E r) (decide (AllNeg (poly r))) := by
  rcases h.cases with ⟨m, K, hm, hK, hne, rfl⟩ | ⟨L, hL, h2, rfl⟩
  · have key : AllNeg (poly (em m)) ↔ m.1 < 0 := by
      have := (EL.single hm hK).allNeg
      rw [← sumOf_poly] at this
      simpa [sumOf] using this
    have hf := hK.pfacs (cfg := cfg)
    rcases mexpr_cases m.1 m.2 with ⟨hP, e⟩ | ⟨f, hP, hq, e⟩ | ⟨hP, hl, e⟩
    · exact absurd hP hne
    · have hd : decide (AllNeg (poly (em m))) = false := by
        rw [decide_eq_false_iff_not, key, show m.1 = 1 from hq]; norm_num
      rw [hd]
      have e' : em m = fac f := e
      rw [e']
      rw [hK.2.2] at hP
      match K, hP with
      | [x], hP =>
        simp only [Key.facs, List.map_cons, List.map_nil, List.cons.injEq, and_true] at hP
        subst hP
        unfold fac
        split
        · simp only [doesSymmetryApply]; exact tot_pure _
        · simp only [doesSymmetryApply]; exact tot_pure _
    · have e' : em m = .prod (rl m.1 m.2) := e
      have hd : decide (AllNeg (poly (em m))) = decide (sgq m.1 = -1) := by
        rw [decide_eq_decide, key, sgq_neg]
      rw [hd]
      have hx := tot_expand (tot_expand_mono (cfg := cfg) hc hm hK)
      have ht := tot_constTerm (cfg := cfg) hm hf
      have : (fun E : Eng D => doesSymmetryApply E (em m)) = fun E => (do
          let x ← E.expand (em m)
          let c ← constTerm E x
          E.isNeg c) := by
        funext E; rw [e']; rfl
      rw [this]
      exact tot_bind hx (tot_bind ht (tot_isNeg (sg_num m.1).neg))
  · have key := hL.allNeg
    have hp : poly (.sum (L.map em) : Expr D) = psum L := by
      rw [← sumOf_poly]
      match L, h2 with
      | _ :: _ :: _, _ => rfl
    have hd : decide (AllNeg (poly (.sum (L.map em) : Expr D))) = L.all fun m => decide (m.1 < 0) := by
      rw [hp, Bool.eq_iff_iff, decide_eq_true_iff, key]
      simp
    rw [hd]
    simp only [doesSymmetryApply]
    exact tot_allNegative hL

theorem NC.not_both {r : Expr D} (h : NC r) (h1 : AllNeg (poly r)) : ¬ AllNeg (- poly r) := by
  intro h2
  obtain ⟨d, hd⟩ := MvPolynomial.support_nonempty.2 h.ne_zero
  have a := h1 d hd
  have b := h2 d (by rwa [MvPolynomial.support_neg])
  rw [MvPolynomial.coeff_neg] at b
  linarith

/-- Trigonometric::create for everything but functions and Undefined. -/
theorem trigCreate_plain (E : Eng D) (f : Fn) {r : Expr D} (h1 : r.isUndefined = false) (h2 : r.isFunction = false) :
    trigCreate E f r = (do
      let s ← M.silent (doesSymmetryApply E r)
      if s then createBySymmetry E f r
      else do
        let n ← M.lift (numEval r)
        match n with
        | some _ => createNumerically E f r
        | none => pure (.fn f r)) := by
  cases r <;> first | rfl | exact Bool.noConfusion h1 | exact Bool.noConfusion h2

theorem NC.isFunction {r : Expr D} (h : NC r) : r.isFunction = false := by
  have := h.ep.polyE
  cases r <;> first | rfl | (simp [isPolyE] at this)

theorem tot_trig_plain {r : Expr D} (h1 : r.isUndefined = false) (h2 : r.isFunction = false) (he : numEval r = .ok none)
    (hs : Tot cfg (fun E => doesSymmetryApply E r) false) (f : Fn) : Tot cfg (fun E => trigCreate E f r) (.fn f r) := by
  simp only [trigCreate_plain _ f h1 h2]
  refine tot_bind (tot_silent hs) ?_
  simp only [Bool.false_eq_true, if_false]
  exact tot_bind (tot_lift he) (tot_pure _)

theorem tot_trig_symm {r a : Expr D} (h1 : r.isUndefined = false) (h2 : r.isFunction = false)
    (hs : Tot cfg (fun E => doesSymmetryApply E r) true) {f : Fn} (h : Tot cfg (fun E => createBySymmetry E f r) a) :
    Tot cfg (fun E => trigCreate E f r) a := by
  simp only [trigCreate_plain _ f h1 h2]
  refine tot_bind (tot_silent hs) ?_
  simp only [if_true]
  exact h

/-- A trigonometric function of a polynomial, without symmetry. -/
theorem NC.tot_trig (hc : cfg.Ok) {r : Expr D} (h : NC r) (hn : ¬ AllNeg (poly r)) (f : Fn) :
    Tot cfg (fun E => trigCreate E f r) (.fn f r) := by
  have hs := h.tot_symm (cfg := cfg) hc
  simp only [hn, decide_false] at hs
  exact tot_trig_plain h.ep.isUndefined h.isFunction h.eval hs f

/-- π. -/
theorem tot_timesPi_one : Tot cfg (fun E => timesPi E 1) (.cst .pi : Expr D) := by
  unfold timesPi
  refine tot_prod ?_
  have o : (Expr.ratE 1 : Expr D).isOne = true := by unfold Expr.ratE; rw [isOne_ratE]; simp
  have z : (Expr.ratE 1 : Expr D).isZero = false := by unfold Expr.ratE; rw [isZero_ratE]; simp
  simp only [prodCreate, List.any_cons, List.any_nil, show (Expr.ratE 1 : Expr D).isUndefined = false from rfl,
    show (Expr.piE : Expr D).isUndefined = false from rfl, z, show (Expr.piE : Expr D).isZero = false from rfl, Bool.or_self, Bool.false_eq_true, if_false]
  refine tot_bind (a := [.piE]) (tot_prodSimplify ?_) (by simp only [Expr.piE]; exact tot_pure _)
  unfold simplProd
  refine tot_bind (a := [.ratE 1, .piE]) (tot_extract (u := [.ratE 1, .piE]) (by simp [Expr.ratE, Expr.piE])) ?_
  refine tot_bind (a := [.ratE 1, .piE]) (tot_contract_pw (simpl := fun E => contractTrigFctPowers E) ?_) ?_
  · simp [num_trig_pair, Expr.ratE]
  · simp only [simplTwoFactors, show (Expr.ratE 1 : Expr D).isProduct = false from rfl, show (Expr.piE : Expr D).isProduct = false from rfl,
      Bool.or_self, Bool.false_eq_true, if_false, simplTwoFactorsWithoutProduct, o, if_true]
    exact tot_pure _

theorem tot_prod_single {e : Expr D} (h1 : e.isUndefined = false) (h2 : e.isZero = false) : Tot cfg (fun E => prodCreate E [e]) e := by
  simp only [prodCreate, List.any_cons, List.any_nil, h1, h2, Bool.or_self, Bool.false_eq_true, if_false]
  exact tot_pure _

/-- The parts of the negative of a function. -/
theorem tot_terms_mfn (f : Fn) (x : Expr D) :
    Tot cfg (fun E => nonConstTerm E (.prod [mOne, .fn f x])) (.fn f x) ∧
    Tot cfg (fun E => constTerm E (.prod [mOne, .fn f x] : Expr D)) mOne ∧
    Tot cfg (fun E => nonNumericTerm E (.prod [mOne, .fn f x])) (.fn f x) := by
  have z : (mOne : Expr D).isZero = false := by rw [mOne_rat, isZero_ratE]; simp
  have e1 : nonConstElements [mOne, Expr.fn f x] = [Expr.fn f x] := by simp [nonConstElements, isConst, mOne_rat]
  have e2 : constElements [mOne, Expr.fn f x] = [mOne] := by
    simp only [constElements, mOne_rat]
    rw [List.filter_cons_of_pos (by simp [isConst]), List.filter_cons_of_neg (by simp [isConst]), List.filter_nil]
  refine ⟨?_, ?_, ?_⟩
  · simp only [nonConstTerm, e1, List.isEmpty_cons, Bool.false_eq_true, if_false]
    exact tot_prod (tot_prod_single rfl rfl)
  · simp only [constTerm, e2, List.isEmpty_cons, Bool.false_eq_true, if_false]
    exact tot_prod (tot_prod_single rfl z)
  · simp only [nonNumericTerm, show (mOne : Expr D).isNumeric = true from rfl, if_true]
    exact tot_prod (tot_prod_single rfl rfl)

/-- π minus a function. -/
theorem tot_pi_minus_fn {f : Fn} {x : Expr D} (hx : Exact x) :
    Tot cfg (fun E => sumCreate E [.cst .pi, .prod [mOne, .fn f x]]) (.sum [.cst .pi, .prod [mOne, .fn f x]]) := by
  have hF : Exact (.fn f x : Expr D) := exact_fn hx
  have hpi : Exact (.cst .pi : Expr D) := exact_of_op (by simp) (by simp) (by intro o ho; simp [operands] at ho)
  have hP : Exact (.prod [mOne, .fn f x] : Expr D) := exact_of_op (by simp) (by simp) (by
    intro o ho
    simp only [operands, List.mem_cons, List.not_mem_nil, or_false] at ho
    rcases ho with rfl | rfl
    · rw [mOne_rat]; exact exact_ratE _
    · exact hF)
  simp only [sumCreate, List.any_cons, List.any_nil, show (Expr.cst .pi : Expr D).isUndefined = false from rfl,
    show (Expr.prod [mOne, Expr.fn f x]).isUndefined = false from rfl, Bool.or_self, Bool.false_eq_true, if_false]
  refine tot_bind (a := [.cst .pi, .prod [mOne, .fn f x]]) (tot_sumSimplify ?_) (by simp only; exact tot_pure _)
  have hs : Tot cfg (fun E => simplTwoOther E (.cst .pi) (.prod [mOne, .fn f x])) [.cst .pi, .prod [mOne, .fn f x]] := by
    have n1 : Tot cfg (fun E => nonConstTerm E (.cst .pi : Expr D)) (.cst .pi) := by
      simp only [nonConstTerm, isConst, Bool.false_eq_true, if_false]; exact tot_pure _
    have c1 : Tot cfg (fun E => constTerm E (.cst .pi : Expr D)) one := by
      simp only [constTerm, isConst, Bool.false_eq_true, if_false]; exact tot_pure _
    have m1 : Tot cfg (fun E => nonNumericTerm E (.cst .pi : Expr D)) (.cst .pi) := by
      simp only [nonNumericTerm]; exact tot_pure _
    obtain ⟨n2, c2, m2⟩ := tot_terms_mfn (cfg := cfg) f x
    have ne : isEqual (.cst .pi) (.fn f x : Expr D) = false := isEqual_ne hpi hF (by simp)
    simp only [simplTwoOther]
    refine tot_bind (a := false) (tot_whenTrue ?_) ?_
    · unfold haveEqualNonConstTerms
      refine tot_bind n1 (tot_bind n2 ?_)
      simp only [show (Expr.cst .pi : Expr D).isOne = false from rfl, show (Expr.fn f x).isOne = false from rfl, Bool.or_self,
        Bool.false_eq_true, if_false, ne]
      exact tot_pure _
    simp only [Bool.false_eq_true, if_false]
    refine tot_bind (a := false) (tot_whenTrue ?_) ?_
    · unfold haveEqualNonNumericTerms
      refine tot_bind m1 (tot_bind m2 ?_)
      simp only [ne]
      exact tot_pure _
    simp only [Bool.false_eq_true, if_false]
    refine tot_bind (a := false) (tot_whenTrue ?_) ?_
    · unfold haveContractableSinCos
      refine tot_bind n1 (tot_bind n2 (tot_bind c1 (tot_bind c2 ?_)))
      have : isEqual (one : Expr D) mOne = false := isEqual_ne (by rw [one_eq]; exact exact_ratE _) (by rw [mOne_rat]; exact exact_ratE _)
        (by rw [one_eq, mOne_rat]; simp only [ne_eq, Expr.num.injEq, Number.rat.injEq]; norm_num)
      simp only [this, Bool.false_eq_true, if_false]
      exact tot_pure _
    simp only [Bool.false_eq_true, if_false]
    have hp : doPermute (.cst .pi) (.prod [mOne, .fn f x] : Expr D) = false := by
      rw [doPermute_eq]; simp [permStep, permSame, permDiff]
    simp only [ordered, hp, Bool.false_eq_true, if_false]
    exact tot_pure _
  simp only [simplSum, simplTwoSummands, show (Expr.cst .pi : Expr D).isSum = false from rfl,
    show (Expr.prod [mOne, Expr.fn f x]).isSum = false from rfl, Bool.or_self, Bool.false_eq_true, if_false, simplTwoSummandsWithoutSum,
    show (Expr.cst .pi : Expr D).isZero = false from rfl, show (Expr.prod [mOne, Expr.fn f x]).isZero = false from rfl]
  exact hs

/-- A trigonometric function of a polynomial with negative coefficients only. -/
theorem NC.tot_trig_neg (hc : cfg.Ok) {r r' : Expr D} (h : NC r) (h' : EP r') (hp : poly r' = - poly r) (hn : AllNeg (poly r)) (f : Fn) :
    Tot cfg (fun E => trigCreate E f r) (match f with
      | .cos => .fn .cos r'
      | .acos => .sum [.cst .pi, .prod [mOne, .fn .acos r']]
      | f => .prod [mOne, .fn f r']) := by
  have hs := h.tot_symm (cfg := cfg) hc
  simp only [hn, decide_true] at hs
  have n' := h.neg h' hp
  have hm := h.tot_minus hc (cfg := cfg) h' hp
  have ht := fun f => Tsym.tot_trig (n'.tot_trig hc (cfg := cfg) (by rw [hp]; exact h.not_both hn) f)
  refine tot_trig_symm h.ep.isUndefined h.isFunction hs ?_
  unfold createBySymmetry
  refine tot_bind hm (tot_bind (ht f) ?_)
  cases f <;> first
    | exact tot_pure _
    | exact tot_minus_fn n'.exact
    | exact tot_bind tot_timesPi_one (tot_bind (tot_minus_fn n'.exact) (tot_sum (tot_pi_minus_fn n'.exact)))

end Tsym
