import Verif.PolyCoeff
import Mathlib.Algebra.MvPolynomial.PDeriv

set_option autoImplicit false
set_option linter.unusedSectionVars false
set_option linter.unusedSimpArgs false
set_option linter.unusedVariables false

/-!
# Derivatives of expanded polynomials
-/

namespace Tsym

open Expr

variable {D : Type} [Flt D] [ExactLt D] {cfg : Cfg D} {B : Expr D → Prop}

/-- The reciprocal of a symbol. -/
def symInv (s : Sym) : Expr D := .pow (.sym s) Expr.mOne

theorem mOne_rat : (Expr.mOne : Expr D) = .num (.rat (-1)) := by simp [Expr.mOne]

theorem tot_oneOver_sym (s : Sym) : Tot cfg (fun E => E.oneOver (.sym s)) (symInv s) := by
  unfold Eng.oneOver
  refine tot_pow ?_
  have h1 : (mOne : Expr D).isZero = false := by rw [mOne_rat, isZero_ratE]; simp
  have h2 : (mOne : Expr D).isOne = false := by rw [mOne_rat, isOne_ratE]; norm_num
  have h3 : (mOne : Expr D).isUndefined = false := rfl
  have h4 : (Expr.sym s : Expr D).isOne = false := rfl
  have h5 : (Expr.sym s : Expr D).isZero = false := rfl
  have h6 : (Expr.sym s : Expr D).isUndefined = false := rfl
  simp only [powCreate, h1, h2, h3, h4, h5, h6, Bool.or_self, Bool.false_eq_true, if_false, powCreateNonTrivial]
  refine tot_bind (a := (.sym s, mOne)) (tot_simplPow ?_) ?_
  · simp only [simplPow]
    refine tot_bind (a := false) (tot_whenTrue (tot_bind (tot_lift (a := some (.rat (-1))) (by rw [mOne_rat]; rfl))
      (tot_bind (tot_isNeg (tot_isNeg_sym s)) ?_))) ?_
    · simp
      exact tot_pure _
    · simp only [Bool.false_eq_true, if_false]
      exact tot_pure _
  · simp only [h2, h4, Bool.false_eq_true, if_false, symInv]
    exact tot_pure _

theorem tot_log_sym (s : Sym) : Tot cfg (fun E => E.logCreate (.sym s)) (.fn .log (.sym s) : Expr D) := by
  refine tot_log ?_
  have h4 : (Expr.sym s : Expr D).isOne = false := rfl
  have h5 : (Expr.sym s : Expr D).isZero = false := rfl
  have h6 : (Expr.sym s : Expr D).isUndefined = false := rfl
  have h7 : (Expr.sym s : Expr D).isPower = false := rfl
  unfold logCreate
  refine tot_bind (a := false) ?_ ?_
  · simp only [isInvalidArg, h5, h6, h7, Bool.or_self, Bool.false_and, Bool.false_eq_true, if_false]
    refine tot_whenTrue (tot_bind (tot_isNeg (tot_isNeg_sym s)) ?_)
    simp only [Bool.false_eq_true, if_false, evalsTo]
    refine tot_bind (tot_lift (a := none) rfl) ?_
    exact tot_pure _
  · simp only [h4, Bool.false_eq_true, if_false]
    exact tot_pure _

/-- A number, a power of a symbol, or the reciprocal of a symbol. -/
def DItem (s : Sym) (e : Expr D) : Prop := (∃ q : ℚ, e = .num (.rat q)) ∨ (∃ k : ℕ, 1 ≤ k ∧ e = symFac (s, k)) ∨ e = symInv s

theorem symFac_pfac (s : Sym) {k : ℕ} (h : 1 ≤ k) : PFac cfg (Expr.sym s, k) := ⟨pbase_sym s, h⟩

theorem DItem.trig {s : Sym} {e : Expr D} (h : DItem s e) : isContractableTrigFctPower e = pure false := by
  unfold isContractableTrigFctPower
  have : e.base.isFunction = false := by
    rcases h with ⟨q, rfl⟩ | ⟨k, hk, rfl⟩ | rfl
    · rfl
    · unfold symFac; rw [(symFac_pfac (cfg := Cfg.std 0) s hk).base_fac]; rfl
    · rfl
  rw [this]; rfl

theorem DItem.numPow {s : Sym} {e : Expr D} (h : DItem s e) : e.isNumericPower = false := by
  rcases h with ⟨q, rfl⟩ | ⟨k, hk, rfl⟩ | rfl
  · rfl
  · exact (symFac_pfac (cfg := Cfg.std 0) s hk).isNumericPower
  · rfl

theorem DItem.isProduct {s : Sym} {e : Expr D} (h : DItem s e) : e.isProduct = false := by
  rcases h with ⟨q, rfl⟩ | ⟨k, hk, rfl⟩ | rfl
  · rfl
  · exact (symFac_pfac (cfg := Cfg.std 0) s hk).isProduct
  · rfl

theorem DItem.contr {s : Sym} {e : Expr D} (h : DItem s e) : isContractableConst e = e.isNumeric := by
  rcases h with ⟨q, rfl⟩ | ⟨k, hk, rfl⟩ | rfl
  · rfl
  · have := symFac_pfac (D := D) (cfg := Cfg.std 0) s hk
    unfold isContractableConst symFac; rw [this.isConst, this.isNumeric]; rfl
  · rfl

theorem DItem.pon {s : Sym} {l : List (Expr D)} (h : ∀ e ∈ l, DItem s e) (p : ℚ) :
    productOfNumerics (.rat p) l = (.rat (p * qs l) : Number D) := by
  induction l generalizing p with
  | nil => simp [productOfNumerics, qs]
  | cons e l ih =>
    have ih := ih fun x hx => h x (by simp [hx])
    unfold qs at ih ⊢
    rcases h e (by simp) with ⟨q, rfl⟩ | ⟨k, hk, rfl⟩ | rfl
    · simp only [productOfNumerics, Number.mul, ih, List.map_cons, List.prod_cons, qOf, mul_assoc]
    · have h5 := (symFac_pfac (D := D) (cfg := Cfg.std 0) s hk).qOf
      have h6 := (symFac_pfac (D := D) (cfg := Cfg.std 0) s hk).isNumeric
      simp only [List.map_cons, List.prod_cons]
      unfold symFac
      rw [h5, one_mul, ← ih]
      cases hf : fac (Expr.sym s, k) <;> simp_all [productOfNumerics, Expr.isNumeric]
    · simp only [symInv, productOfNumerics, ih, List.map_cons, List.prod_cons, qOf, one_mul]

theorem tot_trigo_d {s : Sym} {l : List (Expr D)} (h : ∀ e ∈ l, DItem s e) : Tot cfg (fun E => contractTrigonometrics E l) l := by
  refine tot_contract (simpl := fun E => contractTrigFctPowers E) fun x hx y hy => ?_
  unfold areContractableTrigFctPowers
  rw [(h x hx).trig]
  rfl

/-- The numbers are contracted; the rest is in some order. -/
theorem tot_prepareConst_d (hc : cfg.Ok) {s : Sym} {l : List (Expr D)} (h : ∀ e ∈ l, DItem s e) {q : ℚ} (hq : q ≠ 1) (hl : qs l = q) :
    ∃ P, P.Perm (l.filter fun e => !e.isNumeric) ∧ Tot cfg (fun E => prepareConst E l) (.num (.rat q) :: P) := by
  have hp := hc.sort doPermute l
  refine ⟨(cfg.sort doPermute l).filter fun e => !e.isNumeric, hp.filter _, ?_⟩
  have hcfg : ∀ n, (eng cfg n).cfg = cfg := fun n => by
    induction n with
    | zero => rfl
    | succ n ih => exact ih
  have e1 : contractNumerics (cfg.sort doPermute l) = .num (.rat q) :: (cfg.sort doPermute l).filter fun e => !e.isNumeric := by
    unfold contractNumerics
    have h1 : (1 : Number D) = .rat 1 := by change Number.rat ((1 : ℕ) : ℚ) = _; norm_num
    rw [h1, DItem.pon fun e he => h e (hp.mem_iff.1 he), qs_perm hp, hl, one_mul, ← h1, eqv_rat_one]
    simp [hq]
  set v := Expr.num (.rat q) :: (cfg.sort doPermute l).filter fun e => !e.isNumeric with hv
  have hi : ∀ e ∈ v, DItem s e := by
    intro e he
    rw [hv] at he
    rcases List.mem_cons.1 he with rfl | he
    · exact .inl ⟨q, rfl⟩
    · exact h e (hp.mem_iff.1 (List.mem_filter.1 he).1)
  have key : Tot cfg (fun E => contractConst E v >>= fun u =>
      contract E (fun a b => pure (areNumPowersWithEqualExp a b)) (simplTwoEqualExp E) u >>= fun u =>
        contract E (fun a b => pure (areNumPowersWithEqualExpDenom a b)) (simplTwoEqualExpDenom E) u) v := by
    refine tot_bind (a := v) (tot_contractConst ?_) (tot_bind (a := v) ?_ ?_)
    · intro i j x y hij hx hy
      rw [(hi x (List.mem_of_getElem? hx)).contr, (hi y (List.mem_of_getElem? hy)).contr]
      by_contra hcon
      simp only [Bool.not_eq_false, Bool.and_eq_true] at hcon
      have tail : ∀ (k : ℕ) (e : Expr D), v[k + 1]? = some e → e.isNumeric = false := by
        intro k e he
        rw [hv, List.getElem?_cons_succ] at he
        simpa using (List.mem_filter.1 (List.mem_of_getElem? he)).2
      rcases i with _ | i
      · rcases j with _ | j
        · exact hij rfl
        · rw [tail j y hy] at hcon; simp at hcon
      · rw [tail i x hx] at hcon; simp at hcon
    · refine tot_contract (simpl := fun E => simplTwoEqualExp E) fun x hx y hy => ?_
      unfold areNumPowersWithEqualExp
      rw [(hi x hx).numPow]; rfl
    · refine tot_contract (simpl := fun E => simplTwoEqualExpDenom E) fun x hx y hy => ?_
      have := (hi x hx).numPow
      unfold areNumPowersWithEqualExpDenom
      split
      · simp [Expr.isNumericPower, Expr.isNumeric] at this
      · rfl
  obtain ⟨N, hN⟩ := key
  refine ⟨N, fun n hn => ?_⟩
  unfold prepareConst
  dsimp only
  rw [hcfg, e1]
  exact hN n hn

theorem tot_simplProd_d (hc : cfg.Ok) {s : Sym} {l u : List (Expr D)} (hu : u = l.flatMap factors)
    (hpl : ∀ m, Expr.prod m ∈ l → ∀ x ∈ m, DItem s x) (h : ∀ e ∈ u, DItem s e) (h3 : 3 ≤ u.length)
    {r : List (Expr D)} (hr : Tot cfg (fun E => prepareConst E u >>= simplPreparedFactors E) r) :
    Tot cfg (fun E => simplProd E l) r := by
  have ex : Tot cfg (fun E => extractProducts E l) u := by
    rw [hu]
    exact tot_extract fun m hm x hx => (hpl m hm x hx).isProduct
  refine tot_bind ex (tot_bind (tot_trigo_d h) ?_)
  match u, h3 with
  | _ :: _ :: _ :: _, _ => exact hr

/-- The product of a number, the reciprocal of a symbol and 1. -/
theorem tot_prod_inv (hc : cfg.Ok) (s : Sym) {k : ℕ} (hk : 2 ≤ k) :
    Tot cfg (fun E => E.prodCreate [.int k, symInv s, one]) (.prod [.int k, symInv s] : Expr D) := by
  have hq : ((k : ℤ) : ℚ) ≠ 1 := by norm_num; omega
  have hq0 : ((k : ℤ) : ℚ) ≠ 0 := by norm_num; omega
  refine tot_prod ?_
  have hU : [(.int k : Expr D), symInv s, one].any isUndefined = false := rfl
  have hZ : [(.int k : Expr D), symInv s, one].any isZero = false := by
    have : (one : Expr D).isZero = false := by rw [one_eq, isZero_ratE]; simp
    simp only [List.any_cons, isZero_int, this, List.any_nil, Bool.or_false]
    simp [symInv, isZero]; omega
  unfold prodCreate
  simp only [hU, hZ, Bool.false_eq_true, if_false]
  have hitems : ∀ e ∈ [(.int k : Expr D), symInv s, one], DItem s e := by
    intro e he
    simp only [List.mem_cons, List.not_mem_nil, or_false] at he
    rcases he with rfl | rfl | rfl
    · exact .inl ⟨_, rfl⟩
    · exact .inr (.inr rfl)
    · exact .inl ⟨1, one_eq⟩
  refine tot_bind (a := [.int k, symInv s]) (tot_prodSimplify ?_) ?_
  · refine tot_simplProd_d hc (u := [.int k, symInv s, one]) rfl ?_ hitems (by simp) ?_
    · intro m hm
      simp [int, symInv, one] at hm
    · obtain ⟨P, hP, hT⟩ := tot_prepareConst_d hc hitems (q := ((k : ℤ) : ℚ)) hq (by
        simp [qs, qOf, int, symInv, one])
      have hP : P = [symInv s] := by
        have : [(.int k : Expr D), symInv s, one].filter (fun e => !e.isNumeric) = [symInv s] := rfl
        rw [this] at hP
        exact List.perm_singleton.1 hP
      subst hP
      refine tot_bind hT ?_
      simp only [simplPreparedFactors, simplTwoFactors, symInv, Expr.isProduct, Bool.or_self, Bool.false_eq_true, if_false,
        simplTwoFactorsWithoutProduct, Expr.isOne, eqv_rat_one, hq, decide_false, Expr.isConst, Bool.false_and, Bool.and_false,
        haveEqualBases, Expr.base, isEqual, ordered]
      have hperm : doPermute (.num (.rat ((k : ℤ) : ℚ)) : Expr D) (.pow (.sym s) mOne) = false := by
        rw [doPermute_eq]; simp [permStep, permSame, permDiff]
      simp only [hperm, Bool.false_eq_true, if_false]
      exact tot_pure _
  · have hN : needsExpansion [(.int k : Expr D), symInv s] = false := rfl
    simp only [hN, Bool.false_eq_true, if_false]
    exact tot_pure _

theorem tot_equalBases_inv (s : Sym) {k : ℕ} (hk : 2 ≤ k) {f g : Expr D} (hf : f.base = .sym s) {i j : ℤ}
    (he : f.exp = .int i) (he' : g.exp = .int j) (hs : i + j = (k - 1 : ℕ)) :
    Tot cfg (fun E => simplTwoEqualBases E f g) [symFac (s, k - 1)] := by
  simp only [simplTwoEqualBases, hf, he, he']
  refine tot_bind (a := .int (k - 1 : ℕ)) ?_ ?_
  · have := tot_sum_num (cfg := cfg) (i : ℚ) (j : ℚ)
    rw [← hs]
    simpa [int] using this
  refine tot_bind (tot_silent (tot_isPos (tot_isPos_sym s))) ?_
  refine tot_bind (a := s.positive) ?_ ?_
  · cases s.positive
    · simp only [Bool.false_eq_true, if_false]
      exact tot_silent (tot_isNeg (tot_isNeg_sym s))
    · simp only [if_true]; exact tot_pure _
  refine tot_bind (a := false) ?_ ?_
  · cases s.positive
    · simp only [Bool.false_eq_true, if_false]
      refine tot_bind (a := false) (tot_lift ?_) ?_
      · simp [isFractionNumeric, numEval, int, Number.isFraction, Number.denominator]; rfl
      simp only [Bool.false_eq_true, if_false]
      refine tot_bind (tot_pure _) ?_
      simp only [Bool.false_eq_true, if_false]
      exact tot_pure _
    · simp only [if_true]; exact tot_pure _
  simp only [Bool.false_eq_true, if_false]
  have := tot_powSym (cfg := cfg) (D := D) s (k - 1)
  unfold symPow at this
  rw [if_neg (by omega)] at this
  refine tot_bind (tot_pow this) ?_
  exact tot_pure _

/-- The product of a power and its exponent over its base. -/
theorem tot_prod_pow_inv (hc : cfg.Ok) (s : Sym) (hs : s.id.Ok) {k : ℕ} (hk : 2 ≤ k) :
    Tot cfg (fun E => E.prodCreate [symFac (s, k), .prod [.int k, symInv s]]) (em (k, Key.facs [(s, k - 1)]) : Expr D) := by
  have hq : ((k : ℤ) : ℚ) ≠ 1 := by norm_num; omega
  have hpf := symFac_pfac (D := D) (cfg := cfg) s (k := k) (by omega)
  have hpf' := symFac_pfac (D := D) (cfg := cfg) s (k := k - 1) (by omega)
  refine tot_prod ?_
  have hU : [(symFac (s, k) : Expr D), .prod [.int k, symInv s]].any isUndefined = false := by
    simp only [List.any_cons, List.any_nil, symFac, hpf.isUndefined]; rfl
  have hZ : [(symFac (s, k) : Expr D), .prod [.int k, symInv s]].any isZero = false := by
    simp only [List.any_cons, List.any_nil, symFac, hpf.isZero]; rfl
  unfold prodCreate
  simp only [hU, hZ, Bool.false_eq_true, if_false]
  have hfl : [(symFac (s, k) : Expr D), .prod [.int k, symInv s]].flatMap factors = [symFac (s, k), .int k, symInv s] := by
    have := hpf.factors
    simp only [List.flatMap_cons, List.flatMap_nil, symFac, this]; rfl
  have hitems : ∀ e ∈ [(symFac (s, k) : Expr D), .int k, symInv s], DItem s e := by
    intro e he
    simp only [List.mem_cons, List.not_mem_nil, or_false] at he
    rcases he with rfl | rfl | rfl
    · exact .inr (.inl ⟨k, by omega, rfl⟩)
    · exact .inl ⟨_, rfl⟩
    · exact .inr (.inr rfl)
  have hrest : ∀ P : List (Expr D), P.Perm [symFac (s, k), symInv s] → Tot cfg (fun E => simplProd E P) [symFac (s, k - 1)] := by
    intro P hP
    have hi : ∀ e ∈ P, DItem s e := fun e he => hitems e (by
      have := hP.mem_iff.1 he
      simp only [List.mem_cons, List.not_mem_nil, or_false] at this ⊢
      tauto)
    have ex : Tot cfg (fun E => extractProducts E P) P := by
      have := tot_extract (cfg := cfg) (u := P) fun m hm x hx => by
        have := (hi _ hm).isProduct; simp [Expr.isProduct] at this
      have hfl : P.flatMap factors = P := by
        have : ∀ l : List (Expr D), (∀ e ∈ l, e.isProduct = false) → l.flatMap factors = l := by
          intro l hl
          induction l with
          | nil => rfl
          | cons e l ih =>
            rw [List.flatMap_cons, ih fun x hx => hl x (by simp [hx])]
            have := hl e (by simp)
            cases e <;> simp_all [factors, Expr.isProduct]
        exact this P fun e he => (hi e he).isProduct
      rwa [hfl] at this
    refine tot_bind ex (tot_bind (tot_trigo_d hi) ?_)
    have hfp : (symFac (s, k) : Expr D).isProduct = false := hpf.isProduct
    have hfo : (symFac (s, k) : Expr D).isOne = false := hpf.isOne
    have hfc : (symFac (s, k) : Expr D).isConst = false := hpf.isConst
    have hfb : (symFac (s, k) : Expr D).base = .sym s := hpf.base_fac
    have hfe : (symFac (s, k) : Expr D).exp = .int k := hpf.exp_fac
    have hgp : (symInv s : Expr D).isProduct = false := rfl
    have hgo : (symInv s : Expr D).isOne = false := rfl
    have hgb : (symInv s : Expr D).base = .sym s := rfl
    have hge : (symInv s : Expr D).exp = .int (-1) := by simp [symInv, Expr.exp, mOne, int]
    have heq : isEqual (.sym s : Expr D) (.sym s) = true := isEqual_refl (exact_sym s)
    obtain hP | hP : P = [symFac (s, k), symInv s] ∨ P = [symInv s, symFac (s, k)] := by
      have hl := hP.length_eq
      match P, hl with
      | [a, b], _ =>
        have := List.perm_pair.1 hP
        rcases this with ⟨rfl, rfl⟩ | ⟨rfl, rfl⟩
        exacts [.inl rfl, .inr rfl]
    · subst hP
      simp only [simplTwoFactors, hfp, hgp, Bool.or_self, Bool.false_eq_true, if_false, simplTwoFactorsWithoutProduct, hfo, hgo, hfc,
        Bool.false_and, haveEqualBases, hfb, hgb, heq, if_true]
      exact tot_equalBases_inv s hk hfb hfe hge (by omega)
    · subst hP
      simp only [simplTwoFactors, hfp, hgp, Bool.or_self, Bool.false_eq_true, if_false, simplTwoFactorsWithoutProduct, hfo, hgo, hfc,
        Bool.and_false, haveEqualBases, hfb, hgb, heq, if_true]
      exact tot_equalBases_inv s hk hgb hge hfe (by omega)
  have hr : em ((k : ℚ), Key.facs [(s, k - 1)]) = (.prod [.int k, symFac (s, k - 1)] : Expr D) := by
    have hk1 : ((k : ℚ)) ≠ 1 := by norm_num; omega
    simp [em, mexpr, rl_ne hk1, Key.facs, prodOf, int, symFac]
  refine tot_bind (a := [.int k, symFac (s, k - 1)]) (tot_prodSimplify ?_) ?_
  · refine tot_simplProd_d hc (u := [symFac (s, k), .int k, symInv s]) hfl.symm ?_ hitems (by simp) ?_
    · intro m hm
      simp only [List.mem_cons, List.not_mem_nil, or_false] at hm
      rcases hm with hm | hm
      · have := hpf.isProduct
        unfold symFac at hm
        rw [← hm] at this; simp [Expr.isProduct] at this
      · cases hm
        exact fun x hx => hitems x (List.mem_cons_of_mem _ hx)
    · obtain ⟨P, hP, hT⟩ := tot_prepareConst_d hc hitems (q := ((k : ℤ) : ℚ)) hq (by
        unfold symFac
        rw [qs_fac hpf]
        simp [qs, qOf, int, symInv])
      have hfil : [(symFac (s, k) : Expr D), .int k, symInv s].filter (fun e => !e.isNumeric) = [symFac (s, k), symInv s] := by
        have := hpf.isNumeric
        unfold symFac
        rw [List.filter_cons_of_pos (by rw [this]; rfl)]
        rfl
      rw [hfil] at hP
      refine tot_bind hT ?_
      have hl := hP.length_eq
      have hsp := hrest P hP
      match P, hl with
      | [a, b], _ =>
        simp only [simplPreparedFactors]
        refine tot_bind (tot_simplProd hsp) ?_
        have hm := tot_mergeProd_rl (cfg := cfg) (D := D) (p := ((k : ℤ) : ℚ)) (q := 1) (P := []) (Q := [(Expr.sym s, k - 1)]) (by simp [PFacs])
          (by intro f hf; rw [List.mem_singleton.1 hf]; exact hpf')
        rw [rl_ne hq, rl_one, mul_one, nil_mergeF, rl_ne hq] at hm
        exact tot_mergeProd hm
  · have hN : needsExpansion [(.int k : Expr D), symFac (s, k - 1)] = false := by
      have h1 := hpf'.isConst
      have h2 := hpf'.isSum
      have h3 : (Expr.sym s : Expr D).isSum = false := rfl
      simp only [h3, Bool.and_false] at h2
      have h4 : (int k : Expr D).isConst = true := rfl
      have h5 : (int k : Expr D).isSum = false := rfl
      unfold symFac needsExpansion constElements nonConstElements
      simp [h1, h2, h4, h5]
    simp only [hN, Bool.false_eq_true, if_false, hr]
    exact tot_pure _

theorem isUndef_em {A : List (Expr D)} (h : ∀ e ∈ A, EM e) : A.any isUndefined = false := by
  rw [List.any_eq_false]; intro e he; simp [(h e he).1.isUndefined]

theorem tot_prod_zero {l : List (Expr D)} (h : l.any isUndefined = false) (h0 : zero ∈ l) : Tot cfg (fun E => E.prodCreate l) zero := by
  refine tot_prod ?_
  have hZ : l.any isZero = true := by
    rw [List.any_eq_true]; exact ⟨_, h0, by rw [zero_eq, isZero_ratE]; simp⟩
  unfold prodCreate
  simp only [h, hZ, Bool.false_eq_true, if_false, if_true]; exact tot_pure _

/-- The derivative of a power of a symbol. -/
theorem tot_diff_symFac (hc : cfg.Ok) (s : Sym) {x : Sym × ℕ} (hx : x.1.id.Ok ∧ 1 ≤ x.2) :
    ∃ d, Tot cfg (fun E => diff E (.sym s) (symFac x)) d ∧ EM d ∧ poly d = MvPolynomial.pderiv s (poly (symFac x : Expr D)) := by
  have hz : poly (zero : Expr D) = 0 := poly_zero
  have h0 : x.1 ≠ s → MvPolynomial.pderiv s (poly (symFac x : Expr D)) = 0 := by
    intro h
    rw [poly_symFac x hx.2, MvPolynomial.pderiv_monomial]
    simp [Finsupp.single_apply, h]
  by_cases h1 : x.2 = 1
  · have e : (symFac x : Expr D) = .sym x.1 := by simp [symFac, fac, h1]
    by_cases h : x.1 = s
    · refine ⟨one, ?_, by rw [one_eq]; exact EM.num 1, ?_⟩
      · rw [e]; simp only [diff, isEqual_sym, h, decide_true, if_true]; exact tot_pure _
      · rw [poly_one, poly_symFac x hx.2, MvPolynomial.pderiv_monomial]
        simp [h1, h]
    · refine ⟨zero, ?_, EM.zero, by rw [h0 h, hz]⟩
      rw [e]; simp only [diff, isEqual_sym, h, decide_false, Bool.false_eq_true, if_false]; exact tot_pure _
  · have e : (symFac x : Expr D) = .pow (.sym x.1) (.int x.2) := by simp [symFac, fac, h1]
    have hz1 : Tot cfg (fun E => E.diff (.sym s) (.int x.2)) (zero : Expr D) := tot_diff (by simp only [int, diff]; exact tot_pure _)
    have hz2 : Tot cfg (fun E => E.prodCreate [.fn .log (.sym x.1), zero]) (zero : Expr D) := tot_prod_zero rfl (by simp)
    by_cases h : x.1 = s
    · refine ⟨em ((x.2 : ℚ), Key.facs [(s, x.2 - 1)]), ?_, EM.mono (K := [(s, x.2 - 1)]) ?_ ⟨?_, by simp [Key.Sorted], rfl⟩, ?_⟩
      · rw [e]; simp only [diff]
        refine tot_bind (tot_log_sym x.1) (tot_bind hz1 (tot_bind hz2 (tot_bind (tot_oneOver_sym x.1) ?_)))
        refine tot_bind (a := one) (tot_diff ?_) ?_
        · simp only [diff, isEqual_sym, h, decide_true, if_true]; exact tot_pure _
        refine tot_bind (tot_prod_inv hc x.1 (by omega)) ?_
        refine tot_bind (a := .prod [.int x.2, symInv x.1]) (tot_sum ?_) ?_
        · have hu : [(zero : Expr D), .prod [.int x.2, symInv x.1]].any isUndefined = false := rfl
          have hz3 : (zero : Expr D).isZero = true := by rw [zero_eq, isZero_ratE]; simp
          have hs1 : (zero : Expr D).isSum = false := rfl
          have hs2 : (.prod [.int x.2, symInv x.1] : Expr D).isSum = false := rfl
          simp only [sumCreate, hu, Bool.false_eq_true, if_false]
          refine tot_bind (a := [.prod [.int x.2, symInv x.1]]) (tot_sumSimplify ?_) (tot_pure _)
          simp only [simplSum, simplTwoSummands, hs1, hs2, Bool.or_self, Bool.false_eq_true, if_false, simplTwoSummandsWithoutSum, hz3, if_true]
          exact tot_pure _
        · rw [← e, h]
          have := tot_prod_pow_inv hc s (by rw [← h]; exact hx.1) (k := x.2) (by omega)
          rw [show symFac x = (symFac (s, x.2) : Expr D) by rw [← h]]
          exact this
      · have := hx.2; simp only [ne_eq, Nat.cast_eq_zero]; omega
      · intro y hy
        rw [List.mem_singleton.1 hy]
        exact ⟨by rw [← h]; exact hx.1, by simp only; omega⟩
      · rw [IsKey.poly (K := [(s, x.2 - 1)]) ⟨?_, by simp [Key.Sorted], rfl⟩, poly_symFac x hx.2, MvPolynomial.pderiv_monomial]
        · simp only [h, Key.fs, List.map_cons, List.map_nil, List.sum_cons, List.sum_nil, add_zero, Finsupp.single_eq_same, one_mul]
          rw [Finsupp.single_tsub]
        · intro y hy
          rw [List.mem_singleton.1 hy]
          exact ⟨by rw [← h]; exact hx.1, by simp only; omega⟩
    · refine ⟨zero, ?_, EM.zero, by rw [h0 h, hz]⟩
      rw [e]; simp only [diff]
      refine tot_bind (tot_log_sym x.1) (tot_bind hz1 (tot_bind hz2 (tot_bind (tot_oneOver_sym x.1) ?_)))
      refine tot_bind (a := zero) (tot_diff ?_) ?_
      · simp only [diff, isEqual_sym, h, decide_false, Bool.false_eq_true, if_false]; exact tot_pure _
      refine tot_bind (a := zero) (tot_prod_zero rfl (by simp)) ?_
      refine tot_bind (a := zero) ?_ ?_
      · have := tot_sum_num (cfg := cfg) (0 : ℚ) 0
        rw [add_zero, ← zero_eq] at this
        exact this
      · exact tot_prod_zero rfl (by simp)

theorem tot_diff_item (hc : cfg.Ok) (s : Sym) {q : ℚ} {K : Key} (hK : K.Ok) {e : Expr D} (he : e ∈ rl q (K.facs : List (Expr D × ℕ))) :
    ∃ d, Tot cfg (fun E => diff E (.sym s) e) d ∧ EM d ∧ poly d = MvPolynomial.pderiv s (poly e) := by
  unfold rl at he
  rw [Key.facs_map] at he
  rcases List.mem_append.1 he with he | he
  · split at he
    · simp at he
    · rw [List.mem_singleton.1 he]
      refine ⟨zero, by simp only [diff]; exact tot_pure _, EM.zero, ?_⟩
      rw [poly_ratE, poly_zero, MvPolynomial.pderiv_C]
  · obtain ⟨x, hx, rfl⟩ := List.mem_map.1 he
    exact tot_diff_symFac hc s (hK x hx)

/-- The summands of the derivative of a product. -/
theorem tot_diffProd (hc : cfg.Ok) (s : Sym) {l : List (Expr D)} (h : ∀ e ∈ l, EM e ∧
    ∃ d, Tot cfg (fun E => diff E (.sym s) e) d ∧ EM d ∧ poly d = MvPolynomial.pderiv s (poly e)) {b : List (Expr D)} (hb : ∀ e ∈ b, EM e) :
    ∃ r, Tot cfg (fun E => diffProd E (.sym s) b l) r ∧ r.length = l.length ∧ (∀ e ∈ r, EP e) ∧
      (r.map poly).sum = (b.map poly).prod * MvPolynomial.pderiv s ((l.map poly).prod) := by
  induction l generalizing b with
  | nil => exact ⟨[], by simp only [diffProd]; exact tot_pure _, rfl, by simp, by simp⟩
  | cons a l ih =>
    obtain ⟨ha, d, hd, hde, hdp⟩ := h a (by simp)
    have hl : ∀ e ∈ d :: (b ++ l), EM e := by
      intro e he
      rcases List.mem_cons.1 he with rfl | he
      · exact hde
      · rcases List.mem_append.1 he with he | he
        exacts [hb e he, (h e (by simp [he])).1]
    obtain ⟨p, hp, hpe, hpp⟩ := tot_prod_em hc (A := d :: (b ++ l)) (by simp) hl
    obtain ⟨r, h1, h2, h3, h4⟩ := ih (fun e he => h e (by simp [he])) (b := b ++ [a]) (by
      intro e he
      rcases List.mem_append.1 he with he | he
      · exact hb e he
      · rw [List.mem_singleton.1 he]; exact ha)
    refine ⟨p :: r, ?_, by simp [h2], ?_, ?_⟩
    · simp only [diffProd]
      exact tot_bind (tot_diff hd) (tot_bind (tot_prod hp) (tot_bind h1 (tot_pure _)))
    · intro e he
      rcases List.mem_cons.1 he with rfl | he
      exacts [hpe.1, h3 e he]
    · simp only [List.map_cons, List.sum_cons, List.prod_cons, h4, hpp, hdp, List.map_append, List.prod_append, List.map_nil,
        List.prod_nil, Derivation.leibniz, smul_eq_mul]
      ring

/-- The derivative of a monomial. -/
theorem tot_diff_em (hc : cfg.Ok) (s : Sym) {m : Mono D} {K : Key} (hm : m.1 ≠ 0) (hk : IsKey m.2 K) :
    ∃ d, Tot cfg (fun E => diff E (.sym s) (em m)) d ∧ EP d ∧ poly d = MvPolynomial.pderiv s (poly (em m)) := by
  obtain ⟨q, P⟩ := m
  obtain ⟨hK, sK, rfl⟩ := hk
  rcases mexpr_cases (D := D) q K.facs with ⟨h, e⟩ | ⟨f, h, hq, e⟩ | ⟨h, h2, e⟩
  · rw [em, e]
    refine ⟨zero, by simp only [diff]; exact tot_pure _, EP.zero, ?_⟩
    rw [poly_ratE, poly_zero, MvPolynomial.pderiv_C]
  · rw [em, e]
    obtain ⟨x, rfl, hf⟩ := facs_single h
    obtain ⟨d, h1, h2, h3⟩ := tot_diff_symFac (D := D) hc s (hK x (by simp))
    rw [hf]
    exact ⟨d, h1, h2.1, h3⟩
  · rw [em, e]
    obtain ⟨r, h3, h4, h5, h6⟩ := tot_diffProd hc s (l := rl q K.facs) (fun e he => ⟨em_rl q hK e he, tot_diff_item hc s hK he⟩) (b := []) (by simp)
    obtain ⟨d, h7, h8, h9⟩ := tot_sum_ep hc (es := r) (by rintro rfl; simp at h4; omega) h5
    refine ⟨d, ?_, h8, ?_⟩
    · simp only [diff]
      exact tot_bind h3 (tot_sum h7)
    · rw [h9, h6, poly, polyProd_eq]; simp

/-- The derivative of an expanded polynomial. -/
theorem tot_diff_ep (hc : cfg.Ok) (s : Sym) {r : Expr D} (h : EP r) :
    ∃ d, Tot cfg (fun E => diff E (.sym s) r) d ∧ EP d ∧ poly d = MvPolynomial.pderiv s (poly r) := by
  rcases h.cases with rfl | ⟨m, K, hm, hK, rfl⟩ | ⟨L, hL, h2, rfl⟩
  · refine ⟨zero, by simp only [zero, diff]; exact tot_pure _, EP.zero, ?_⟩
    rw [poly_zero, map_zero]
  · exact tot_diff_em hc s hm hK
  · obtain ⟨bs, h3, h4⟩ := tot_mapL_ex (cfg := cfg) (f := fun E a => E.diff (.sym s) a) (l := L.map em)
      (Q := fun a d => EP d ∧ poly d = MvPolynomial.pderiv s (poly a)) (by
        intro a ha
        obtain ⟨m, hm, rfl⟩ := List.mem_map.1 ha
        obtain ⟨K, hK⟩ := hL.ks.key m hm
        obtain ⟨d, h1, h2, h3⟩ := tot_diff_em hc s (hL.ne m hm) hK
        exact ⟨d, tot_diff h1, h2, h3⟩)
    have h5 : ∀ d ∈ bs, EP d := by
      intro d hd
      obtain ⟨i, hi, rfl⟩ := List.getElem_of_mem hd
      exact ((List.forall₂_iff_get.1 h4).2 i (by rw [h4.length_eq]; exact hi) hi).1
    have h6 : (bs.map poly).sum = MvPolynomial.pderiv s (((L.map em).map poly).sum) := by
      clear h3 h5
      generalize L.map em = l at h4
      induction h4 with
      | nil => simp
      | cons hh _ ih => simp only [List.map_cons, List.sum_cons, map_add, ih, hh.2]
    obtain ⟨d, h7, h8, h9⟩ := tot_sum_ep hc (es := bs) (by
      rintro rfl
      have := h4.length_eq
      simp at this; rw [this] at h2; simp at h2) h5
    refine ⟨d, ?_, h8, ?_⟩
    · simp only [diff]
      exact tot_bind h3 (tot_sum h7)
    · rw [h9, h6, poly, polySum_eq]

end Tsym
