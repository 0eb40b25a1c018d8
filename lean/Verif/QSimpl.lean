import Verif.QFac

set_option autoImplicit false
set_option linter.unusedSectionVars false
set_option linter.unusedSimpArgs false
set_option linter.unusedVariables false

/-!
# simplProd for numbers and powers with rational exponents
-/

namespace Tsym

namespace Qf

open Expr

variable {D : Type} [Flt D] [LawfulFlt D] {cfg : Cfg D}

/-- The list of the operands of a product: a number, unless it is 1, and factors. -/
def rl (q : ℚ) (P : List (Expr D × ℚ)) : List (Expr D) := (if q = 1 then [] else [.num (.rat q)]) ++ P.map fac

theorem rl_one (P : List (Expr D × ℚ)) : rl 1 P = P.map fac := by simp [rl]

theorem rl_ne {q : ℚ} (h : q ≠ 1) (P : List (Expr D × ℚ)) : rl q P = .num (.rat q) :: P.map fac := by simp [rl, h]

/-- A number and a factor. -/
theorem tot_two_num_fac {q : ℚ} (hq : q ≠ 1) {f : Expr D × ℚ} (hf : QF cfg f) :
    Tot cfg (fun E => simplTwoFactors E (.num (.rat q)) (fac f)) [.num (.rat q), fac f] := by
  have hb : haveEqualBases (.num (.rat q)) (fac f) = false := by
    unfold haveEqualBases
    rw [hf.base_fac]
    refine isEqual_ne (exact_ratE _) hf.base.good.exact ?_
    rcases hf.base.shape with ⟨s, hs⟩ | ⟨l, hl⟩ <;> rw [‹f.1 = _›] <;> simp [Expr.base]
  simp only [simplTwoFactors, hf.isProduct, num_isProduct, Bool.or_self, Bool.false_eq_true, if_false,
    simplTwoFactorsWithoutProduct, isOne_ratE, hq, decide_false, hf.isOne, hf.isConst, Bool.and_false, hb, ordered,
    hf.permute_num]
  exact tot_pure _

theorem tot_two_fac_num {q : ℚ} (hq : q ≠ 1) {f : Expr D × ℚ} (hf : QF cfg f) :
    Tot cfg (fun E => simplTwoFactors E (fac f) (.num (.rat q))) [.num (.rat q), fac f] := by
  have hb : haveEqualBases (fac f) (.num (.rat q)) = false := by
    unfold haveEqualBases
    rw [hf.base_fac]
    refine isEqual_ne hf.base.good.exact (exact_ratE _) ?_
    rcases hf.base.shape with ⟨s, hs⟩ | ⟨l, hl⟩ <;> rw [‹f.1 = _›] <;> simp [Expr.base]
  simp only [simplTwoFactors, hf.isProduct, num_isProduct, Bool.or_self, Bool.false_eq_true, if_false,
    simplTwoFactorsWithoutProduct, isOne_ratE, hq, decide_false, hf.isOne, hf.isConst, Bool.false_and, hb, ordered,
    hf.permute_num', if_true]
  exact tot_pure _

theorem QF.ne_num {f : Expr D × ℚ} (hf : QF cfg f) (n : Number D) : fac f ≠ .num n := by
  have := hf.isNumeric
  intro h
  rw [h] at this
  simp [Expr.isNumeric] at this

/-- Two numbers, neither 1. -/
theorem tot_two_num {p q : ℚ} (hp : p ≠ 1) (hq : q ≠ 1) :
    Tot cfg (fun E => simplTwoFactors E (.num (.rat p)) (.num (.rat q))) (rl (p * q) []) := by
  simp only [simplTwoFactors, num_isProduct, Bool.or_self, Bool.false_eq_true, if_false,
    simplTwoFactorsWithoutProduct, isOne_ratE, hp, hq, decide_false, isConst, Bool.and_self, if_true, simplTwoConst,
    mulNumerics, Number.mul, eqv_rat_one, decide_eq_true_eq, rl, List.map_nil, List.append_nil]
  exact tot_pure _

theorem tot_mergeProd_rl {p q : ℚ} {P Q : List (Expr D × ℚ)} (hP : QFs cfg P) (hQ : QFs cfg Q) :
    Tot cfg (fun E => mergeProd E (rl p P) (rl q Q)) (rl (p * q) (mergeF P Q)) := by
  have key := tot_mergeProd_fac hP hQ
  by_cases hp : p = 1
  · subst hp
    by_cases hq : q = 1
    · subst hq; simpa only [rl_one, mul_one] using key
    · rw [rl_one, rl_ne hq, one_mul, rl_ne hq]
      match P with
      | [] => simp only [List.map_nil, mergeProd, mergeF]; exact tot_pure _
      | f :: P =>
        obtain ⟨hf, hP'⟩ := hP.cons
        simp only [List.map_cons, mergeProd]
        refine tot_bind (tot_two_fac_num hq hf) ?_
        simp only [areEqual_pair, isEqual_ne (exact_ratE q) hf.exact (hf.ne_num _).symm, isEqual_refl (exact_ratE q),
          isEqual_refl hf.exact, Bool.false_and, Bool.and_self, Bool.false_eq_true, if_false, if_true]
        exact tot_bind (tot_mergeProd key) (tot_pure _)
  · by_cases hq : q = 1
    · subst hq
      rw [rl_one, rl_ne hp, mul_one, rl_ne hp]
      match Q with
      | [] => simp only [List.map_nil, mergeProd, mergeF_nil]; exact tot_pure _
      | f :: Q =>
        obtain ⟨hf, hQ'⟩ := hQ.cons
        simp only [List.map_cons, mergeProd]
        refine tot_bind (tot_two_num_fac hp hf) ?_
        simp only [areEqual_pair, isEqual_refl (exact_ratE p), isEqual_refl hf.exact, Bool.and_self, if_true]
        exact tot_bind (tot_mergeProd key) (tot_pure _)
    · rw [rl_ne hp, rl_ne hq]
      simp only [mergeProd]
      refine tot_bind (tot_two_num hp hq) ?_
      by_cases h : p * q = 1
      · simp only [rl, h, if_true, List.map_nil, List.append_nil, List.nil_append]
        exact tot_mergeProd key
      · simp only [rl, h, if_false, List.map_nil, List.append_nil, isOne_ratE, decide_false, Bool.false_eq_true,
          List.cons_append, List.nil_append]
        exact tot_bind (tot_mergeProd key) (tot_pure _)

/-- A number that is not zero, or a factor. -/
def Item (cfg : Cfg D) (e : Expr D) : Prop := (∃ q : ℚ, q ≠ 0 ∧ e = .num (.rat q)) ∨ ∃ f, QF cfg f ∧ e = fac f

/-- The number, or 1. -/
def qOf : Expr D → ℚ
  | .num (.rat q) => q
  | _ => 1

/-- The product of the numbers. -/
def qs (l : List (Expr D)) : ℚ := (l.map qOf).prod

/-- A rational exponent. -/
def ratExp (e : Expr D) : ℚ := match e.exp with
  | .num (.rat q) => q
  | _ => 0

/-- The factors that are not numbers. -/
def fOf (l : List (Expr D)) : List (Expr D × ℚ) := (l.filter fun e => !e.isNumeric).map fun e => (e.base, ratExp e)

theorem QF.ratExp {f : Expr D × ℚ} (h : QF cfg f) : ratExp (fac f) = f.2 := by
  unfold Qf.ratExp
  rw [h.exp_fac]

theorem QF.fOf {f : Expr D × ℚ} (h : QF cfg f) : ((fac f).base, Qf.ratExp (fac f)) = f := by
  rw [h.base_fac, h.ratExp]

theorem QF.qOf {f : Expr D × ℚ} (h : QF cfg f) : qOf (fac f) = 1 := by
  have := h.isNumeric
  cases hf : fac f <;> simp_all [Qf.qOf, Expr.isNumeric]

section

variable {l : List (Expr D)}

theorem fOf_nil : fOf ([] : List (Expr D)) = [] := rfl
theorem fOf_num (q : ℚ) (l : List (Expr D)) : fOf (.num (.rat q) :: l) = fOf l := rfl
theorem fOf_fac {f : Expr D × ℚ} (h : QF cfg f) (l : List (Expr D)) : fOf (fac f :: l) = f :: fOf l := by
  unfold fOf
  rw [List.filter_cons_of_pos (by simp [h.isNumeric]), List.map_cons, h.fOf]

theorem qs_nil : qs ([] : List (Expr D)) = 1 := rfl
theorem qs_num (q : ℚ) (l : List (Expr D)) : qs (.num (.rat q) :: l) = q * qs l := by simp [qs, qOf]
theorem qs_fac {f : Expr D × ℚ} (h : QF cfg f) (l : List (Expr D)) : qs (fac f :: l) = qs l := by
  simp [qs, h.qOf]

theorem fOf_append (l m : List (Expr D)) : fOf (l ++ m) = fOf l ++ fOf m := by simp [fOf]
theorem qs_append (l m : List (Expr D)) : qs (l ++ m) = qs l * qs m := by simp [qs]

theorem fOf_map {P : List (Expr D × ℚ)} (h : QFs cfg P) : fOf (P.map fac) = P := by
  induction P with
  | nil => rfl
  | cons f P ih => rw [List.map_cons, fOf_fac h.cons.1, ih h.cons.2]

theorem qs_map {P : List (Expr D × ℚ)} (h : QFs cfg P) : qs (P.map fac) = 1 := by
  induction P with
  | nil => rfl
  | cons f P ih => rw [List.map_cons, qs_fac h.cons.1, ih h.cons.2]

theorem fOf_rl {P : List (Expr D × ℚ)} (h : QFs cfg P) (q : ℚ) : fOf (rl q P) = P := by
  unfold rl; split
  · rw [List.nil_append, fOf_map h]
  · rw [List.singleton_append, fOf_num, fOf_map h]

theorem qs_rl {P : List (Expr D × ℚ)} (h : QFs cfg P) (q : ℚ) : qs (rl q P) = q := by
  unfold rl; split
  · rename_i e; rw [List.nil_append, qs_map h, e]
  · rw [List.singleton_append, qs_num, qs_map h, mul_one]

theorem items_fOf (h : ∀ e ∈ l, Item cfg e) : QFs cfg (fOf l) ∧ (fOf l).map fac = l.filter (fun e => !e.isNumeric) ∧ qs l ≠ 0 := by
  induction l with
  | nil => exact ⟨by simp [fOf, QFs], rfl, by simp [qs]⟩
  | cons e l ih =>
    obtain ⟨h1, h2, h3⟩ := ih fun x hx => h x (by simp [hx])
    rcases h e (by simp) with ⟨q, hq, rfl⟩ | ⟨f, hf, rfl⟩
    · refine ⟨h1, ?_, ?_⟩
      · rw [fOf_num, h2]; rfl
      · rw [qs_num]; exact mul_ne_zero hq h3
    · rw [fOf_fac hf, qs_fac hf]
      refine ⟨?_, ?_, h3⟩
      · intro x hx
        rcases List.mem_cons.1 hx with rfl | hx
        · exact hf
        · exact h1 x hx
      · rw [List.map_cons, h2, List.filter_cons_of_pos (by simp [hf.isNumeric])]

theorem fOf_perm {l m : List (Expr D)} (h : l.Perm m) : (fOf l).Perm (fOf m) := (h.filter _).map _
theorem qs_perm {l m : List (Expr D)} (h : l.Perm m) : qs l = qs m := (h.map _).prod_eq

theorem pon (h : ∀ e ∈ l, Item cfg e) (p : ℚ) : productOfNumerics (.rat p) l = (.rat (p * qs l) : Number D) := by
  induction l generalizing p with
  | nil => simp [productOfNumerics, qs_nil]
  | cons e l ih =>
    have ih' := ih fun x hx => h x (by simp [hx])
    rcases h e (by simp) with ⟨q, hq, rfl⟩ | ⟨f, hf, rfl⟩
    · rw [qs_num, productOfNumerics]
      simp only [Number.mul]
      rw [ih', mul_assoc]
    · rw [qs_fac hf, ← ih']
      have := hf.isNumeric
      cases hf' : fac f <;> simp_all [productOfNumerics, Expr.isNumeric]

/-- The operands of a product, but 1 if there are none. -/
def rl1 (q : ℚ) (P : List (Expr D × ℚ)) : List (Expr D) := if q = 1 ∧ P = [] then [.num (.rat 1)] else rl q P

theorem contractNumerics_items (h : ∀ e ∈ l, Item cfg e) : contractNumerics l = rl1 (qs l) (fOf l) := by
  obtain ⟨h1, h2, h3⟩ := items_fOf h
  have one : ((1 : Number D)) = .rat 1 := by change Number.rat ((1 : ℕ) : ℚ) = _; norm_num
  unfold contractNumerics
  rw [← h2, one, pon h, one_mul, rl1, rl, ← one, eqv_rat_one]
  by_cases hq : qs l = 1
  · by_cases hf : fOf l = []
    · simp [hq, hf, one]
    · simp [hq, hf]
  · simp [hq]

theorem rl_items {q : ℚ} (hq : q ≠ 0) {P : List (Expr D × ℚ)} (h : QFs cfg P) : ∀ e ∈ rl q P, Item cfg e := by
  intro e he
  unfold rl at he
  rcases List.mem_append.1 he with he | he
  · split at he
    · simp at he
    · simp only [List.mem_singleton] at he
      exact .inl ⟨q, hq, he⟩
  · obtain ⟨f, hf, rfl⟩ := List.mem_map.1 he
    exact .inr ⟨f, h f hf, rfl⟩

theorem rl1_items {q : ℚ} (hq : q ≠ 0) {P : List (Expr D × ℚ)} (h : QFs cfg P) : ∀ e ∈ rl1 q P, Item cfg e := by
  unfold rl1
  split
  · intro e he; exact .inl ⟨1, one_ne_zero, by simpa using he⟩
  · exact rl_items hq h

theorem Item.trig {e : Expr D} (h : Item cfg e) : isContractableTrigFctPower e = pure false := by
  unfold isContractableTrigFctPower
  have : e.base.isFunction = false := by
    rcases h with ⟨q, hq, rfl⟩ | ⟨f, hf, rfl⟩
    · rfl
    · rw [hf.base_fac]
      rcases hf.base.shape with ⟨s, hs⟩ | ⟨l, hl⟩ <;> rw [‹f.1 = _›] <;> rfl
  rw [this]; rfl

theorem Item.numPow {e : Expr D} (h : Item cfg e) : e.isNumericPower = false := by
  rcases h with ⟨q, hq, rfl⟩ | ⟨f, hf, rfl⟩
  · rfl
  · exact hf.isNumericPower

theorem Item.isProduct {e : Expr D} (h : Item cfg e) : e.isProduct = false := by
  rcases h with ⟨q, hq, rfl⟩ | ⟨f, hf, rfl⟩
  · rfl
  · exact hf.isProduct

theorem Item.factors {e : Expr D} (h : Item cfg e) : factors e = [e] := by
  rcases h with ⟨q, hq, rfl⟩ | ⟨f, hf, rfl⟩
  · rfl
  · exact hf.factors

theorem tot_trigo (h : ∀ e ∈ l, Item cfg e) : Tot cfg (fun E => contractTrigonometrics E l) l := by
  refine tot_contract (simpl := fun E => contractTrigFctPowers E) fun x hx y hy => ?_
  unfold areContractableTrigFctPowers
  rw [(h x hx).trig]
  rfl

theorem tot_prepareConst (hc : cfg.Ok) (h : ∀ e ∈ l, Item cfg e) :
    ∃ P, P.Perm (fOf l) ∧ Tot cfg (fun E => prepareConst E l) (rl1 (qs l) P) := by
  have hp := hc.sort doPermute l
  have hs : ∀ e ∈ cfg.sort doPermute l, Item cfg e := fun e he => h e (hp.mem_iff.1 he)
  refine ⟨fOf (cfg.sort doPermute l), fOf_perm hp, ?_⟩
  have hcfg : ∀ n, (eng cfg n).cfg = cfg := fun n => by
    induction n with
    | zero => rfl
    | succ n ih => exact ih
  have e1 := contractNumerics_items hs
  rw [qs_perm hp] at e1
  obtain ⟨h1, h2, h3⟩ := items_fOf hs
  rw [qs_perm hp] at h3
  have hi := rl1_items h3 h1
  set v := rl1 (qs l) (fOf (cfg.sort doPermute l)) with hv
  have key : Tot cfg (fun E => contractConst E v >>= fun u =>
      contract E (fun a b => pure (areNumPowersWithEqualExp a b)) (simplTwoEqualExp E) u >>= fun u =>
        contract E (fun a b => pure (areNumPowersWithEqualExpDenom a b)) (simplTwoEqualExpDenom E) u) v := by
    refine tot_bind (a := v) (tot_contractConst ?_) (tot_bind (a := v) ?_ ?_)
    · intro i j x y hij hx hy
      have : ∀ e, Item cfg e → isContractableConst e = e.isNumeric := by
        intro e he
        rcases he with ⟨q, hq, rfl⟩ | ⟨f, hf, rfl⟩
        · rfl
        · unfold isContractableConst; rw [hf.isConst, hf.isNumeric]; rfl
      rw [this x (hi x (List.mem_of_getElem? hx)), this y (hi y (List.mem_of_getElem? hy))]
      by_contra hcon
      simp only [Bool.not_eq_false, Bool.and_eq_true] at hcon
      have tail : ∀ (k : ℕ) (e : Expr D), v[k + 1]? = some e → e.isNumeric = false := by
        intro k e he
        rw [hv] at he
        unfold rl1 at he
        split at he
        · simp at he
        · unfold rl at he
          have hmem : ∀ (k : ℕ) (e : Expr D), ((fOf (cfg.sort doPermute l)).map fac)[k]? = some e → e.isNumeric = false := by
            intro k e he
            obtain ⟨f, hf, rfl⟩ := List.mem_map.1 (List.mem_of_getElem? he)
            exact (h1 f hf).isNumeric
          split at he
          · exact hmem _ _ he
          · exact hmem k e (by simpa using he)
      rcases i with _ | i
      · rcases j with _ | j
        · exact hij rfl
        · rw [tail j y hy] at hcon; simp at hcon
      · rw [tail i x hx] at hcon; simp at hcon
    · refine tot_contract (simpl := fun E => simplTwoEqualExp E) fun x hx y hy => ?_
      unfold areNumPowersWithEqualExp
      rw [(hi x hx).numPow]; rfl
    · refine tot_contract (simpl := fun E => simplTwoEqualExpDenom E) fun x hx y hy => ?_
      have := (hi x hx).numPow
      unfold areNumPowersWithEqualExpDenom
      split
      · simp [Expr.isNumericPower, Expr.isNumeric] at this
      · rfl
  obtain ⟨N, hN⟩ := key
  refine ⟨N, fun n hn => ?_⟩
  unfold prepareConst
  dsimp only
  rw [hcfg, e1]
  exact hN n hn

/-- The list `R` is in order and has the exponents of `P`. -/
structure Nf (cfg : Cfg D) (P R : List (Expr D × ℚ)) : Prop where
  can : Can cfg R
  cnt : cnt R = cnt P

theorem Nf.nil : Nf cfg ([] : List (Expr D × ℚ)) [] := ⟨Can.nil, rfl⟩
theorem Nf.single {f : Expr D × ℚ} (h : QF cfg f) : Nf cfg [f] [f] := ⟨Can.single h, rfl⟩
theorem Nf.merge {P Q R S : List (Expr D × ℚ)} (h : Nf cfg P R) (h' : Nf cfg Q S) : Nf cfg (P ++ Q) (mergeF R S) := by
  obtain ⟨h1, h2, _⟩ := mergeF_can h.can h'.can
  exact ⟨h1, by rw [h2, h.cnt, h'.cnt, cnt_append]⟩
theorem Nf.perm {P Q R : List (Expr D × ℚ)} (h : Nf cfg P R) (hp : P.Perm Q) : Nf cfg Q R := ⟨h.can, by rw [h.cnt, cnt_perm hp]⟩
theorem Nf.facs {P R : List (Expr D × ℚ)} (h : Nf cfg P R) : QFs cfg R := h.can.facs
theorem Nf.unique {P R S : List (Expr D × ℚ)} (h : Nf cfg P R) (h' : Nf cfg P S) : R = S := h.can.ext h'.can (by rw [h.cnt, h'.cnt])

theorem Nf.sub {P R : List (Expr D × ℚ)} (h : Nf cfg P R) : ∀ f ∈ R, ∃ g ∈ P, g.1 = f.1 := by
  intro f hf
  by_contra hn
  have := (h.can.mem_iff f).1 hf
  rw [h.cnt, cnt_none fun g hg e => hn ⟨g, hg, e⟩] at this
  exact this.2 this.1.symm

/-- What `simplProd` returns for a number and factors. -/
def Out (q : ℚ) (R : List (Expr D × ℚ)) (r : List (Expr D)) : Prop := r = rl q R ∨ r = rl1 q R

theorem Out.cases {q : ℚ} {R : List (Expr D × ℚ)} {r : List (Expr D)} (h : Out q R r) :
    r = rl q R ∨ (q = 1 ∧ R = [] ∧ r = [.num (.rat 1)]) := by
  rcases h with h | h
  · exact .inl h
  · unfold rl1 at h
    split at h
    · rename_i e; exact .inr ⟨e.1, e.2, h⟩
    · exact .inl h

/-- Two factors. -/
theorem tot_two_fac {f g : Expr D × ℚ} (hf : QF cfg f) (hg : QF cfg g) :
    ∃ r, Tot cfg (fun E => simplTwoFactors E (fac f) (fac g)) r ∧ Out 1 (mergeF [f] [g]) r := by
  refine ⟨_, tot_simplTwoFactors hf hg, ?_⟩
  simp only [mergeF]
  unfold ordered
  split
  · split
    · rename_i h0; right; simp [fac0, h0, rl1, one_eq]
    · rename_i h0; left; simp [fac0, h0, rl_one]
  · split
    · left; simp [rl_one]
    · left; simp [rl_one]

theorem tot_merge_out {p q : ℚ} {P R : List (Expr D × ℚ)} {r : List (Expr D)} (hP : QFs cfg P) (hR : QFs cfg R)
    (h : Out q R r) : ∃ r', Tot cfg (fun E => mergeProd E (rl p P) r) r' ∧ Out (p * q) (mergeF P R) r' := by
  rcases h.cases with rfl | ⟨rfl, rfl, rfl⟩
  · exact ⟨_, tot_mergeProd_rl hP hR, .inl rfl⟩
  · rw [mul_one, mergeF_nil]
    match hl : rl p P with
    | [] =>
      refine ⟨[.num (.rat 1)], by simp only [mergeProd]; exact tot_pure _, .inr ?_⟩
      have hp : p = 1 := by by_contra hp; rw [rl_ne hp] at hl; simp at hl
      subst hp
      rw [rl_one] at hl
      rw [List.map_eq_nil_iff.1 hl]; simp [rl1]
    | x :: l =>
      refine ⟨x :: l, ?_, .inl hl.symm⟩
      have hx : x.isProduct = false ∧ x.isOne = false := by
        have hx : x ∈ rl p P := by rw [hl]; simp
        unfold rl at hx
        rcases List.mem_append.1 hx with hx | hx
        · split at hx
          · simp at hx
          · rename_i hp; rw [List.mem_singleton.1 hx]; exact ⟨rfl, by simp [isOne_ratE, hp]⟩
        · obtain ⟨f, hf, rfl⟩ := List.mem_map.1 hx
          exact ⟨(hP f hf).isProduct, (hP f hf).isOne⟩
      simp only [mergeProd]
      refine tot_bind (a := [x]) ?_ ?_
      · simp only [simplTwoFactors, hx.1, num_isProduct, Bool.or_self, Bool.false_eq_true, if_false,
          simplTwoFactorsWithoutProduct, hx.2, isOne_ratE, decide_true, if_true]
        exact tot_pure _
      · simp only [hx.2, Bool.false_eq_true, if_false]
        refine tot_bind (a := l) (tot_mergeProd ?_) (tot_pure _)
        cases l <;> simp only [mergeProd] <;> exact tot_pure _

theorem QFs.of_perm {P Q : List (Expr D × ℚ)} (hp : Q.Perm P) (hP : QFs cfg P) : QFs cfg Q :=
  fun f hf => hP f (hp.mem_iff.1 hf)

theorem tot_simplProd_fac (hc : cfg.Ok) {P : List (Expr D × ℚ)} (hP : QFs cfg P) (h2 : 2 ≤ P.length) :
    ∃ R r, Nf cfg P R ∧ Tot cfg (fun E => simplProd E (P.map fac)) r ∧ Out 1 R r := by
  induction hn : P.length using Nat.strong_induction_on generalizing P with
  | _ n ih =>
  have items : ∀ e ∈ P.map fac, Item cfg e := by
    intro e he
    obtain ⟨f, hf, rfl⟩ := List.mem_map.1 he
    exact .inr ⟨f, hP f hf, rfl⟩
  have flat : (P.map fac).flatMap factors = P.map fac := by
    clear ih hn h2
    induction P with
    | nil => rfl
    | cons f P ih =>
      rw [List.map_cons, List.flatMap_cons, hP.cons.1.factors, ih hP.cons.2 fun e he => items e (by
        rw [List.map_cons]; exact List.mem_cons_of_mem _ he)]
      rfl
  have ex : Tot cfg (fun E => extractProducts E (P.map fac)) (P.map fac) := by
    have := tot_extract (cfg := cfg) (u := P.map fac) fun l hl => by
      have := (items _ hl).isProduct; simp [Expr.isProduct] at this
    rwa [flat] at this
  have start : ∀ r, Tot cfg (fun E => match P.map fac with
      | [f1, f2] => simplTwoFactors E f1 f2
      | u => prepareConst E u >>= simplPreparedFactors E) r → Tot cfg (fun E => simplProd E (P.map fac)) r :=
    fun r hr => tot_bind ex (tot_bind (tot_trigo items) hr)
  match P, h2 with
  | [f, g], _ =>
    have hf := hP.cons.1
    have hg := hP.cons.2.cons.1
    obtain ⟨r, hr, ho⟩ := tot_two_fac hf hg
    exact ⟨mergeF [f] [g], r, (Nf.single hf).merge (Nf.single hg), start _ hr, ho⟩
  | f :: g :: k :: P, _ =>
    obtain ⟨Q, hQ, hprep⟩ := tot_prepareConst hc items
    rw [fOf_map hP] at hQ
    rw [qs_map hP] at hprep
    have hl := hQ.length_eq
    match Q, hl with
    | f' :: g' :: k' :: Q, hl =>
      have hQ' := QFs.of_perm hQ hP
      obtain ⟨R, r, hR, hT, ho⟩ := ih (g' :: k' :: Q).length (by simp at hl hn ⊢; omega) hQ'.cons.2 (by simp) rfl
      obtain ⟨r', hr', ho'⟩ := tot_merge_out (p := 1) (QFs.single hQ'.cons.1) hR.facs ho
      refine ⟨mergeF [f'] R, r', ((Nf.single hQ'.cons.1).merge hR).perm hQ, start _ ?_, by rwa [one_mul] at ho'⟩
      refine tot_bind hprep ?_
      simp only [rl1, List.cons_ne_nil, and_false, if_false, rl_one, List.map_cons, simplPreparedFactors]
      refine tot_bind (tot_simplProd hT) (tot_mergeProd ?_)
      simpa only [rl_one, List.map_cons, List.map_nil] using hr'

/-- The result of `simplProd` for numbers, factors and products of these. -/
theorem tot_simplProd_items (hc : cfg.Ok) {u : List (Expr D)} (h : ∀ e ∈ u.flatMap factors, Item cfg e) :
    ∃ R r, Nf cfg (fOf (u.flatMap factors)) R ∧ Tot cfg (fun E => simplProd E u) r ∧ Out (qs (u.flatMap factors)) R r := by
  have ex : Tot cfg (fun E => extractProducts E u) (u.flatMap factors) := tot_extract fun l hl x hx =>
    (h x (List.mem_flatMap.2 ⟨_, hl, hx⟩)).isProduct
  generalize hw : u.flatMap factors = w at *
  have start : ∀ r, Tot cfg (fun E => match w with
      | [f1, f2] => simplTwoFactors E f1 f2
      | u => prepareConst E u >>= simplPreparedFactors E) r → Tot cfg (fun E => simplProd E u) r :=
    fun r hr => tot_bind ex (tot_bind (tot_trigo h) hr)
  have general : ∃ R r, Nf cfg (fOf w) R ∧ Tot cfg (fun E => prepareConst E w >>= simplPreparedFactors E) r ∧ Out (qs w) R r := by
    obtain ⟨Q, hQ, hprep⟩ := tot_prepareConst hc h
    have hQ' := QFs.of_perm hQ (items_fOf h).1
    suffices ∃ R r, Nf cfg Q R ∧ Tot cfg (fun E => simplPreparedFactors E (rl1 (qs w) Q)) r ∧ Out (qs w) R r by
      obtain ⟨R, r, hR, hT, ho⟩ := this
      exact ⟨R, r, hR.perm hQ, tot_bind hprep hT, ho⟩
    by_cases hq : qs w = 1
    · rw [hq]
      match Q with
      | [] => exact ⟨[], _, Nf.nil, by simp only [rl1, and_self, if_true, simplPreparedFactors]; exact tot_pure _, .inr (by simp [rl1])⟩
      | [f] =>
        refine ⟨[f], [fac f], Nf.single hQ'.cons.1, ?_, .inl (by simp [rl_one])⟩
        simp only [rl1, List.cons_ne_nil, and_false, if_false, rl_one, List.map_cons, List.map_nil, simplPreparedFactors]
        exact tot_pure _
      | [f, g] =>
        have hf := hQ'.cons.1
        have hg := hQ'.cons.2.cons.1
        obtain ⟨r, hr, ho⟩ := tot_two_fac hf hg
        refine ⟨mergeF [f] [g], r, (Nf.single hf).merge (Nf.single hg), ?_, ho⟩
        simp only [rl1, List.cons_ne_nil, and_false, if_false, rl_one, List.map_cons, List.map_nil,
          simplPreparedFactors]
        exact hr
      | f :: g :: k :: Q =>
        obtain ⟨R, r, hR, hT, ho⟩ := tot_simplProd_fac hc hQ'.cons.2 (by simp)
        obtain ⟨r', hr', ho'⟩ := tot_merge_out (p := 1) (QFs.single hQ'.cons.1) hR.facs ho
        refine ⟨mergeF [f] R, r', (Nf.single hQ'.cons.1).merge hR, ?_, by rwa [one_mul] at ho'⟩
        simp only [rl1, List.cons_ne_nil, and_false, if_false, rl_one, List.map_cons, simplPreparedFactors]
        refine tot_bind (tot_simplProd hT) (tot_mergeProd ?_)
        simpa only [rl_one, List.map_cons, List.map_nil] using hr'
    · have e : ∀ R : List (Expr D × ℚ), rl1 (qs w) R = rl (qs w) R := fun R => by simp [rl1, hq]
      simp only [e]
      match Q with
      | [] => exact ⟨[], _, Nf.nil, by simp only [rl_ne hq, List.map_nil, simplPreparedFactors]; exact tot_pure _, .inl (by simp [rl_ne hq])⟩
      | [f] =>
        refine ⟨[f], _, Nf.single hQ'.cons.1, ?_, .inl rfl⟩
        simp only [rl_ne hq, List.map_cons, List.map_nil, simplPreparedFactors]
        exact tot_two_num_fac hq hQ'.cons.1
      | f :: g :: Q =>
        obtain ⟨R, r, hR, hT, ho⟩ := tot_simplProd_fac hc hQ' (by simp)
        obtain ⟨r', hr', ho'⟩ := tot_merge_out (p := qs w) (P := []) QFs.nil hR.facs ho
        refine ⟨R, r', hR, ?_, by rwa [mul_one, nil_mergeF] at ho'⟩
        simp only [rl_ne hq, List.map_cons, simplPreparedFactors]
        refine tot_bind (tot_simplProd hT) (tot_mergeProd ?_)
        simpa only [rl_ne hq, List.map_nil] using hr'
  by_cases h2 : w.length = 2
  · obtain ⟨x, y, rfl⟩ := List.length_eq_two.1 h2
    have hx := h x (by simp)
    have hy := h y (by simp)
    rcases hx with ⟨p, hp, rfl⟩ | ⟨f, hf, rfl⟩
    · rcases hy with ⟨q, hq, rfl⟩ | ⟨g, hg, rfl⟩
      · refine ⟨[], ?_⟩
        simp only [qs_num, qs_nil, fOf_num, fOf_nil, mul_one]
        by_cases h1 : p = 1
        · subst h1
          refine ⟨[.num (.rat q)], Nf.nil, start _ ?_, ?_⟩
          · simp only [simplTwoFactors, simplTwoFactorsWithoutProduct, num_isProduct, isOne_ratE]
            exact tot_pure _
          · by_cases h3 : q = 1
            · subst h3; right; simp [rl1]
            · left; simp [rl_ne h3]
        · by_cases h3 : q = 1
          · subst h3
            refine ⟨[.num (.rat p)], Nf.nil, start _ ?_, ?_⟩
            · simp only [simplTwoFactors, simplTwoFactorsWithoutProduct, num_isProduct, isOne_ratE, h1, decide_false,
                Bool.or_self, Bool.false_eq_true, if_false, decide_true, if_true]
              exact tot_pure _
            · left; rw [mul_one, rl_ne h1]; rfl
          · exact ⟨_, Nf.nil, start _ (tot_two_num h1 h3), .inl rfl⟩
      · refine ⟨[g], ?_⟩
        simp only [qs_num, qs_fac hg, qs_nil, fOf_num, fOf_nil, fOf_fac hg, mul_one]
        by_cases h1 : p = 1
        · subst h1
          refine ⟨[fac g], Nf.single hg, start _ ?_, ?_⟩
          · simp only [simplTwoFactors, simplTwoFactorsWithoutProduct, num_isProduct, isOne_ratE, hg.isProduct]
            exact tot_pure _
          · left; simp [rl_one]
        · exact ⟨_, Nf.single hg, start _ (tot_two_num_fac h1 hg), .inl (by simp [rl_ne h1])⟩
    · rcases hy with ⟨q, hq, rfl⟩ | ⟨g, hg, rfl⟩
      · refine ⟨[f], ?_⟩
        simp only [qs_num, qs_fac hf, qs_nil, fOf_num, fOf_nil, fOf_fac hf, mul_one]
        by_cases h1 : q = 1
        · subst h1
          refine ⟨[fac f], Nf.single hf, start _ ?_, ?_⟩
          · simp only [simplTwoFactors, simplTwoFactorsWithoutProduct, num_isProduct, isOne_ratE, hf.isProduct, hf.isOne,
              Bool.or_self, Bool.false_eq_true, if_false, decide_true, if_true]
            exact tot_pure _
          · left; simp [rl_one]
        · exact ⟨_, Nf.single hf, start _ (tot_two_fac_num h1 hf), .inl (by simp [rl_ne h1])⟩
      · obtain ⟨r, hr, ho⟩ := tot_two_fac hf hg
        refine ⟨mergeF [f] [g], r, ?_, start _ hr, ?_⟩
        · rw [fOf_fac hf, fOf_fac hg]
          exact (Nf.single hf).merge (Nf.single hg)
        · rw [qs_fac hf, qs_fac hg, qs_nil]; exact ho
  · obtain ⟨R, r, hR, hT, ho⟩ := general
    refine ⟨R, r, hR, start _ ?_, ho⟩
    split
    · simp at h2
    · exact hT

end

end Qf

end Tsym
