import Verif.TrigSym
import Verif.SqrtSum

set_option autoImplicit false
set_option linter.unusedSectionVars false
set_option linter.unusedSimpArgs false
set_option linter.unusedVariables false

/-!
# Helper lemmas: sums of two square roots, and numbers times such sums
-/

namespace Tsym

namespace Number

variable {D : Type} [Flt D] [LawfulFlt D]

theorem ofInts_total {n d : ℤ} (h : d ≠ 0) : ∃ r : Number D, ofInts n d = .ok r := by
  unfold ofInts; rw [if_neg h]; exact ⟨_, rfl⟩

theorem tryGetBase_total {n d : ℤ} (h : 0 < d) (h2 : d ≤ unsignedMax) : ∃ r, tryGetBase D n d = .ok r := by
  unfold tryGetBase
  split
  · exact ⟨_, rfl⟩
  · rw [if_pos ⟨h, h2⟩]; exact ⟨_, rfl⟩

theorem denomPower_total {d : ℤ} {r : Number D} (h : 0 < d) (h2 : d ≤ unsignedMax) : ∃ s, denomPower d r = .ok s := by
  unfold denomPower
  obtain ⟨a, ha⟩ := tryGetBase_total (D := D) (n := r.numerator) h h2
  obtain ⟨b, hb⟩ := tryGetBase_total (D := D) (n := r.denominator) h h2
  simp only [ha, hb, bind, Except.bind]
  split_ifs with h1 h3
  · exact ⟨_, rfl⟩
  · exact ⟨_, rfl⟩
  · push Not at h3
    exact ofInts_total h3.2

/-- A root of a positive number always has a value. -/
theorem toThe_total {b : Number D} {e : ℚ} (hb : 0 < b.val) (he : (e.num.natAbs : ℤ) ≤ unsignedMax) (he2 : (e.den : ℤ) ≤ unsignedMax) :
    ∃ r, b.toThe (.rat e) = .ok r ∧ r.val = b.val ^ (e : ℝ) := by
  suffices ∃ r, b.toThe (.rat e) = .ok r by
    obtain ⟨r, hr⟩ := this
    exact ⟨r, hr, by simpa using toThe_pos hr hb⟩
  have pw : ∃ r, posPower b (.rat e) = .ok r := by
    unfold posPower
    split
    · exact ⟨_, rfl⟩
    · have : ∃ r : Number D, numPower b (Number.rat e : Number D).numerator = .ok r := by
        unfold numPower
        have h1 : ¬ unsignedMax < ((Number.rat e : Number D).numerator.natAbs : ℤ) := not_lt.2 he
        simp only [h1, if_false]
        rename_i hd
        cases b with
        | dbl d => simp [isDouble] at hd
        | rat q =>
          have hq : 0 < q := by simpa using hb
          have hn : q.num ≠ 0 := (Rat.num_pos.2 hq).ne'
          split
          · exact ofInts_total (pow_ne_zero _ hn)
          · exact ofInts_total (pow_ne_zero _ (by simp [denominator, q.den_nz]))
      obtain ⟨r, hr⟩ := this
      simp only [hr, bind, Except.bind]
      exact denomPower_total (by simpa [denominator] using e.den_pos) (by simpa [denominator] using he2)
  obtain ⟨r, hr⟩ := pw
  have h0 : b.eqv 0 = false := by rw [eqv_false]; simp [hb.ne']
  have hl : b.lt 0 = false := by
    rw [Bool.eq_false_iff, Ne, lt_iff]; simp [hb.le]
  have hg : Number.lt 0 b = true := by rw [lt_iff]; simpa using hb
  have hm : b.eqv (neg 1) = false := by
    rw [eqv_false]; simp; intro h; linarith
  unfold toThe toTheAux trivialPower
  simp only [h0, hl, hm, Bool.false_and, Bool.false_eq_true, if_false, Bool.false_or]
  split_ifs with h1 h2
  · exact ⟨_, rfl⟩
  · exact ⟨_, rfl⟩
  · simp only [bind, Except.bind]
    exact ⟨r, hr⟩

end Number

open Expr NumPowerSimpl

variable {D : Type} [Flt D] [LawfulFlt D] {cfg : Cfg D}

/-! ## Multiples of one root -/

/-- A multiple of a root that stays as it is. -/
structure St (cfg : Cfg D) (p a : ℚ) : Prop where
  simple : Simple cfg.maxPrime a
  ne : p ≠ 0
  same : RootOf cfg.maxPrime a p p a

theorem St.ne_one {p a : ℚ} (h : St cfg p a) : a ≠ 1 := h.simple.2.1

theorem St.tot_prod {p a : ℚ} (h : St cfg p a) (hp : p ≠ 1) : Tot cfg (fun E => prodCreate E [num (.rat p), (rootE a : Expr D)]) (.prod [num (.rat p), rootE a]) := by
  have := (tot_prod_numRoot (D := D) h.simple h.ne hp h.same).1
  rwa [surd, if_neg h.ne_one, if_neg hp] at this

theorem surd_exact (p a : ℚ) : Exact (surd p a : Expr D) := by
  unfold surd
  split_ifs
  · exact exact_ratE _
  · exact rootE_exact _
  · refine exact_of_op (by simp) (by simp) fun o ho => ?_
    simp only [operands, List.mem_cons, List.not_mem_nil, or_false] at ho
    rcases ho with rfl | rfl
    · exact exact_ratE _
    · exact rootE_exact _

theorem rootE_inj {a b : ℚ} (ha : 0 < a) (hb : 0 < b) (h : (rootE a : Expr D) = rootE b) : a = b := by
  unfold rootE at h
  split_ifs at h <;> simp only [Expr.pow.injEq, Expr.num.injEq, Number.rat.injEq] at h
  · exact inv_injective h.1
  · norm_num at h
  · norm_num at h
  · exact h.1

theorem surd_isConst {p a : ℚ} (ha : a ≠ 1) : (surd p a : Expr D).isConst = true := by
  unfold surd
  rw [if_neg ha]
  split_ifs
  · exact rootE_isConst a
  · simp [isConst, rootE_isConst, allConst]

/-- The constant term and the expansion. -/
theorem St.terms {p a : ℚ} (h : St cfg p a) :
    Tot cfg (fun E => constTerm E (surd p a : Expr D)) (surd p a) ∧ Tot cfg (fun E => E.expand (surd p a : Expr D)) (surd p a) := by
  obtain ⟨B, X, hB, hX⟩ := rootE_cases (D := D) a
  have hx : Tot cfg (fun E => E.expand (rootE a : Expr D)) (rootE a) := by
    refine tot_expand ?_
    rw [hB]
    simp only [expand]
    have hi : isInteger (num (.rat X) : Expr D) = .ok false := by
      have : (Number.rat X : Number D).isInt = false := by
        rcases hX with ⟨_, _, rfl⟩ | ⟨_, _, rfl⟩
        · have : (-(1 / 2) : ℚ).den = 2 := by rw [Rat.neg_den]; exact half_den
          simp only [Number.isInt, Number.denominator, Number.isDouble, this]; rfl
        · simp only [Number.isInt, Number.denominator, Number.isDouble, half_den]; rfl
      simp only [isInteger, numEval, bind, Except.bind, pure, Except.pure, this]
    refine tot_bind (tot_lift hi) ?_
    simp only [Bool.false_eq_true, if_false]; exact tot_pure _
  unfold surd
  rw [if_neg h.ne_one]
  by_cases hp : p = 1
  · simp only [hp, if_true]
    refine ⟨?_, hx⟩
    have hc := rootE_isConst (D := D) a
    rw [hB] at hc ⊢
    simp only [constTerm, hc, if_true]; exact tot_pure _
  · simp only [hp, if_false]
    have hpr := h.tot_prod hp
    have hce : constElements [num (.rat p), (rootE a : Expr D)] = [num (.rat p), rootE a] := by
      simp only [constElements]
      rw [List.filter_cons_of_pos (by simp [isConst]), List.filter_cons_of_pos (rootE_isConst a), List.filter_nil]
    refine ⟨?_, ?_⟩
    · simp only [constTerm, hce, List.isEmpty_cons, Bool.false_eq_true, if_false]
      exact Tsym.tot_prod hpr
    · refine tot_expand ?_
      simp only [expand]
      refine tot_expandAsProduct ?_
      unfold expandAsProduct
      refine tot_bind (a := ([num (.rat p), rootE a], [])) ?_ ?_
      · simp only [defScalarAndSums]
        refine tot_bind (a := num (.rat p)) (tot_expand (by simp only [expand]; exact tot_pure _))
          (tot_bind (a := ([rootE a], [])) (tot_bind hx (tot_bind (a := ([], [])) (tot_pure _) ?_)) ?_)
        · simp only [rootE_isSum, Bool.false_eq_true, if_false]; exact tot_pure _
        · simp only [show (num (.rat p) : Expr D).isSum = false from rfl, Bool.false_eq_true, if_false]; exact tot_pure _
      · simp only [List.isEmpty_cons, Bool.false_eq_true, if_false]
        exact tot_bind (Tsym.tot_prod hpr) (tot_pure _)

/-! ## Sums of two different constants -/

/-- What is needed of a constant summand. -/
structure CS (cfg : Cfg D) (x : Expr D) : Prop where
  undef : x.isUndefined = false
  zero : x.isZero = false
  sum : x.isSum = false
  nct : Tot cfg (fun E => nonConstTerm E x) one
  ct : Tot cfg (fun E => constTerm E x) x
  exp : Tot cfg (fun E => E.expand x) x

theorem St.cs {p a : ℚ} (h : St cfg p a) : CS cfg (surd p a : Expr D) := by
  obtain ⟨u, z, s, n, a1, a2, a3⟩ := surd_facts (D := D) (cfg := cfg) h.ne_one h.ne
  exact ⟨u, z, s, a1, h.terms.1, h.terms.2⟩

theorem cs_num {q : ℚ} (hq : q ≠ 0) : CS cfg (num (.rat q) : Expr D) := by
  refine ⟨rfl, by rw [isZero_ratE]; simpa using hq, rfl, ?_, ?_, tot_expand ?_⟩
  · simp only [nonConstTerm]; exact tot_pure _
  · simp only [constTerm]; exact tot_pure _
  · simp only [expand]; exact tot_pure _

/-- The sum of two constants that have nothing in common. -/
theorem tot_sum_cs {x y n1 n2 : Expr D} (hx : CS cfg x) (hy : CS cfg y) (h1 : Tot cfg (fun E => nonNumericTerm E x) n1)
    (h2 : Tot cfg (fun E => nonNumericTerm E y) n2) (hne : isEqual n1 n2 = false) (hn : x.isNumeric = false ∨ y.isNumeric = false) :
    Tot cfg (fun E => sumCreate E [x, y]) (.sum (ordered x y)) := by
  have ho : (one : Expr D).isOne = true := by rw [one_eq, isOne_ratE]; simp
  have key : Tot cfg (fun E => simplTwoOther E x y) (ordered x y) := by
    unfold simplTwoOther
    refine tot_bind (a := false) (tot_whenTrue ?_) ?_
    · unfold haveEqualNonConstTerms
      refine tot_bind hx.nct (tot_bind hy.nct ?_)
      simp only [ho, Bool.or_self, if_true]; exact tot_pure _
    simp only [Bool.false_eq_true, if_false]
    refine tot_bind (a := false) (tot_whenTrue ?_) ?_
    · unfold haveEqualNonNumericTerms
      refine tot_bind h1 (tot_bind h2 ?_)
      rw [hne]; exact tot_pure _
    simp only [Bool.false_eq_true, if_false]
    refine tot_bind (a := false) (tot_whenTrue ?_) ?_
    · unfold haveContractableSinCos
      refine tot_bind hx.nct (tot_bind hy.nct (tot_bind hx.ct (tot_bind hy.ct ?_)))
      split
      · refine tot_bind (a := false) ?_ ?_
        · unfold areSinAndCosSquare
          simp only [show (one : Expr D).isPower = false from rfl, Bool.not_false, Bool.true_or, if_true]
          exact tot_pure _
        · simp only [Bool.false_eq_true, if_false]; exact tot_pure _
      · exact tot_pure _
    simp only [Bool.false_eq_true, if_false]
    exact tot_pure _
  have hm : Tot cfg (fun E => simplTwoSummandsWithoutSum E x y) (ordered x y) := by
    unfold simplTwoSummandsWithoutSum
    simp only [hx.zero, hy.zero, Bool.false_eq_true, if_false]
    split
    · rcases hn with h | h <;> cases h
    · exact key
  simp only [sumCreate, List.any_cons, List.any_nil, hx.undef, hy.undef, Bool.or_self, Bool.false_eq_true, if_false]
  refine tot_bind (tot_sumSimplify ?_) ?_ (a := ordered x y)
  · simp only [simplSum, simplTwoSummands, hx.sum, hy.sum, Bool.or_self, Bool.false_eq_true, if_false]
    exact hm
  · unfold ordered
    by_cases h : doPermute x y = true
    · simp only [h, if_true]; exact tot_pure _
    · simp only [h, Bool.false_eq_true, if_false]; exact tot_pure _

/-- Multiples of two different roots. -/
theorem tot_sum_roots {p q a b : ℚ} (h1 : St cfg p a) (h2 : St cfg q b) (hab : a ≠ b) :
    Tot cfg (fun E => sumCreate E [surd p a, surd q b]) (.sum (ordered (surd p a) (surd q b)) : Expr D) := by
  obtain ⟨_, _, _, n, _, a2, _⟩ := surd_facts (D := D) (cfg := cfg) h1.ne_one h1.ne
  obtain ⟨_, _, _, _, _, b2, _⟩ := surd_facts (D := D) (cfg := cfg) h2.ne_one h2.ne
  exact tot_sum_cs h1.cs h2.cs a2 b2 (isEqual_ne (rootE_exact a) (rootE_exact b) fun e => hab (rootE_inj h1.simple.1 h2.simple.1 e)) (.inl n)

/-- A number and a multiple of a root. -/
theorem tot_sum_num_root {c q b : ℚ} (hc : c ≠ 0) (h2 : St cfg q b) :
    Tot cfg (fun E => sumCreate E [num (.rat c), surd q b]) (.sum (ordered (num (.rat c)) (surd q b)) : Expr D) := by
  obtain ⟨_, _, _, n, _, b2, _⟩ := surd_facts (D := D) (cfg := cfg) h2.ne_one h2.ne
  refine tot_sum_cs (cs_num hc) h2.cs (n1 := one) (by simp only [nonNumericTerm]; exact tot_pure _) b2 ?_ (.inr n)
  refine isEqual_ne (by rw [one_eq]; exact exact_ratE _) (rootE_exact b) ?_
  obtain ⟨B, X, hB, _⟩ := rootE_cases (D := D) b
  rw [hB, one_eq]; simp

/-! ## A number times a multiple of a root -/

theorem contractNumerics_root (hc : cfg.Ok) (p q a : ℚ) : contractNumerics (cfg.sort doPermute [num (.rat p), num (.rat q), (rootE a : Expr D)]) =
    if p * q = 1 then [rootE a] else [num (.rat (p * q)), rootE a] := by
  have hperm := hc.sort doPermute [num (.rat p), num (.rat q), (rootE a : Expr D)]
  have hrn : (rootE a : Expr D).isNumeric = false := by
    obtain ⟨B, X, hB, _⟩ := rootE_cases (D := D) a; rw [hB]; rfl
  have hf : (cfg.sort doPermute [num (.rat p), num (.rat q), (rootE a : Expr D)]).filter (fun e => !e.isNumeric) = [rootE a] := by
    have := hperm.filter (fun e : Expr D => !e.isNumeric)
    have e : [num (.rat p), num (.rat q), (rootE a : Expr D)].filter (fun e => !e.isNumeric) = [rootE a] := by
      rw [List.filter_cons_of_neg (by simp [Expr.isNumeric]), List.filter_cons_of_neg (by simp [Expr.isNumeric]), List.filter_cons_of_pos (by simp [hrn]), List.filter_nil]
    rw [e, List.perm_singleton] at this
    exact this
  have hpon : ∀ {l : List (Expr D)}, l.Perm [num (.rat p), num (.rat q), rootE a] → productOfNumerics 1 l = .rat (p * q) := by
    intro l hl
    have gen : ∀ (l : List (Expr D)) (c : ℚ), (∀ x ∈ l, (∃ q : ℚ, x = num (.rat q)) ∨ x = rootE a) →
        productOfNumerics (.rat c) l = (.rat (c * qs l) : Number D) := by
      intro l
      induction l with
      | nil => intro c _; simp [productOfNumerics, qs]
      | cons x l ih =>
        intro c hx
        have ih := ih
        unfold qs at ih ⊢
        rcases hx x (by simp) with ⟨q, rfl⟩ | rfl
        · simp only [productOfNumerics, Number.mul, ih _ fun y hy => hx y (by simp [hy]), List.map_cons, List.prod_cons, qOf, mul_assoc]
        · obtain ⟨B, X, hB, _⟩ := rootE_cases (D := D) a
          have := ih c fun y hy => hx y (by simp [hy])
          rw [hB]
          simpa [productOfNumerics, qOf] using this
    rw [Number.one_def, gen l 1 (by
      intro x hx
      have := hl.mem_iff.1 hx
      simp only [List.mem_cons, List.not_mem_nil, or_false] at this
      rcases this with rfl | rfl | rfl
      · exact .inl ⟨_, rfl⟩
      · exact .inl ⟨_, rfl⟩
      · exact .inr rfl), qs_perm hl]
    obtain ⟨B, X, hB, _⟩ := rootE_cases (D := D) a
    rw [hB]
    simp [qs, qOf]
  unfold contractNumerics
  rw [hf, hpon hperm, rat_eqv_one]
  simp

/-- A number times a multiple of a root that does not become a single factor. -/
theorem tot_num_surd (hc : cfg.Ok) {p q a s r : ℚ} (h : St cfg q a) (hp : p ≠ 0) (hp1 : p ≠ 1 ∨ q ≠ 1) (hpq : p * q ≠ 1)
    (h2 : RootOf cfg.maxPrime a (p * q) s r) (hs : s ≠ 1) (hr : r ≠ 1) (h3 : St cfg s r) :
    Tot cfg (fun E => prodCreate E [num (.rat p), surd q a]) (surd s r : Expr D) := by
  by_cases hq : q = 1
  · subst hq
    rw [mul_one] at h2
    have := (tot_prod_numRoot (D := D) h.simple hp (hp1.resolve_right (by simp)) h2).1
    have e : (surd 1 a : Expr D) = rootE a := by simp [surd, h.ne_one]
    rwa [e]
  have e1 : (surd q a : Expr D) = .prod [num (.rat q), rootE a] := by simp [surd, h.ne_one, hq]
  have e2 : (surd s r : Expr D) = .prod [num (.rat s), rootE r] := by simp [surd, hr, hs]
  have hpq0 : p * q ≠ 0 := mul_ne_zero hp h.ne
  have z : (num (.rat p) : Expr D).isZero = false := by rw [isZero_ratE]; simpa using hp
  rw [e1]
  simp only [prodCreate, List.any_cons, List.any_nil, show (num (.rat p) : Expr D).isUndefined = false from rfl,
    show (Expr.prod [num (.rat q), rootE a] : Expr D).isUndefined = false from rfl, z, show (Expr.prod [num (.rat q), rootE a] : Expr D).isZero = false from rfl,
    Bool.or_self, Bool.false_eq_true, if_false]
  have sl : ∀ {s r : ℚ}, s ≠ 1 → r ≠ 1 → (surdList s r : List (Expr D)) = [num (.rat s), rootE r] := by
    intro s r h1 h2; simp [surdList, h1, h2]
  have hfin := tot_surdList (D := D) (cfg := cfg) s r
  refine tot_bind (a := surdList s r) (tot_prodSimplify ?_) hfin
  rw [sl hs hr]
  unfold simplProd
  refine tot_bind (a := [num (.rat p), num (.rat q), rootE a]) ?_ ?_
  · have := tot_extract (cfg := cfg) (u := [num (.rat p), .prod [num (.rat q), rootE a]]) (by
      intro l hl y hy
      simp only [List.mem_cons, List.not_mem_nil, or_false, Expr.prod.injEq] at hl
      rcases hl with hl | hl
      · cases hl
      · subst hl
        simp only [List.mem_cons, List.not_mem_nil, or_false] at hy
        rcases hy with rfl | rfl
        · rfl
        · exact rootE_isProduct a)
    exact this
  refine tot_bind (a := [num (.rat p), num (.rat q), rootE a]) (tot_contract_pw (simpl := fun E => contractTrigFctPowers E) (by simp [num_trig_pair])) ?_
  -- the numbers are collected
  have hcfg : ∀ n, (eng cfg n).cfg = cfg := fun n => by
    induction n with
    | zero => rfl
    | succ n ih => exact ih
  have hcn := contractNumerics_root (D := D) hc p q a
  rw [if_neg hpq] at hcn
  have ic : ∀ c : ℚ, isContractableConst (num (.rat c) : Expr D) = true := fun _ => by simp [isContractableConst, isConst, Expr.isNumeric]
  have ir : ∀ c : ℚ, isContractableConst (rootE c : Expr D) = true := fun c => by
    obtain ⟨B, X, hB, _⟩ := rootE_cases (D := D) c
    rw [hB]; simp [isContractableConst, isConst, Expr.isNumeric, Expr.isNumericPower]
  have two : ∀ {t c u v : ℚ}, Simple cfg.maxPrime c → t ≠ 0 → RootOf cfg.maxPrime c t u v →
      Tot cfg (fun E => simplTwoConst E (num (.rat t)) (rootE c : Expr D)) (surdList u v) := by
    intro t c u v h1 h2 h3
    have key := tot_numRoot (D := D) h1 h2 h3
    obtain ⟨B, X, hB, _⟩ := rootE_cases (D := D) c
    rw [hB] at key ⊢
    exact key
  have prep : Tot cfg (fun E => contractConst E [num (.rat (p * q)), (rootE a : Expr D)] >>= fun u =>
      contract E (fun a b => pure (areNumPowersWithEqualExp a b)) (simplTwoEqualExp E) u >>= fun u =>
        contract E (fun a b => pure (areNumPowersWithEqualExpDenom a b)) (simplTwoEqualExpDenom E) u) [num (.rat s), (rootE r : Expr D)] := by
    refine tot_bind (a := [num (.rat s), (rootE r : Expr D)]) ?_ (tot_bind (a := [num (.rat s), (rootE r : Expr D)]) ?_ ?_)
    · unfold contractConst
      refine tot_loop (f := fun E => contractConstStep E) ?_
      refine .next _ ([num (.rat (p * q)), rootE a], 0, 1) ?_ (.next _ ([num (.rat s), rootE r], 0, 2) ?_
        (.next _ ([num (.rat s), rootE r], 1, 1) ?_ (.next _ ([num (.rat s), rootE r], 1, 2) ?_ (.next _ ([num (.rat s), rootE r], 2, 2) ?_ (.done _ ?_)))))
      · simp only [contractConstStep, List.getElem?_cons_zero, if_true, Nat.zero_add]; exact tot_pure _
      · simp only [contractConstStep, List.getElem?_cons_zero, List.getElem?_cons_succ, ic, ir, Bool.and_self, if_true,
          show ¬ ((0 : ℕ) = 1) by decide, if_false]
        refine tot_bind (two h.simple hpq0 h2) ?_
        rw [sl hs hr]
        simp only [List.set_cons_zero, List.set_cons_succ]
        exact tot_pure _
      · simp only [contractConstStep, List.getElem?_cons_zero, List.getElem?_cons_succ, List.getElem?_nil]; exact tot_pure _
      · simp only [contractConstStep, List.getElem?_cons_zero, List.getElem?_cons_succ, if_true]; exact tot_pure _
      · simp only [contractConstStep, List.getElem?_cons_zero, List.getElem?_cons_succ, List.getElem?_nil]; exact tot_pure _
      · simp only [contractConstStep, List.getElem?_cons_succ, List.getElem?_nil]; exact tot_pure _
    · refine tot_contract_pw (simpl := fun E => simplTwoEqualExp E) ?_
      simp [areNumPowersWithEqualExp, Expr.isNumericPower]
    · refine tot_contract_pw (simpl := fun E => simplTwoEqualExpDenom E) ?_
      simp [areNumPowersWithEqualExpDenom]
  have prep' : Tot cfg (fun E => prepareConst E [num (.rat p), num (.rat q), (rootE a : Expr D)]) [num (.rat s), (rootE r : Expr D)] := by
    obtain ⟨N, hN⟩ := prep
    refine ⟨N, fun n hn => ?_⟩
    unfold prepareConst
    dsimp only
    rw [hcfg, hcn]
    exact hN n hn
  refine tot_bind prep' ?_
  simp only [simplPreparedFactors]
  have ho : (num (.rat s) : Expr D).isOne = false := by rw [isOne_ratE]; simpa using hs
  simp only [simplTwoFactors, show (num (.rat s) : Expr D).isProduct = false from rfl, rootE_isProduct, Bool.or_self, Bool.false_eq_true, if_false,
    simplTwoFactorsWithoutProduct, ho, rootE_isOne, show (num (.rat s) : Expr D).isConst = true by simp [isConst], rootE_isConst, Bool.and_self, if_true]
  have := two h3.simple h3.ne h3.same
  rwa [sl hs hr] at this

/-- A number times a multiple of a root, the numbers cancel. -/
theorem tot_num_surd_one (hc : cfg.Ok) {p q a : ℚ} (h1 : a ≠ 1) (hp : p ≠ 0) (hq : q ≠ 1) (hpq : p * q = 1) :
    Tot cfg (fun E => prodCreate E [num (.rat p), surd q a]) (rootE a : Expr D) := by
  have e1 : (surd q a : Expr D) = .prod [num (.rat q), rootE a] := by simp [surd, h1, hq]
  have z : (num (.rat p) : Expr D).isZero = false := by rw [isZero_ratE]; simpa using hp
  rw [e1]
  simp only [prodCreate, List.any_cons, List.any_nil, show (num (.rat p) : Expr D).isUndefined = false from rfl,
    show (Expr.prod [num (.rat q), rootE a] : Expr D).isUndefined = false from rfl, z, show (Expr.prod [num (.rat q), rootE a] : Expr D).isZero = false from rfl,
    Bool.or_self, Bool.false_eq_true, if_false]
  refine tot_bind (a := [rootE a]) (tot_prodSimplify ?_) (tot_pure _)
  unfold simplProd
  refine tot_bind (a := [num (.rat p), num (.rat q), rootE a]) ?_ ?_
  · have := tot_extract (cfg := cfg) (u := [num (.rat p), .prod [num (.rat q), rootE a]]) (by
      intro l hl y hy
      simp only [List.mem_cons, List.not_mem_nil, or_false, Expr.prod.injEq] at hl
      rcases hl with hl | hl
      · cases hl
      · subst hl
        simp only [List.mem_cons, List.not_mem_nil, or_false] at hy
        rcases hy with rfl | rfl
        · rfl
        · exact rootE_isProduct a)
    exact this
  refine tot_bind (a := [num (.rat p), num (.rat q), rootE a]) (tot_contract_pw (simpl := fun E => contractTrigFctPowers E) (by simp [num_trig_pair])) ?_
  have hcfg : ∀ n, (eng cfg n).cfg = cfg := fun n => by
    induction n with
    | zero => rfl
    | succ n ih => exact ih
  have hcn := contractNumerics_root (D := D) hc p q a
  rw [if_pos hpq] at hcn
  have prep : Tot cfg (fun E => contractConst E [(rootE a : Expr D)] >>= fun u =>
      contract E (fun a b => pure (areNumPowersWithEqualExp a b)) (simplTwoEqualExp E) u >>= fun u =>
        contract E (fun a b => pure (areNumPowersWithEqualExpDenom a b)) (simplTwoEqualExpDenom E) u) [(rootE a : Expr D)] := by
    refine tot_bind (a := [(rootE a : Expr D)]) ?_ (tot_bind (a := [(rootE a : Expr D)]) ?_ ?_)
    · unfold contractConst
      refine tot_loop (f := fun E => contractConstStep E) ?_
      refine .next _ ([rootE a], 0, 1) ?_ (.next _ ([rootE a], 1, 1) ?_ (.done _ ?_))
      · simp only [contractConstStep, List.getElem?_cons_zero, if_true, Nat.zero_add]; exact tot_pure _
      · simp only [contractConstStep, List.getElem?_cons_zero, List.getElem?_cons_succ, List.getElem?_nil]; exact tot_pure _
      · simp only [contractConstStep, List.getElem?_cons_succ, List.getElem?_nil]; exact tot_pure _
    · exact tot_contract_pw (simpl := fun E => simplTwoEqualExp E) (by simp)
    · exact tot_contract_pw (simpl := fun E => simplTwoEqualExpDenom E) (by simp)
  have prep' : Tot cfg (fun E => prepareConst E [num (.rat p), num (.rat q), (rootE a : Expr D)]) [(rootE a : Expr D)] := by
    obtain ⟨N, hN⟩ := prep
    refine ⟨N, fun n hn => ?_⟩
    unfold prepareConst
    dsimp only
    rw [hcfg, hcn]
    exact hN n hn
  refine tot_bind prep' ?_
  simp only [simplPreparedFactors]
  exact tot_pure _

/-! ## A number times a sum of two constants -/

theorem tot_num_sum2 {p : ℚ} {x y x' y' v : Expr D} (hp : p ≠ 0) (hp1 : p ≠ 1) (hx : CS cfg x) (hy : CS cfg y)
    (cx : x.isConst = true) (cy : y.isConst = true)
    (hs : Tot cfg (fun E => sumCreate E [x, y]) (.sum [x, y])) (h1 : Tot cfg (fun E => prodCreate E [num (.rat p), x]) x')
    (h2 : Tot cfg (fun E => prodCreate E [num (.rat p), y]) y') (e1 : Tot cfg (fun E => E.expand x') x') (e2 : Tot cfg (fun E => E.expand y') y')
    (hv : Tot cfg (fun E => sumCreate E [x', y']) v) :
    Tot cfg (fun E => prodCreate E [num (.rat p), .sum [x, y]]) v := by
  have z : (num (.rat p) : Expr D).isZero = false := by rw [isZero_ratE]; simpa using hp
  have o : (num (.rat p) : Expr D).isOne = false := by rw [isOne_ratE]; simpa using hp1
  have cs : (Expr.sum [x, y]).isConst = true := by simp [isConst, allConst, cx, cy]
  have cn : (num (.rat p) : Expr D).isConst = true := by simp [isConst]
  simp only [prodCreate, List.any_cons, List.any_nil, show (num (.rat p) : Expr D).isUndefined = false from rfl,
    show (Expr.sum [x, y] : Expr D).isUndefined = false from rfl, z, show (Expr.sum [x, y] : Expr D).isZero = false from rfl,
    Bool.or_self, Bool.false_eq_true, if_false]
  refine tot_bind (a := [num (.rat p), .sum [x, y]]) (tot_prodSimplify ?_) ?_
  · unfold simplProd
    refine tot_bind (a := [num (.rat p), .sum [x, y]]) ?_ ?_
    · exact tot_extract (cfg := cfg) (u := [num (.rat p), .sum [x, y]]) (by simp)
    refine tot_bind (a := [num (.rat p), .sum [x, y]]) (tot_contract_pw (simpl := fun E => contractTrigFctPowers E) (by simp [num_trig_pair])) ?_
    simp only [simplTwoFactors, show (num (.rat p) : Expr D).isProduct = false from rfl, show (Expr.sum [x, y] : Expr D).isProduct = false from rfl,
      Bool.or_self, Bool.false_eq_true, if_false, simplTwoFactorsWithoutProduct, o, show (Expr.sum [x, y] : Expr D).isOne = false from rfl, cn, cs, Bool.and_self,
      if_true, simplTwoConst, simplNumAndConst]
    exact tot_pure _
  · have hne : needsExpansion [num (.rat p), .sum [x, y]] = true := by
      have c1 : constElements [num (.rat p), .sum [x, y]] = [num (.rat p), .sum [x, y]] := by
        simp only [constElements]
        rw [List.filter_cons_of_pos cn, List.filter_cons_of_pos cs, List.filter_nil]
      have c2 : nonConstElements [num (.rat p), .sum [x, y]] = [] := by
        simp only [nonConstElements]
        rw [List.filter_cons_of_neg (by simp [cn]), List.filter_cons_of_neg (by simp [cs]), List.filter_nil]
      simp [needsExpansion, c1, c2, Expr.isSum]
    simp only [hne, if_true]
    refine tot_expandAsProduct ?_
    unfold expandAsProduct
    have hxs : Tot cfg (fun E => E.expand (.sum [x, y])) (.sum [x, y]) := by
      refine tot_expand ?_
      simp only [expand]
      refine tot_bind (a := [x, y]) ?_ (tot_sum hs)
      simp only [M.mapL]
      exact tot_bind hx.exp (tot_bind (tot_bind hy.exp (tot_bind (tot_pure _) (tot_pure _))) (tot_pure _))
    refine tot_bind (a := ([num (.rat p)], [.sum [x, y]])) ?_ ?_
    · simp only [defScalarAndSums]
      refine tot_bind (cs_num hp).exp (tot_bind (a := ([], [.sum [x, y]])) (tot_bind hxs (tot_bind (a := ([], [])) (tot_pure _) ?_)) ?_)
      · simp only [show (Expr.sum [x, y] : Expr D).isSum = true from rfl, if_true]; exact tot_pure _
      · simp only [show (num (.rat p) : Expr D).isSum = false from rfl, Bool.false_eq_true, if_false]; exact tot_pure _
    · simp only [List.isEmpty_cons, Bool.false_eq_true, if_false]
      refine tot_bind (tot_prod (tot_prod_single rfl z)) ?_
      simp only [expandSums]
      refine tot_bind (tot_pure _) ?_
      simp only [expandScalarSum]
      refine tot_bind (a := [x', y']) ?_ (tot_sum hv)
      simp only [M.mapL]
      exact tot_bind (tot_bind (tot_prod h1) e1) (tot_bind (tot_bind (tot_bind (tot_prod h2) e2) (tot_bind (tot_pure _) (tot_pure _))) (tot_pure _))

end Tsym
