import Verif.GcdAlgo
import Verif.DiffZero

set_option autoImplicit false
set_option linter.unusedSectionVars false
set_option linter.unusedSimpArgs false
set_option linter.unusedVariables false

/-!
# Helper lemmas: normal forms of expanded polynomials
-/

namespace Tsym

open Expr

variable {D : Type} [Flt D] [ExactLt D] {cfg : Cfg D}

/-! ## Integer coefficients -/

/-- All coefficients are integers that `k` divides. -/
def Dv (k : ℤ) (p : MvPolynomial Sym ℚ) : Prop := ∀ f, ∃ z : ℤ, p.coeff f = ((k * z : ℤ) : ℚ)

theorem Dv.one_of {k : ℤ} {p : MvPolynomial Sym ℚ} (h : Dv k p) : Dv 1 p := fun f => by
  obtain ⟨z, hz⟩ := h f; exact ⟨k * z, by rw [hz]; simp⟩

theorem Dv.add {k : ℤ} {p q : MvPolynomial Sym ℚ} (h : Dv k p) (h' : Dv k q) : Dv k (p + q) := fun f => by
  obtain ⟨z, hz⟩ := h f
  obtain ⟨w, hw⟩ := h' f
  exact ⟨z + w, by rw [MvPolynomial.coeff_add, hz, hw]; push_cast; ring⟩

theorem Dv.mul {k : ℤ} {p : MvPolynomial Sym ℚ} (h : Dv 1 p) : Dv k (MvPolynomial.C (k : ℚ) * p) := fun f => by
  obtain ⟨z, hz⟩ := h f
  exact ⟨z, by rw [MvPolynomial.coeff_C_mul, hz]; push_cast; ring⟩

theorem Dv.C_iff {k z : ℤ} : Dv k (MvPolynomial.C (z : ℚ)) ↔ k ∣ z := by
  constructor
  · intro h
    obtain ⟨w, hw⟩ := h 0
    rw [MvPolynomial.coeff_zero_C] at hw
    exact ⟨w, by exact_mod_cast hw⟩
  · rintro ⟨w, rfl⟩ f
    rw [MvPolynomial.coeff_C]
    split
    · exact ⟨w, rfl⟩
    · exact ⟨0, by simp⟩

/-- The coefficients that `integerContent` looks at are those of the polynomial. -/
theorem numCoeffs_em {m : Mono D} {K : Key} (hm : m.1 ≠ 0) (hk : IsKey m.2 K) : numCoeffs (em m) = [.rat m.1] := by
  obtain ⟨q, P⟩ := m
  obtain ⟨hK, _, rfl⟩ := hk
  rcases mexpr_cases (D := D) q K.facs with ⟨h, e⟩ | ⟨f, h, hq, e⟩ | ⟨h, h2, e⟩
  · rw [em, e]; rfl
  · rw [em, e]
    obtain ⟨x, rfl, rfl⟩ := facs_single h
    rw [hq, ← Number.one_def]
    unfold fac
    split <;> rfl
  · rw [em, e]
    unfold rl
    split
    · rename_i hq
      rw [hq, ← Number.one_def]
      match K, h with
      | x :: K, _ =>
        simp only [Key.facs, List.map_cons, List.nil_append]
        unfold fac
        by_cases hx : x.2 = 1
        · simp only [hx, if_true]; rfl
        · simp only [hx, if_false]; rfl
    · rfl

theorem numCoeffs_list {L : List (Mono D)} (h : ∀ m ∈ L, m.1 ≠ 0 ∧ ∃ K, IsKey m.2 K) :
    numCoeffsList (L.map em : List (Expr D)) = L.map fun m => .rat m.1 := by
  induction L with
  | nil => rfl
  | cons m L ih =>
    obtain ⟨hm, K, hK⟩ := h m (by simp)
    simp only [List.map_cons, numCoeffsList, numCoeffs_em hm hK, ih fun n hn => h n (by simp [hn])]
    rfl

theorem EP.numCoeffs {e : Expr D} (he : EP e) (h0 : poly e ≠ 0) :
    (∀ f, (poly e).coeff f ≠ 0 → Number.rat ((poly e).coeff f) ∈ numCoeffs e) ∧ ∀ n ∈ numCoeffs e, ∃ f, n = .rat ((poly e).coeff f) := by
  rcases he.cases with rfl | ⟨m, K, hm, hK, rfl⟩ | ⟨L, hL, h2, rfl⟩
  · exact absurd poly_zero h0
  · rw [numCoeffs_em hm hK, hK.poly]
    constructor
    · intro f hf
      rw [MvPolynomial.coeff_monomial] at hf ⊢
      split at hf
      · rename_i h; rw [if_pos h]; simp
      · exact absurd rfl hf
    · intro n hn
      exact ⟨K.fs, by rw [List.mem_singleton.1 hn, MvPolynomial.coeff_monomial, if_pos rfl]⟩
  · have hs : poly (.sum (L.map em) : Expr D) = psum L := by
      have := sumOf_poly (D := D) L
      match L, h2 with
      | _ :: _ :: _, _ => exact this
    have hn : Tsym.numCoeffs (.sum (L.map em) : Expr D) = L.map fun m => .rat m.1 := by
      show numCoeffsList _ = _
      exact numCoeffs_list fun m hm => ⟨hL.ne m hm, hL.ks.key m hm⟩
    rw [hn, hs]
    constructor
    · intro f hf
      obtain ⟨m, hm, K, hK, rfl⟩ := hL.of_support (MvPolynomial.mem_support_iff.2 hf)
      rw [((hL.coeff hK).1 hm).1]
      exact List.mem_map.2 ⟨m, hm, rfl⟩
    · intro n hn
      obtain ⟨m, hm, rfl⟩ := List.mem_map.1 hn
      obtain ⟨K, hK⟩ := hL.ks.key m hm
      exact ⟨K.fs, by rw [((hL.coeff hK).1 hm).1]⟩

/-- The content of a polynomial with integer coefficients. -/
theorem EP.content {e : Expr D} (he : EP e) (h0 : poly e ≠ 0) (hi : Dv 1 (poly e)) :
    ∃ c : ℤ, integerContent e = .ok (.rat c) ∧ c ≠ 0 ∧ Dv c (poly e) ∧ ∀ k, Dv k (poly e) → k ∣ c := by
  obtain ⟨c, h1, h2⟩ := integerContent_ep he
  obtain ⟨h3, h4⟩ := he.numCoeffs h0
  obtain ⟨k, e1, k1, k2⟩ := C42_content e _ h1
  have hk : k = c := by
    simp only [Number.rat.injEq] at e1
    exact_mod_cast e1.symm
  subst hk
  refine ⟨k, h1, h2 h0, fun f => ?_, fun d hd => k2 d fun n hn => ?_⟩
  · obtain ⟨z, hz⟩ := hi f
    rw [one_mul] at hz
    by_cases hf : (poly e).coeff f = 0
    · exact ⟨0, by simp [hf]⟩
    · have := h3 f hf
      rw [hz] at this
      obtain ⟨w, hw⟩ := k1 z this
      exact ⟨w, by rw [hz, hw]⟩
  · obtain ⟨f, rfl⟩ := h4 n hn
    obtain ⟨z, hz⟩ := hd f
    exact ⟨d * z, by rw [hz], dvd_mul_right _ _⟩

/-! ## The greatest common divisor with an integer -/

theorem poly_int (z : ℤ) : poly (.int z : Expr D) = MvPolynomial.C (z : ℚ) := poly_ratE _

theorem EP.int (z : ℤ) : EP (.int z : Expr D) := EP.num _

theorem degreeOf_int (z : ℤ) (t : Sym) : (poly (.int z : Expr D)).degreeOf t = 0 := by
  rw [poly_int, MvPolynomial.degreeOf_C]

theorem tot_prod_nums (hc : cfg.Ok) (a b : ℚ) : Tot cfg (fun E => E.prodCreate [.num (.rat a), .num (.rat b)]) (.num (.rat (a * b)) : Expr D) := by
  obtain ⟨r, r1, r2, r3⟩ := tot_num_ep hc (cfg := cfg) a (EP.num (D := D) b)
  have : r = .num (.rat (a * b)) := r2.unique (EP.num _) (by rw [r3, poly_ratE, poly_ratE, map_mul])
  rw [← this]; exact r1

theorem sign_int {z : ℤ} (h : z ≠ 0) : (Number.rat (z : ℚ) : Number D).sign = .ok z.sign := by
  unfold Number.sign
  rw [Number.zero_def, lt_rat, lt_rat]
  rcases lt_or_gt_of_ne h with h | h
  · rw [Int.sign_eq_neg_one_of_neg h]; simp [h]
  · rw [Int.sign_eq_one_of_pos h]; simp [h, h.le]

theorem tot_normalizeGcd_int (hc : cfg.Ok) (L : List Sym) {z : ℤ} (h : z ≠ 0) :
    Tot cfg (fun E => normalizeGcd E (.int z : Expr D) (L.map .sym)) (.int z.natAbs) := by
  unfold normalizeGcd
  rw [← List.map_reverse]
  have h1 : Tot cfg (fun E => normalizationFactor E (L.reverse.map .sym) (.int z : Expr D)) z.sign := by
    generalize L.reverse = R
    cases R with
    | nil => exact tot_lift (sign_int h)
    | cons s R =>
      obtain ⟨c, c1, c2, c3⟩ := tot_lead hc (cfg := cfg) s (EP.int (D := D) z) (by rw [degreeOf_int]; decide)
      have : c = .int z := c2.unique (EP.int z) (by
        rw [c3, degreeOf_int, poly_int, upoly_C]; simp)
      subst this
      exact tot_bind c1 (tot_lift (sign_int h))
  refine tot_bind h1 ?_
  have := tot_prod_nums (D := D) hc (cfg := cfg) (z.sign : ℚ) (z : ℚ)
  have e : ((z.sign : ℚ) * z) = ((z.natAbs : ℤ) : ℚ) := by
    rw [← Int.cast_mul, Int.sign_mul_self_eq_natAbs]
  rw [e] at this
  exact this

theorem EP.exact {e : Expr D} (h : EP e) : Exact e := isPolyE_exact e h.polyE

theorem isEqual_ep {e e' : Expr D} (h : EP e) (h' : EP e') : isEqual e e' = true ↔ e = e' := isEqual_eq e h.exact e' h'.exact

theorem int_inj {a b : ℤ} : (.int a : Expr D) = .int b ↔ a = b := by
  constructor
  · intro h
    simp only [Expr.int, Expr.num.injEq, Number.rat.injEq] at h
    exact_mod_cast h
  · rintro rfl; rfl

theorem has_int (s : Sym) (z : ℤ) : has (.sym s) (.int z : Expr D) = false := by simp [Expr.int, has, isEqual]

theorem rat_eq_int {q : ℚ} (h : ∃ z : ℤ, q = z) : (Number.rat q : Number D).isInt = true ∧ (q.num : ℚ) = q := by
  obtain ⟨z, rfl⟩ := h
  exact ⟨Number.rat_isInt z, by simp⟩

/-- The greatest common divisor of a polynomial with integer coefficients and an integer. -/
theorem tot_gcd_int (hc : cfg.Ok) {e : Expr D} (he : EP e) (h0 : poly e ≠ 0) (hi : Dv 1 (poly e)) (hb : ∀ t, ((poly e).degreeOf t : ℤ) < intMax)
    {d : ℤ} (hd : 0 < d) : ∃ g : ℤ, 0 < g ∧ Tot cfg (fun E => E.gcd e (.int d)) (.int g) ∧ g ∣ d ∧ Dv g (poly e) ∧
      ∀ k, k ∣ d → Dv k (poly e) → k ∣ g := by
  have hdp : poly (.int d : Expr D) ≠ 0 := by
    rw [poly_int, MvPolynomial.C_ne_zero]; exact_mod_cast hd.ne'
  have hbd : ∀ t, ((poly (.int d : Expr D)).degreeOf t : ℤ) < intMax := fun t => by rw [degreeOf_int]; decide
  obtain ⟨L, l1, l2, l3, l4⟩ := tot_listOfSymbols hc he (EP.int d) hb hbd
  have hok := isPolyInputValid_ep he (EP.int (D := D) d) hdp (fun t => (hb t).le) fun t => (hbd t).le
  have hz1 : e.isZero = false := by rw [Bool.eq_false_iff]; exact fun h => h0 (he.isZero.1 h)
  have hz2 : (.int d : Expr D).isZero = false := by rw [isZero_int]; simp; omega
  -- the number before it is normalised
  suffices h : ∃ z : ℤ, z ≠ 0 ∧ Tot cfg (fun E => gcdRaw E e (.int d) e (.int d) (L.map .sym)) (some (.int z)) ∧ z ∣ d ∧ Dv z (poly e) ∧
      ∀ k, k ∣ d → Dv k (poly e) → k ∣ z by
    obtain ⟨z, z0, z1, z2, z3, z4⟩ := h
    refine ⟨z.natAbs, by omega, ?_, by rw [Int.natAbs_dvd]; exact z2, ?_, fun k h1 h2 => by rw [Int.dvd_natAbs]; exact z4 k h1 h2⟩
    · refine tot_succ (fun _ => rfl) (f := fun E => polyGcd E e (.int d)) ?_
      unfold polyGcd
      refine tot_bind (tot_lift hok) ?_
      simp only [if_true]
      refine tot_bind l1 (tot_succ (fun _ => rfl) (f := fun E => gcdL E e (.int d) (L.map .sym)) ?_)
      unfold gcdL
      refine tot_bind (tot_expand (tot_expand_ep hc he)) (tot_bind (tot_expand (tot_expand_ep hc (EP.int d))) ?_)
      have hL : ((L.map .sym : List (Expr D)).isEmpty && !(e.isNumeric && (.int d : Expr D).isNumeric)) = false := by
        rw [Bool.and_eq_false_iff]
        by_cases hl : L = []
        · right
          subst hl
          have e2 := he.eq_num (const_of_degree fun t => (l3 t (by simp)).1)
          rw [e2]; rfl
        · left; simpa using hl
      simp only [hL, Bool.false_eq_true, if_false]
      exact tot_bind z1 (tot_normalizeGcd_int hc L z0)
    · intro f
      obtain ⟨w, hw⟩ := z3 f
      rcases Int.natAbs_eq z with h | h
      · exact ⟨w, by rw [hw, ← h]⟩
      · exact ⟨-w, by rw [hw]; congr 1; rw [show (z.natAbs : ℤ) = -z by omega]; ring⟩
  unfold gcdRaw
  by_cases o1 : e.isOne = true
  · simp only [o1, Bool.true_or, if_true]
    have : e = .int 1 := he.unique (EP.int 1) (by rw [he.isOne_poly o1, poly_int]; simp)
    subst this
    refine ⟨1, one_ne_zero, ?_, one_dvd _, hi, fun k h1 h2 => ?_⟩
    · rw [int_one]; exact tot_pure _
    · rw [poly_int] at h2; exact Dv.C_iff.1 h2
  by_cases o2 : (.int d : Expr D).isOne = true
  · simp only [o2, Bool.or_true, if_true]
    have : d = 1 := by rw [isOne_int] at o2; exact of_decide_eq_true o2
    subst this
    exact ⟨1, one_ne_zero, by rw [int_one]; exact tot_pure _, dvd_rfl, hi, fun k h1 h2 => h1⟩
  simp only [o1, o2, hz1, hz2, Bool.or_self, Bool.and_self, Bool.false_eq_true, if_false]
  by_cases hq : isEqual e (.int d) = true
  · simp only [hq, if_true]
    have := (isEqual_ep he (EP.int d)).1 hq
    subst this
    refine ⟨d, by omega, tot_pure _, dvd_rfl, ?_, fun k h1 h2 => h1⟩
    rw [poly_int]; exact Dv.C_iff.2 dvd_rfl
  simp only [hq, Bool.false_eq_true, if_false]
  by_cases hn : ∃ q : ℚ, e = .num (.rat q)
  · obtain ⟨q, rfl⟩ := hn
    obtain ⟨z, hz⟩ := hi 0
    rw [poly_ratE, MvPolynomial.coeff_zero_C, one_mul] at hz
    subst hz
    obtain ⟨g1, g2, g3⟩ := C42_integer_gcd z d
    refine ⟨integerGcd z d, integerGcd_ne (.inr (by omega)), ?_, g2, ?_, fun k h1 h2 => g3 k ?_ h1⟩
    · simp only [Expr.int]
      unfold computeNumerics
      simp only [Number.isRational, Number.rat_isInt, Bool.and_self, Bool.not_true, Bool.false_eq_true, if_false, if_true, Number.numerator, Rat.num_intCast]
      exact tot_bind (tot_pure _) (tot_pure _)
    · rw [poly_ratE]; exact Dv.C_iff.2 g1
    · rw [poly_ratE] at h2; exact Dv.C_iff.1 h2
  have hnn : ∀ n, e ≠ .num n := by
    intro n h
    match n with
    | .rat q => exact hn ⟨q, h⟩
    | .dbl x => have := he.polyE; rw [h] at this; simp [isPolyE] at this
  have hcs : haveCommonSymbol e (.int d : Expr D) (L.map .sym) = false := by
    unfold haveCommonSymbol
    rw [List.any_map, List.any_eq_false]
    intro s _
    simp [has_int]
  obtain ⟨c, c1, c0, c2, c3⟩ := he.content h0 hi
  obtain ⟨c', x1, x0, x2, x3⟩ := (EP.int (D := D) d).content hdp (by rw [poly_int]; exact Dv.C_iff.2 (one_dvd _))
  rw [poly_int] at x2 x3
  obtain ⟨g1, g2, g3⟩ := C42_integer_gcd c c'
  refine ⟨integerGcd c c', integerGcd_ne (.inl c0), ?_, g2.trans (Dv.C_iff.1 x2), fun f => ?_, fun k h1 h2 => g3 k (c3 k h2) (x3 k (Dv.C_iff.2 h1))⟩
  · have ht : Tot cfg (fun _ => integerContent2 e (.int d : Expr D)) (.int (integerGcd c c')) := by
      unfold integerContent2
      refine tot_bind (tot_lift c1) (tot_bind (tot_lift x1) ?_)
      simp only [Number.rat_isInt, Bool.not_true, Bool.or_self, Bool.false_eq_true, if_false, Number.numerator, Rat.num_intCast]
      exact tot_pure _
    have hb := tot_bind (g := fun _ c => pure (some c)) ht (tot_pure (some (.int (integerGcd c c') : Expr D)))
    simp only [hcs, Bool.not_false, if_true]
    cases e <;> first | exact hb | exact absurd rfl (hnn _)
  · obtain ⟨z, hz⟩ := c2 f
    obtain ⟨w, hw⟩ := g1
    exact ⟨w * z, by rw [hz, ← mul_assoc, ← hw]⟩

/-! ## Numbers that are no problem for the factorisation -/

theorem NumOk.of_dvd {max : ℤ} {a b : ℤ} (h : NumOk max (b : ℚ)) (ha : a ∣ b) (hb : b ≠ 0) : NumOk max (a : ℚ) := by
  unfold NumOk at *
  refine h.imp id fun ⟨h1, h2⟩ => ⟨fun p hp hd => h1 p hp ?_, by simp [FourFree]; exact fun p hp => hp.one_lt.ne'⟩
  simp only [Rat.num_intCast] at hd ⊢
  exact hd.trans (Int.natAbs_dvd_natAbs.2 ha)

theorem NumOk.lcm {max : ℤ} {a b : ℤ} (h : NumOk max (a : ℚ)) (h' : NumOk max (b : ℚ)) {c : ℤ} (hc : c ∣ a.lcm b) : NumOk max (c : ℚ) := by
  unfold NumOk at *
  rcases h with h | ⟨h1, h2⟩
  · exact .inl h
  rcases h' with h' | ⟨h3, h4⟩
  · exact .inl h'
  refine .inr ⟨fun p hp hd => ?_, by simp [FourFree]; exact fun p hp => hp.one_lt.ne'⟩
  simp only [Rat.num_intCast] at *
  have h5 : p ^ 4 ∣ Nat.lcm a.natAbs b.natAbs := hd.trans (by
    have := Int.natAbs_dvd_natAbs.2 hc
    simpa [Int.lcm] using this)
  have ha : a.natAbs ≠ 0 := fun h => h1 2 Nat.prime_two (by rw [h]; exact dvd_zero _)
  have hb : b.natAbs ≠ 0 := fun h => h3 2 Nat.prime_two (by rw [h]; exact dvd_zero _)
  rw [hp.pow_dvd_iff_le_factorization (Nat.lcm_ne_zero ha hb), Nat.factorization_lcm ha hb, Finsupp.sup_apply, le_sup_iff] at h5
  rcases h5 with h | h
  · exact h1 p hp ((hp.pow_dvd_iff_le_factorization ha).2 h)
  · exact h3 p hp ((hp.pow_dvd_iff_le_factorization hb).2 h)

/-! ## Cancellation -/

theorem rts_divide_int (hc : cfg.Ok) {e : Expr D} (he : EP e) (h0 : poly e ≠ 0) (hb : ∀ t, ((poly e).degreeOf t : ℤ) < intMax)
    {g : ℤ} (hg : g ≠ 0) (hok : NumOk cfg.maxPrime (g : ℚ)) :
    ∃ q, Rts cfg (fun E => E.divide e (.int g)) (q, zero) ∧ EP q ∧ poly e = poly q * MvPolynomial.C (g : ℚ) := by
  have hbd : ∀ t, ((poly (.int g : Expr D)).degreeOf t : ℤ) < intMax := fun t => by rw [degreeOf_int]; decide
  obtain ⟨L, l1, l2, l3, l4⟩ := tot_listOfSymbols hc he (EP.int g) hb hbd
  have hgq : (g : ℚ) ≠ 0 := by exact_mod_cast hg
  obtain ⟨q, q1, q2, q3⟩ := divideL_exact hc L e (.int g) l2 he (EP.int g) h0 (by
    rw [poly_int]
    exact ⟨MvPolynomial.C (g : ℚ)⁻¹ * poly e, by rw [← mul_assoc, ← map_mul, mul_inv_cancel₀ hgq]; simp⟩) (by
    intro f hf
    rw [poly_int, MvPolynomial.coeff_C] at *
    split at hf
    · rename_i h; rw [if_pos h]; exact hok
    · exact absurd rfl hf) hb fun t ht => (l3 t ht).1
  rw [poly_int] at q3
  refine ⟨q, rts_succ (fun _ => rfl) (f := fun E => polyDivide E e (.int g)) ?_, q2, q3⟩
  unfold polyDivide
  exact rts_bind l1.rts q1

/-- A quotient in lowest terms: an expanded polynomial with integer coefficients over a positive integer. -/
structure Lowest (p : MvPolynomial Sym ℚ) (n : Expr D) (d : ℤ) : Prop where
  ep : EP n
  int : Dv 1 (poly n)
  pos : 0 < d
  eq : p * MvPolynomial.C (d : ℚ) = poly n
  low : ∀ k, k ∣ d → Dv k (poly n) → k ∣ 1

theorem Dv.div {k g : ℤ} {p q : MvPolynomial Sym ℚ} (hg : g ≠ 0) (h : p = q * MvPolynomial.C (g : ℚ)) : Dv (k * g) p ↔ Dv k q := by
  have hgq : (g : ℚ) ≠ 0 := by exact_mod_cast hg
  subst h
  constructor
  · intro h f
    obtain ⟨z, hz⟩ := h f
    rw [mul_comm, MvPolynomial.coeff_C_mul] at hz
    refine ⟨z, mul_left_cancel₀ hgq ?_⟩
    rw [hz]; push_cast; ring
  · intro h f
    obtain ⟨z, hz⟩ := h f
    refine ⟨z, ?_⟩
    rw [mul_comm, MvPolynomial.coeff_C_mul, hz]; push_cast; ring

theorem rts_expandsToZero (hc : cfg.Ok) {e : Expr D} (he : Pol cfg e) (h0 : poly e ≠ 0) : Tot cfg (fun E => expandsToZero E e) false := by
  obtain ⟨r, r1, r2, r3⟩ := tot_expand' hc he
  have hz : r.isZero = false := by
    rw [Bool.eq_false_iff]; intro h; exact h0 (by rw [← r3]; exact r2.isZero.1 h)
  have := tot_whenTrue (tot_bind (g := fun _ x => pure x.isZero) r1 (tot_pure _))
  rw [hz] at this
  exact this

theorem rts_cancel (hc : cfg.Ok) {e : Expr D} (he : EP e) (hi : Dv 1 (poly e)) (hb : ∀ t, ((poly e).degreeOf t : ℤ) < intMax)
    {d : ℤ} (hd : 0 < d) (hok : NumOk cfg.maxPrime (d : ℚ)) (p : MvPolynomial Sym ℚ) (hp : p * MvPolynomial.C (d : ℚ) = poly e) :
    ∃ (n : Expr D) (d' : ℤ), Rts cfg (fun E => cancel E ⟨e, .int d⟩) ⟨n, .int d'⟩ ∧ Lowest p n d' ∧ d' ∣ d := by
  have hdq : (d : ℚ) ≠ 0 := by exact_mod_cast hd.ne'
  unfold cancel
  by_cases o : (.int d : Expr D).isOne = true
  · have hd1 : d = 1 := by rw [isOne_int] at o; exact of_decide_eq_true o
    subst hd1
    refine ⟨e, 1, ?_, ⟨he, hi, one_pos, hp, fun k h _ => h⟩, dvd_rfl⟩
    simp only [o, if_true]
    rw [int_one]; exact (tot_pure _).rts
  simp only [o, Bool.false_eq_true, if_false]
  by_cases h0 : poly e = 0
  · have hz := he.isZero.2 h0
    refine ⟨e, 1, ?_, ⟨he, hi, one_pos, ?_, fun k h _ => h⟩, one_dvd _⟩
    · simp only [hz, if_true]
      rw [int_one]; exact (tot_pure _).rts
    · rw [h0] at hp ⊢
      have : p = 0 := (mul_eq_zero.1 hp).resolve_right (by rw [MvPolynomial.C_eq_zero]; exact hdq)
      rw [this, zero_mul]
  have hz : e.isZero = false := by rw [Bool.eq_false_iff]; exact fun h => h0 (he.isZero.1 h)
  simp only [hz, Bool.false_eq_true, if_false]
  have hdp : poly (.int d : Expr D) ≠ 0 := by rw [poly_int, MvPolynomial.C_ne_zero]; exact hdq
  obtain ⟨g, g0, g1, g2, g3, g4⟩ := tot_gcd_int hc he h0 hi hb hd
  have hokg := hok.of_dvd g2 hd.ne'
  obtain ⟨n, n1, n2, n3⟩ := rts_divide_int hc he h0 hb g0.ne' hokg
  obtain ⟨m, m1, m2, m3⟩ := rts_divide_int hc (EP.int d) hdp (fun t => by rw [degreeOf_int]; decide) g0.ne' hokg
  obtain ⟨d', rfl⟩ := g2
  have hm : m = .int d' := by
    refine m2.unique (EP.int d') ?_
    have hgq : (MvPolynomial.C (g : ℚ) : MvPolynomial Sym ℚ) ≠ 0 := by rw [MvPolynomial.C_ne_zero]; exact_mod_cast g0.ne'
    refine mul_right_cancel₀ hgq ?_
    rw [← m3, poly_int, poly_int, ← map_mul]; congr 1; push_cast; ring
  subst hm
  have hd' : 0 < d' := pos_of_mul_pos_right hd g0.le
  refine ⟨n, d', ?_, ⟨n2, ?_, hd', ?_, fun k h1 h2 => ?_⟩, dvd_mul_left _ _⟩
  · refine rts_bind (rts_expandsToZero hc (EP.int _).pol hdp).rts ?_
    simp only [Bool.false_eq_true, if_false]
    unfold cancelNonTrivial
    refine rts_bind (tot_silent g1).rts (rts_bind m1 (rts_bind n1 (rts_bind (rts_log (by exact_mod_cast g0.ne')) (rts_bind (tot_logIf (by rfl)).rts ?_))))
    exact (tot_pure _).rts
  · rw [← Dv.div g0.ne' n3, one_mul]; exact g3
  · have hgq : (MvPolynomial.C (g : ℚ) : MvPolynomial Sym ℚ) ≠ 0 := by rw [MvPolynomial.C_ne_zero]; exact_mod_cast g0.ne'
    refine mul_right_cancel₀ hgq ?_
    rw [← n3, ← hp, mul_assoc, ← map_mul]; congr 2; push_cast; ring
  · have h3 := g4 (k * g) (by rw [mul_comm]; exact mul_dvd_mul_left _ h1) ((Dv.div g0.ne' n3).2 h2)
    exact Int.dvd_of_mul_dvd_mul_right g0.ne' (by rwa [one_mul])

/-! ## Normal forms of polynomials with integer coefficients -/

theorem tot_ep_num (hc : cfg.Ok) (q : ℚ) {e : Expr D} (he : EP e) :
    ∃ r, Tot cfg (fun E => E.prodCreate [e, .num (.rat q)]) r ∧ EP r ∧ poly r = MvPolynomial.C q * poly e := by
  rcases he.cases with h | ⟨m, K, hm, hk, h⟩ | ⟨L, hL, h2, h⟩
  · obtain ⟨r, r1, r2, r3⟩ := tot_prod_em hc (cfg := cfg) (A := [e, .num (.rat q)]) (by simp) (by
      intro x hx
      simp only [List.mem_cons, List.not_mem_nil, or_false] at hx
      rcases hx with rfl | rfl
      exacts [h ▸ EM.zero, EM.num q])
    exact ⟨r, tot_prod r1, r2.1, by rw [r3]; simp [poly_ratE, mul_comm]⟩
  · obtain ⟨r, r1, r2, r3⟩ := tot_prod_em hc (cfg := cfg) (A := [e, .num (.rat q)]) (by simp) (by
      intro x hx
      simp only [List.mem_cons, List.not_mem_nil, or_false] at hx
      rcases hx with rfl | rfl
      exacts [h ▸ EM.mono hm hk, EM.num q])
    exact ⟨r, tot_prod r1, r2.1, by rw [r3]; simp [poly_ratE, mul_comm]⟩
  · by_cases hq : q = 0
    · subst hq
      refine ⟨zero, tot_prod ?_, EP.zero, by rw [poly_zero]; simp⟩
      unfold prodCreate
      have hZ : [e, num (.rat (0 : ℚ))].any Expr.isZero = true := by simp [isZero_ratE]
      have hU : [e, num (.rat (0 : ℚ))].any Expr.isUndefined = false := by rw [List.any_cons, List.any_cons, he.isUndefined]; rfl
      simp only [hU, hZ, Bool.false_eq_true, if_false, if_true]; exact tot_pure _
    have bS : PBase cfg (.sum (L.map em) : Expr D) := pbase_sum (B := fun _ => True) (hL.sl (by simp)) h2
    have fS : PFacs cfg [((.sum (L.map em) : Expr D), 1)] := by
      intro f hf; rw [List.mem_singleton.1 hf]; exact ⟨bS, le_refl 1⟩
    obtain ⟨R, hR, t1, t2⟩ := tot_prodCreate hc (Ms := [(1, [(.sum (L.map em), 1)]), (q, [])]) (by
      intro n hn
      simp only [List.mem_cons, List.not_mem_nil, or_false] at hn
      rcases hn with rfl | rfl
      exacts [⟨one_ne_zero, fS⟩, ⟨hq, by simp [PFacs]⟩]) (by simp)
    have hms : (.sum (L.map em) : Expr D) = mexpr 1 [(.sum (L.map em), 1)] := by simp [mexpr, rl_one, prodOf, fac]
    simp only [List.map_cons, List.map_nil, List.prod_cons, List.prod_nil, mul_one, one_mul, List.flatMap_cons, List.flatMap_nil,
      List.append_nil, List.nil_append, ← hms, ← num_mexpr] at hR t1 t2
    have hR' := norm_single rfl hR
    rw [h]
    rw [h] at he
    by_cases hq1 : q = 1
    · subst hq1
      have := t1 fun hn => hn.1 rfl
      rw [hR', ← hms] at this
      exact ⟨_, tot_prod this, he, by simp⟩
    · have hn : Nx q R := ⟨hq1, _, hR'⟩
      have hrl : rl q R = [.num (.rat q), .sum (L.map em)] := by rw [hR', rl_ne hq1]; simp [fac]
      rw [hrl] at t2
      obtain ⟨r, hr, er, pr⟩ := tot_expand_one hc (l := [.num (.rat q), .sum (L.map em)]) (by
        intro x hx
        simp only [List.mem_cons, List.not_mem_nil, or_false] at hx
        rcases hx with rfl | rfl
        exacts [EP.num q, he]) (by simp [Expr.isSum, List.filter_cons])
      exact ⟨r, tot_prod (t2 hn r hr), er, by rw [pr]; simp [poly_ratE]⟩

theorem tot_oneOver_num (hc : cfg.Ok) {d : ℤ} (hd : d ≠ 0) (hok : NumOk cfg.maxPrime (d : ℚ)) :
    Tot cfg (fun E => E.oneOver (.int d)) (.num (.rat (d : ℚ)⁻¹) : Expr D) := by
  have h := tot_powNum hc (D := D) (cfg := cfg) (q := d) (n := -1) (.inl (by exact_mod_cast hd)) (by simp; decide) (fun _ => hok)
  rw [zpow_neg_one] at h
  exact tot_pow h

/-- A polynomial over an integer. -/
theorem tot_evalFrac (hc : cfg.Ok) {n : Expr D} (hn : EP n) {d : ℤ} (hd : d ≠ 0) (hok : NumOk cfg.maxPrime (d : ℚ)) {e : Expr D} (he : EP e)
    (h : poly e * MvPolynomial.C (d : ℚ) = poly n) : Tot cfg (fun E => evalFrac E ⟨n, .int d⟩) e := by
  unfold evalFrac
  obtain ⟨r, r1, r2, r3⟩ := tot_ep_num hc (cfg := cfg) (d : ℚ)⁻¹ hn
  have : r = e := r2.unique he (by
    rw [r3, ← h, mul_left_comm, ← map_mul, inv_mul_cancel₀ (by exact_mod_cast hd)]; simp)
  subst this
  exact tot_bind (tot_oneOver_num hc hd hok) r1

theorem tot_replaceBack (hc : cfg.Ok) {e : Expr D} (he : EP e) : Tot cfg (fun E => replaceBack E [] e) e := by
  unfold replaceBack
  refine tot_loop (.done _ ?_)
  have h1 : Tot cfg (fun E => replacePass E [] e) e := ⟨0, fun n _ => by
    have h : (eng cfg n).cfg.mapOrder [] = [] := by
      rw [eng_cfg']; exact List.Perm.eq_nil (hc.mapOrder [])
    simp only [replacePass, h, M.foldL]; rfl⟩
  refine tot_bind h1 ?_
  simp only [he.isUndefined, (isEqual_ep he he).2 rfl, Bool.not_true, Bool.false_eq_true, if_false]
  exact tot_pure _

/-- A normal form, given the quotient. -/
theorem tot_normal (hc : cfg.Ok) {e n : Expr D} (he : EP e) (hn : EP n) {d : ℤ} (hd : d ≠ 0) (hok : NumOk cfg.maxPrime (d : ℚ))
    (h : poly e * MvPolynomial.C (d : ℚ) = poly n) (hf : ∀ m, Tot cfg (fun E => E.normalFrac e m) (⟨n, .int d⟩, m)) :
    Tot cfg (fun E => E.normal e) e := by
  refine tot_succ (fun _ => rfl) (f := fun E => normal E e) ?_
  unfold normal
  refine tot_bind (tot_capture (hf _)) (tot_bind (tot_capture (tot_replaceBack hc hn)) (tot_bind (tot_capture (tot_replaceBack hc (EP.int d)))
    (tot_bind tot_emit ?_)))
  exact tot_evalFrac hc hn hd hok he h

theorem numOk_one {max : ℤ} : NumOk max ((1 : ℤ) : ℚ) := by
  right
  simp [FourFree]
  exact fun p hp => hp.one_lt.ne'

theorem tot_normal_one (hc : cfg.Ok) {e : Expr D} (he : EP e) (hf : ∀ m, Tot cfg (fun E => E.normalFrac e m) (⟨e, one⟩, m)) :
    Tot cfg (fun E => E.normal e) e :=
  tot_normal hc he he one_ne_zero numOk_one (by simp) (by rw [int_one]; exact hf)

theorem tot_normalFrac_int (z : ℤ) (m : SMap D) : Tot cfg (fun E => E.normalFrac (.int z) m) (⟨.int z, one⟩, m) := by
  refine tot_succ (fun _ => rfl) (f := fun E => normalFrac E (.int z) m) ?_
  have : ∀ E : Eng D, normalFrac E (.int z) m = pure (⟨.int z, one⟩, m) := fun E => by
    simp only [Expr.int, normalFrac, Rat.num_intCast, Rat.den_intCast, ← int_one]; rfl
  simp only [this]
  exact tot_pure _

theorem tot_normal_int (hc : cfg.Ok) (z : ℤ) : Tot cfg (fun E => E.normal (.int z)) (.int z : Expr D) :=
  tot_normal_one hc (EP.int z) (tot_normalFrac_int z)

theorem tot_normalFrac_symFac (hc : cfg.Ok) {x : Sym × ℕ} (h1 : 1 ≤ x.2) (m : SMap D) :
    Tot cfg (fun E => E.normalFrac (symFac x) m) (⟨symFac x, one⟩, m) := by
  obtain ⟨s, k⟩ := x
  have hs : ∀ m : SMap D, Tot cfg (fun E => E.normalFrac (.sym s) m) (⟨.sym s, one⟩, m) := fun m =>
    tot_succ (fun _ => rfl) (f := fun E => normalFrac E (.sym s) m) (tot_pure _)
  unfold symFac fac
  by_cases hk : k = 1
  · simp only [hk, if_true]; exact hs m
  · simp only [hk, if_false]
    refine tot_succ (fun _ => rfl) (f := fun E => normalFrac E (.pow (.sym s) (.int k)) m) ?_
    simp only [normalFrac]
    unfold normalPow
    refine tot_bind (hs m) (tot_bind (tot_normal_int hc k) ?_)
    have hu : Tot cfg (fun E => isBaseOrExpUndefined E (⟨.sym s, one⟩ : Frac D) (.int k)) false := by
      unfold isBaseOrExpUndefined
      have : ((.sym s : Expr D).isUndefined || (one : Expr D).isUndefined || (one : Expr D).isZero) = false := by rw [one_eq, isZero_ratE]; rfl
      simp only [this, Bool.false_eq_true, if_false]
      refine tot_bind (rts_expandsToZero hc (by rw [one_eq]; exact Pol.rat 1) (by rw [one_eq, poly_ratE]; simp)) ?_
      exact tot_pure _
    refine tot_bind hu ?_
    simp only [Bool.false_eq_true, if_false]
    refine tot_bind (tot_lift (numEval_int _)) ?_
    simp only [Number.rat_isInt, if_true]
    have hab : (Number.rat (((k : ℕ) : ℤ) : ℚ) : Number D).abs = .rat (((k : ℕ) : ℤ) : ℚ) := by
      unfold Number.abs
      rw [Number.zero_def, lt_rat]
      simp
    have hlt : Number.lt 0 (Number.rat (((k : ℕ) : ℤ) : ℚ) : Number D) = true := by
      rw [Number.zero_def, lt_rat]; simp; omega
    have hi : Tot cfg (fun E => normalIntegerExp E (⟨.sym s, one⟩ : Frac D) (.rat (((k : ℕ) : ℤ) : ℚ))) ⟨.pow (.sym s) (.int k), one⟩ := by
      unfold normalIntegerExp
      rw [hab]
      have p1 := tot_pow (tot_powSym (D := D) (cfg := cfg) s k)
      have hsp : (symPow s k : Expr D) = .pow (.sym s) (.int k) := by
        unfold symPow; rw [if_neg (by simp only at h1; omega)]; simp only [symFac, fac, hk, if_false]
      rw [hsp] at p1
      have p2 : Tot cfg (fun E => E.powCreate one (.int k)) (one : Expr D) := by
        refine tot_pow ?_
        unfold powCreate
        have : ((.int k : Expr D).isUndefined || (one : Expr D).isUndefined) = false := rfl
        simp only [this, isOne_one, Bool.or_true, Bool.false_eq_true, if_false, if_true]
        exact tot_pure _
      refine tot_bind p1 (tot_bind p2 ?_)
      simp only [hlt, if_true]
      exact tot_pure _
    exact tot_bind hi (tot_pure _)

theorem tot_normalOperands {F : Expr D → Frac D} {l : List (Expr D)} (h : ∀ e ∈ l, ∀ m, Tot cfg (fun E => E.normalFrac e m) (F e, m)) (m : SMap D) :
    Tot cfg (fun E => normalOperands E l m) (l.map F, m) := by
  induction l with
  | nil => exact tot_pure _
  | cons a l ih =>
    simp only [normalOperands]
    exact tot_bind (h a (by simp) m) (tot_bind (ih fun e he => h e (by simp [he])) (tot_pure _))

theorem rts_normalOperands {F : Expr D → Frac D} {l : List (Expr D)} (h : ∀ e ∈ l, ∀ m, Rts cfg (fun E => E.normalFrac e m) (F e, m)) (m : SMap D) :
    Rts cfg (fun E => normalOperands E l m) (l.map F, m) := by
  induction l with
  | nil => exact (tot_pure _).rts
  | cons a l ih =>
    simp only [normalOperands]
    exact rts_bind (h a (by simp) m) (rts_bind (ih fun e he => h e (by simp [he])) (tot_pure _).rts)

/-- The quotient for a number or a power of a symbol. -/
def fr : Expr D → Frac D
  | .num (.rat q) => ⟨.int q.num, .int q.den⟩
  | e => ⟨e, one⟩

theorem fr_symFac (x : Sym × ℕ) : fr (symFac x : Expr D) = ⟨symFac x, one⟩ := by
  unfold symFac fac; split <;> rfl

theorem tot_normalFrac_num (q : ℚ) (m : SMap D) : Tot cfg (fun E => E.normalFrac (.num (.rat q)) m) (fr (.num (.rat q) : Expr D), m) :=
  tot_succ (fun _ => rfl) (f := fun E => normalFrac E (.num (.rat q)) m) (by simp only [normalFrac]; exact tot_pure _)

theorem lowest_num (q : ℚ) : Lowest (MvPolynomial.C q) (.int q.num : Expr D) q.den := by
  refine ⟨EP.int _, by rw [poly_int]; exact Dv.C_iff.2 (one_dvd _), by exact_mod_cast q.den_pos, ?_, fun k h1 h2 => ?_⟩
  · rw [poly_int, ← map_mul]; congr 1
    push_cast
    exact Rat.mul_den_eq_num q
  · rw [poly_int] at h2
    have h3 := Dv.C_iff.1 h2
    have := q.reduced
    have h4 := Nat.dvd_gcd (Int.natAbs_dvd_natAbs.2 h3) (Int.natAbs_dvd_natAbs.2 h1)
    rw [Int.natAbs_natCast, this] at h4
    exact Int.natAbs_dvd_natAbs.1 (by simpa using h4)

/-- The product of the numerators and that of the denominators. -/
theorem normalFrac_prod (hc : cfg.Ok) {q : ℚ} {K : Key} (hq : q ≠ 0) (hK : IsKey (K.facs : List (Expr D × ℕ)) K)
    (he : em (q, K.facs) = (.prod (rl q K.facs) : Expr D)) (hne : K ≠ []) : ∃ n : Expr D, EP n ∧ poly n = poly (em (q, K.facs) : Expr D) * MvPolynomial.C (q.den : ℚ) ∧
    ∀ m r, (Tot cfg (fun E => cancel E ⟨n, .int q.den⟩) r → Tot cfg (fun E => E.normalFrac (em (q, K.facs)) m) (r, m)) ∧
      (Rts cfg (fun E => cancel E ⟨n, .int q.den⟩) r → Rts cfg (fun E => E.normalFrac (em (q, K.facs)) m) (r, m)) := by
  set l : List (Expr D) := rl q K.facs with hl
  have hmem : ∀ e ∈ l, (q ≠ 1 ∧ e = .num (.rat q)) ∨ ∃ x ∈ K, e = symFac x := by
    intro e h
    rw [hl] at h
    unfold rl at h
    rcases List.mem_append.1 h with h | h
    · split at h
      · simp at h
      · rename_i h1; exact .inl ⟨h1, List.mem_singleton.1 h⟩
    · rw [Key.facs_map] at h
      obtain ⟨x, hx, rfl⟩ := List.mem_map.1 h
      exact .inr ⟨x, hx, rfl⟩
  have hKok : ∀ x ∈ K, x.1.id.Ok ∧ 1 ≤ x.2 := hK.1
  have hops : ∀ m : SMap D, Tot cfg (fun E => normalOperands E l m) (l.map fr, m) := tot_normalOperands fun e h m => by
    rcases hmem e h with ⟨_, rfl⟩ | ⟨x, hx, rfl⟩
    · exact tot_normalFrac_num q m
    · rw [fr_symFac]; exact tot_normalFrac_symFac hc (hKok x hx).2 m
  have hlne : l ≠ [] := by
    rw [hl]; unfold rl
    rw [Key.facs_map]
    simp [hne]
  obtain ⟨n, n1, n2, n3⟩ := tot_prod_em hc (cfg := cfg) (A := l.map fun e => (fr e).num) (by simpa using hlne) (by
    intro e h
    obtain ⟨a, ha, rfl⟩ := List.mem_map.1 h
    rcases hmem a ha with ⟨_, rfl⟩ | ⟨x, hx, rfl⟩
    · exact EM.num _
    · rw [fr_symFac]; exact EM.symFac (hKok x hx))
  obtain ⟨d, d1, d2, d3⟩ := tot_prod_em hc (cfg := cfg) (A := l.map fun e => (fr e).denom) (by simpa using hlne) (by
    intro e h
    obtain ⟨a, ha, rfl⟩ := List.mem_map.1 h
    rcases hmem a ha with ⟨_, rfl⟩ | ⟨x, hx, rfl⟩
    · exact EM.num _
    · rw [fr_symFac, one_eq]; exact EM.num _)
  have hpoly : poly (.prod l : Expr D) = (l.map poly).prod := polyProd_eq l
  have hvals : (l.map fun e => poly (fr e).denom).prod = MvPolynomial.C (q.den : ℚ) ∧
      (l.map fun e => poly (fr e).num).prod = (l.map poly).prod * MvPolynomial.C (q.den : ℚ) := by
    have hs1 : ((K.map symFac).map fun e : Expr D => poly (fr e).denom).prod = 1 := by
      apply List.prod_eq_one
      intro y hy
      rw [List.map_map] at hy
      obtain ⟨x, hx, rfl⟩ := List.mem_map.1 hy
      simp only [Function.comp, fr_symFac, one_eq, poly_ratE, map_one]
    have hs2 : ((K.map symFac).map fun e : Expr D => poly (fr e).num) = (K.map (symFac (D := D))).map poly := by
      rw [List.map_map, List.map_map]
      refine List.map_congr_left fun x hx => ?_
      simp only [Function.comp, fr_symFac]
    rw [hl]
    unfold rl
    rw [Key.facs_map]
    by_cases h1 : q = 1
    · subst h1
      simp only [if_true, List.nil_append, hs1, hs2]
      simp
    · simp only [if_neg h1, List.singleton_append, List.map_cons, List.prod_cons, hs1, hs2]
      have e1 : (fr (.num (.rat q) : Expr D)).denom = .int q.den := rfl
      have e2 : (fr (.num (.rat q) : Expr D)).num = .int q.num := rfl
      rw [e1, e2, poly_int, poly_int, poly_ratE]
      refine ⟨by simp, ?_⟩
      have := Rat.mul_den_eq_num q
      rw [← this]
      simp only [map_mul]; ring
  have hd : d = .int q.den := d2.1.unique (EP.int _) (by
    rw [d3, List.map_map, poly_int]; exact hvals.1)
  subst hd
  refine ⟨n, n2.1, by rw [n3, List.map_map, he, hpoly]; exact hvals.2, fun m r => ?_⟩
  have hp0 : poly (.prod l : Expr D) ≠ 0 := by
    rw [← he, IsKey.poly (m := (q, K.facs)) hK]
    simpa using hq
  have hz : Tot cfg (fun E => expandsToZero E (.prod l)) false := rts_expandsToZero hc (by rw [← he]; exact (EP.mono (m := (q, K.facs)) hq hK).pol) hp0
  rw [he]
  have n1' : Tot cfg (fun E => E.prodCreate ((l.map fr).map Frac.num)) n := by rw [List.map_map]; exact tot_prod n1
  have d1' : Tot cfg (fun E => E.prodCreate ((l.map fr).map Frac.denom)) (.int q.den) := by rw [List.map_map]; exact tot_prod d1
  constructor
  · intro h
    refine tot_succ (fun _ => rfl) (f := fun E => normalFrac E (.prod l) m) ?_
    simp only [normalFrac]
    refine tot_bind hz ?_
    simp only [Bool.false_eq_true, if_false]
    exact tot_bind (hops m) (tot_bind n1' (tot_bind d1' (tot_bind h (tot_pure _))))
  · intro h
    refine rts_succ (fun _ => rfl) (f := fun E => normalFrac E (.prod l) m) ?_
    simp only [normalFrac]
    refine rts_bind hz.rts ?_
    simp only [Bool.false_eq_true, if_false]
    exact rts_bind (hops m).rts (rts_bind n1'.rts (rts_bind d1'.rts (rts_bind h (tot_pure _).rts)))

theorem dv_mono {m : Mono D} {K : Key} (hk : IsKey m.2 K) (h : Dv 1 (poly (em m))) : ∃ z : ℤ, m.1 = z := by
  obtain ⟨z, hz⟩ := h K.fs
  rw [hk.poly, MvPolynomial.coeff_monomial, if_pos rfl, one_mul] at hz
  exact ⟨z, hz⟩

theorem tot_cancel_one (n : Expr D) : Tot cfg (fun E => cancel E ⟨n, one⟩) ⟨n, one⟩ := by
  unfold cancel
  simp only [isOne_one, if_true]
  exact tot_pure _

/-- Monomials with an integer coefficient. -/
theorem tot_normalFrac_em (hc : cfg.Ok) {m : Mono D} {K : Key} (hm : m.1 ≠ 0) (hk : IsKey m.2 K) (hi : ∃ z : ℤ, m.1 = z) (S : SMap D) :
    Tot cfg (fun E => E.normalFrac (em m) S) (⟨em m, one⟩, S) := by
  obtain ⟨q, P⟩ := m
  obtain ⟨z, rfl⟩ := hi
  have hP := hk.2.2
  simp only at hP
  subst hP
  rcases mexpr_cases (D := D) (z : ℚ) K.facs with ⟨h, e⟩ | ⟨f, h, hq, e⟩ | ⟨h, h2, e⟩
  · rw [em, e]; exact tot_normalFrac_int z S
  · rw [em, e]
    obtain ⟨x, rfl, rfl⟩ := facs_single h
    exact tot_normalFrac_symFac hc (hk.1 x (by simp)).2 S
  · obtain ⟨n, n1, n2, n3⟩ := normalFrac_prod hc hm hk e (by rintro rfl; exact h rfl)
    have hd : (.int ((z : ℚ).den : ℤ) : Expr D) = one := by rw [Rat.den_intCast]; simp [int_one]
    have : n = em ((z : ℚ), K.facs) := n1.unique (EP.mono hm hk) (by rw [n2]; simp)
    subst this
    rw [hd] at n3
    exact (n3 S _).1 (tot_cancel_one _)

/-- Sums over the denominator one. -/
theorem tot_foldFrac (hc : cfg.Ok) : ∀ (l : List (Expr D)), (∀ e ∈ l, EP e) → ∀ {n : Expr D}, EP n →
    ∃ r, Tot cfg (fun E => M.foldL (addFrac E) ⟨n, one⟩ (l.map fun e => ⟨e, one⟩)) ⟨r, one⟩ ∧ EP r ∧ poly r = poly n + (l.map poly).sum
  | [], _, n, hn => ⟨n, tot_pure _, hn, by simp⟩
  | e :: l, h, n, hn => by
    obtain ⟨s, s1, s2, s3⟩ := tot_sum_ep hc (cfg := cfg) (es := [n, e]) (by simp) (by
      intro x hx
      simp only [List.mem_cons, List.not_mem_nil, or_false] at hx
      rcases hx with rfl | rfl
      exacts [hn, h _ (by simp)])
    obtain ⟨r, r1, r2, r3⟩ := tot_foldFrac hc l (fun x hx => h x (by simp [hx])) s2
    refine ⟨r, ?_, r2, by rw [r3, s3]; simp [add_assoc]⟩
    have ha : Tot cfg (fun E => addFrac E ⟨n, one⟩ ⟨e, one⟩) ⟨s, one⟩ := by
      unfold addFrac
      have : isEqual (one : Expr D) one = true := by rw [one_eq]; exact isEqual_refl (exact_ratE 1)
      simp only [this, if_true]
      exact tot_bind (tot_sum s1) (tot_pure _)
    exact tot_bind ha r1

theorem poly_sum (l : List (Expr D)) : poly (.sum l : Expr D) = (l.map poly).sum := polySum_eq l

theorem dv_summand {L : List (Mono D)} (hL : EL L) (hi : Dv 1 (psum L)) {m : Mono D} (hm : m ∈ L) : ∃ z : ℤ, m.1 = z := by
  obtain ⟨K, hK⟩ := hL.ks.key m hm
  obtain ⟨z, hz⟩ := hi K.fs
  rw [((hL.coeff hK).1 hm).1, one_mul] at hz
  exact ⟨z, hz⟩

theorem psum_poly {L : List (Mono D)} (h2 : 2 ≤ L.length) : poly (.sum (L.map em) : Expr D) = psum L := by
  have := sumOf_poly (D := D) L
  match L, h2 with
  | _ :: _ :: _, _ => exact this

/-- Polynomials with integer coefficients are their own numerators. -/
theorem tot_normalFrac_ep (hc : cfg.Ok) {e : Expr D} (he : EP e) (hi : Dv 1 (poly e)) (S : SMap D) :
    Tot cfg (fun E => E.normalFrac e S) (⟨e, one⟩, S) := by
  rcases he.cases with rfl | ⟨m, K, hm, hK, rfl⟩ | ⟨L, hL, h2, rfl⟩
  · have := tot_normalFrac_int (D := D) (cfg := cfg) 0 S
    have h0 : (.int 0 : Expr D) = zero := by rw [zero_eq]; simp [Expr.int]
    rw [h0] at this
    exact this
  · exact tot_normalFrac_em hc hm hK (dv_mono hK hi) S
  · refine tot_succ (fun _ => rfl) (f := fun E => normalFrac E (.sum (L.map em)) S) ?_
    have h0 : poly (.sum (L.map em) : Expr D) ≠ 0 := by
      intro h
      have : (.sum (L.map em) : Expr D) = zero := he.unique EP.zero (by rw [h, poly_zero])
      cases this
    have hem : ∀ e ∈ (L.map em : List (Expr D)), EP e := by
      intro e h
      obtain ⟨m, hm, rfl⟩ := List.mem_map.1 h
      obtain ⟨K, hK⟩ := hL.ks.key m hm
      exact EP.mono (hL.ne m hm) hK
    simp only [normalFrac]
    refine tot_bind (rts_expandsToZero hc he.pol h0) ?_
    simp only [Bool.false_eq_true, if_false]
    rw [psum_poly h2] at hi
    refine tot_bind (tot_normalOperands (F := fun e => ⟨e, one⟩) (fun e h S => by
      obtain ⟨m, hm, rfl⟩ := List.mem_map.1 h
      obtain ⟨K, hK⟩ := hL.ks.key m hm
      exact tot_normalFrac_em hc (hL.ne m hm) hK (dv_summand hL hi hm) S) S) ?_
    refine tot_bind (a := ⟨.sum (L.map em), one⟩) ?_ (tot_pure _)
    match L, h2 with
    | m :: L, h2 =>
      obtain ⟨r, r1, r2, r3⟩ := tot_foldFrac hc (cfg := cfg) (L.map em) (fun e h => hem e (by simp only [List.map_cons]; exact List.mem_cons_of_mem _ h)) (hem (em m) (by simp))
      have : r = .sum ((m :: L).map em) := r2.unique he (by rw [r3, poly_sum]; simp)
      subst this
      simp only [List.map_cons, toCommonDenom]
      refine tot_bind r1 (tot_cancel_one _)

theorem tot_normal_dv (hc : cfg.Ok) {e : Expr D} (he : EP e) (hi : Dv 1 (poly e)) : Tot cfg (fun E => E.normal e) e :=
  tot_normal_one hc he (tot_normalFrac_ep hc he hi)

/-! ## Rational coefficients -/

/-- A polynomial over a positive integer. -/
structure Over (max : ℤ) (p : MvPolynomial Sym ℚ) (n : Expr D) (d : ℤ) : Prop where
  ep : EP n
  int : Dv 1 (poly n)
  pos : 0 < d
  eq : p * MvPolynomial.C (d : ℚ) = poly n
  ok : NumOk max (d : ℚ)

theorem Lowest.over {max : ℤ} {p : MvPolynomial Sym ℚ} {n : Expr D} {d : ℤ} (h : Lowest p n d) (hok : NumOk max (d : ℚ)) : Over max p n d :=
  ⟨h.ep, h.int, h.pos, h.eq, hok⟩

/-- Addition of two quotients. -/
theorem rts_addFrac (hc : cfg.Ok) {p1 p2 : MvPolynomial Sym ℚ} {n1 n2 : Expr D} {d1 d2 : ℤ} (h1 : Over cfg.maxPrime p1 n1 d1)
    (h2 : Over cfg.maxPrime p2 n2 d2) : ∃ (n : Expr D) (d : ℤ), Rts cfg (fun E => addFrac E ⟨n1, .int d1⟩ ⟨n2, .int d2⟩) ⟨n, .int d⟩ ∧
      Over cfg.maxPrime (p1 + p2) n d := by
  unfold addFrac
  by_cases hd : d1 = d2
  · subst hd
    have : isEqual (.int d1 : Expr D) (.int d1) = true := (isEqual_ep (EP.int _) (EP.int _)).2 rfl
    simp only [this, if_true]
    obtain ⟨s, s1, s2, s3⟩ := tot_sum_ep hc (cfg := cfg) (es := [n1, n2]) (by simp) (by
      intro x hx
      simp only [List.mem_cons, List.not_mem_nil, or_false] at hx
      rcases hx with rfl | rfl
      exacts [h1.ep, h2.ep])
    have s4 : poly s = poly n1 + poly n2 := by rw [s3]; simp
    exact ⟨s, d1, (tot_bind (g := fun _ n => pure (⟨n, .int d1⟩ : Frac D)) (tot_sum s1) (tot_pure _)).rts, s2, by rw [s4]; exact h1.int.add h2.int, h1.pos, by rw [s4, ← h1.eq, ← h2.eq]; ring, h1.ok⟩
  · have hE : isEqual (.int d1 : Expr D) (.int d2) = false := by
      rw [Bool.eq_false_iff]
      intro h
      exact hd (int_inj.1 ((isEqual_ep (EP.int _) (EP.int _)).1 h))
    simp only [hE, Bool.false_eq_true, if_false]
    have hp1 : poly (.int d1 : Expr D) ≠ 0 := by rw [poly_int, MvPolynomial.C_ne_zero]; exact_mod_cast h1.pos.ne'
    obtain ⟨g, g0, g1, g2, g3, g4⟩ := tot_gcd_int hc (cfg := cfg) (EP.int (D := D) d1) hp1 (by rw [poly_int]; exact Dv.C_iff.2 (one_dvd _))
      (fun t => by rw [degreeOf_int]; decide) h2.pos
    rw [poly_int] at g3 g4
    have g5 := Dv.C_iff.1 g3
    obtain ⟨a, ha⟩ := g5
    obtain ⟨b, hb⟩ := g2
    have ha0 : 0 < a := pos_of_mul_pos_right (by rw [← ha]; exact h1.pos) g0.le
    have hb0 : 0 < b := pos_of_mul_pos_right (by rw [← hb]; exact h2.pos) g0.le
    have hgq : (g : ℚ) ≠ 0 := by exact_mod_cast g0.ne'
    have hokg : NumOk cfg.maxPrime (g : ℚ) := h1.ok.of_dvd ⟨a, ha⟩ h1.pos.ne'
    have e2 : (d2 : ℚ) * (g : ℚ)⁻¹ = (b : ℚ) := by rw [hb]; push_cast; field_simp
    have e1 : (d1 : ℚ) * (g : ℚ)⁻¹ = (a : ℚ) := by rw [ha]; push_cast; field_simp
    have t1 := tot_oneOver_num (D := D) hc g0.ne' hokg
    have t2 := tot_prod_nums (D := D) hc (cfg := cfg) (d2 : ℚ) (g : ℚ)⁻¹
    have t3 := tot_prod_nums (D := D) hc (cfg := cfg) (d1 : ℚ) (g : ℚ)⁻¹
    have t4 := tot_prod_nums (D := D) hc (cfg := cfg) (d1 : ℚ) (b : ℚ)
    rw [e2] at t2
    rw [e1] at t3
    have e3 : (d1 : ℚ) * (b : ℚ) = ((d1 * b : ℤ) : ℚ) := by push_cast; rfl
    rw [e3] at t4
    obtain ⟨u, u1, u2, u3⟩ := tot_ep_num hc (cfg := cfg) (b : ℚ) h1.ep
    obtain ⟨v, v1, v2, v3⟩ := tot_ep_num hc (cfg := cfg) (a : ℚ) h2.ep
    obtain ⟨s, s1, s2, s3⟩ := tot_sum_ep hc (cfg := cfg) (es := [u, v]) (by simp) (by
      intro x hx
      simp only [List.mem_cons, List.not_mem_nil, or_false] at hx
      rcases hx with rfl | rfl
      exacts [u2, v2])
    have s4 : poly s = poly u + poly v := by rw [s3]; simp
    have s5 : Dv 1 (poly s) := by
      rw [s4, u3, v3]
      exact (Dv.mul h1.int).one_of.add (Dv.mul h2.int).one_of
    refine ⟨s, d1 * b, ?_, s2, s5, mul_pos h1.pos hb0, ?_, ?_⟩
    · refine rts_bind (tot_silent g1).rts (rts_bind (rts_log hgq) (Tot.rts ?_))
      refine tot_bind t1 (tot_bind t2 (tot_bind (tot_expand (tot_expand_ep hc (EP.num _))) (tot_bind t3 (tot_bind (tot_normal_int hc a) ?_))))
      refine tot_bind u1 (tot_bind (tot_expand (tot_expand_ep hc u2)) (tot_bind v1 (tot_bind (tot_expand (tot_expand_ep hc v2)) ?_)))
      refine tot_bind (tot_sum s1) (tot_bind (tot_normal_dv hc s2 s5) (tot_bind t4 (tot_bind (tot_normal_int hc _) ?_)))
      exact tot_pure _
    · rw [s4, u3, v3, ← h1.eq, ← h2.eq]
      have hab : (d1 : ℚ) * b = d2 * a := by rw [ha, hb]; push_cast; ring
      have e4 : (MvPolynomial.C ((d1 * b : ℤ) : ℚ) : MvPolynomial Sym ℚ) = MvPolynomial.C (d1 : ℚ) * MvPolynomial.C (b : ℚ) := by rw [← map_mul]; push_cast; rfl
      have e5 : (MvPolynomial.C ((d1 * b : ℤ) : ℚ) : MvPolynomial Sym ℚ) = MvPolynomial.C (d2 : ℚ) * MvPolynomial.C (a : ℚ) := by rw [← map_mul, ← hab]; push_cast; rfl
      rw [add_mul]
      conv_lhs => rw [e4]
      rw [show p2 * (MvPolynomial.C (d1 : ℚ) * MvPolynomial.C (b : ℚ)) = p2 * (MvPolynomial.C (d2 : ℚ) * MvPolynomial.C (a : ℚ)) by rw [← e4, e5]]
      ring
    · refine h1.ok.lcm h2.ok ?_
      have hg : g = Int.gcd d1 d2 := by
        apply Int.dvd_antisymm g0.le (by positivity)
        · exact Int.dvd_coe_gcd ⟨a, ha⟩ ⟨b, hb⟩
        · exact g4 _ (Int.gcd_dvd_right ..) (Dv.C_iff.2 (Int.gcd_dvd_left ..))
      have h3 : (Int.gcd d1 d2 : ℤ) * (Int.lcm d1 d2 : ℤ) = d1 * d2 := by
        have := Int.gcd_mul_lcm d1 d2
        have h4 : (((Int.gcd d1 d2 * Int.lcm d1 d2 : ℕ) : ℤ)) = ((d1 * d2).natAbs : ℤ) := by rw [this, Int.natAbs_mul]
        rw [Int.natAbs_of_nonneg (mul_pos h1.pos h2.pos).le] at h4
        exact_mod_cast h4
      rw [← hg] at h3
      have h5 : (Int.lcm d1 d2 : ℤ) = d1 * b := mul_left_cancel₀ g0.ne' (by rw [h3, hb]; ring)
      rw [h5]

theorem rts_foldFrac (hc : cfg.Ok) {F : Expr D → Frac D} : ∀ (l : List (Expr D)),
    (∀ e ∈ l, ∃ n d, F e = ⟨n, .int d⟩ ∧ Over cfg.maxPrime (poly e) n d) → ∀ {p : MvPolynomial Sym ℚ} {n : Expr D} {d : ℤ}, Over cfg.maxPrime p n d →
    ∃ n' d', Rts cfg (fun E => M.foldL (addFrac E) ⟨n, .int d⟩ (l.map F)) ⟨n', .int d'⟩ ∧ Over cfg.maxPrime (p + (l.map poly).sum) n' d'
  | [], _, p, n, d, hn => ⟨n, d, (tot_pure _).rts, by simpa using hn⟩
  | e :: l, h, p, n, d, hn => by
    obtain ⟨n2, d2, e2, h2⟩ := h e (by simp)
    obtain ⟨n3, d3, r3, h3⟩ := rts_addFrac hc hn h2
    obtain ⟨n4, d4, r4, h4⟩ := rts_foldFrac hc l (fun x hx => h x (by simp [hx])) h3
    refine ⟨n4, d4, ?_, by simpa [add_assoc] using h4⟩
    simp only [List.map_cons, e2]
    exact rts_bind r3 r4

theorem degreeOf_mul_C_le (p : MvPolynomial Sym ℚ) (q : ℚ) (t : Sym) : (p * MvPolynomial.C q).degreeOf t ≤ p.degreeOf t := by
  refine (MvPolynomial.degreeOf_mul_le t _ _).trans ?_
  rw [MvPolynomial.degreeOf_C, add_zero]

/-- What is found for an expanded polynomial. -/
def NFrac (cfg : Cfg D) (e : Expr D) : Prop :=
  ∃ (n : Expr D) (d : ℤ), (∀ S, Rts cfg (fun E => E.normalFrac e S) (⟨n, .int d⟩, S)) ∧ Lowest (poly e) n d ∧ NumOk cfg.maxPrime (d : ℚ)

theorem nf_em (hc : cfg.Ok) {m : Mono D} {K : Key} (hm : m.1 ≠ 0) (hk : IsKey m.2 K) (hb : ∀ t, ((poly (em m)).degreeOf t : ℤ) < intMax)
    (hok : NumOk cfg.maxPrime (m.1.den : ℚ)) : NFrac cfg (em m) := by
  obtain ⟨q, P⟩ := m
  have hP := hk.2.2
  simp only at hP hm hok
  subst hP
  rcases mexpr_cases (D := D) q K.facs with ⟨h, e⟩ | ⟨f, h, hq, e⟩ | ⟨h, h2, e⟩
  · rw [em, e]
    exact ⟨_, _, fun S => (tot_normalFrac_num q S).rts, by rw [poly_ratE]; exact lowest_num q, hok⟩
  · subst hq
    have := tot_normalFrac_em (cfg := cfg) hc hm hk ⟨1, by simp⟩
    refine ⟨em (1, K.facs), 1, fun S => by rw [int_one]; exact (this S).rts, ⟨EP.mono hm hk, fun f => ?_, one_pos, by simp, fun k h _ => h⟩, numOk_one⟩
    rw [hk.poly, MvPolynomial.coeff_monomial]
    split
    · exact ⟨1, by simp⟩
    · exact ⟨0, by simp⟩
  · obtain ⟨n, n1, n2, n3⟩ := normalFrac_prod hc hm hk e (by rintro rfl; exact h rfl)
    have hi : Dv 1 (poly n) := by
      intro f
      rw [n2, hk.poly, mul_comm, MvPolynomial.coeff_C_mul, MvPolynomial.coeff_monomial]
      split
      · refine ⟨q.num, ?_⟩
        have := Rat.mul_den_eq_num q
        rw [mul_comm, one_mul, ← this]
      · exact ⟨0, by simp⟩
    obtain ⟨n', d', c1, c2, c3⟩ := rts_cancel hc n1 hi (fun t => by
      rw [n2]; have := degreeOf_mul_C_le (poly (em (q, K.facs) : Expr D)) q.den t; have := hb t; omega) (d := q.den) (by exact_mod_cast q.den_pos) (by exact_mod_cast hok)
      (poly (em (q, K.facs))) (by rw [n2, Int.cast_natCast])
    refine ⟨n', d', fun S => (n3 S _).2 c1, c2, ?_⟩
    refine NumOk.of_dvd (b := q.den) (by exact_mod_cast hok) c3 (by exact_mod_cast q.den_pos.ne')

/-- Numerator and denominator of expanded polynomials. -/
theorem nf_ep (hc : cfg.Ok) {e : Expr D} (he : EP e) (hb : ∀ t, ((poly e).degreeOf t : ℤ) < intMax)
    (hok : ∀ f, NumOk cfg.maxPrime (((poly e).coeff f).den : ℚ)) : NFrac cfg e := by
  rcases he.cases with rfl | ⟨m, K, hm, hK, rfl⟩ | ⟨L, hL, h2, rfl⟩
  · rw [zero_eq]
    exact ⟨_, _, fun S => (tot_normalFrac_num 0 S).rts, by rw [poly_ratE]; exact lowest_num 0, by simpa using numOk_one⟩
  · refine nf_em hc hm hK hb ?_
    have := hok K.fs
    rwa [hK.poly, MvPolynomial.coeff_monomial, if_pos rfl] at this
  · rw [psum_poly h2] at hok
    have hp := psum_poly (D := D) h2
    have hall : ∀ e ∈ (L.map em : List (Expr D)), NFrac cfg e := by
      intro e h
      obtain ⟨m, hm, rfl⟩ := List.mem_map.1 h
      obtain ⟨K, hK⟩ := hL.ks.key m hm
      refine nf_em hc (hL.ne m hm) hK (fun t => ?_) ?_
      · have h1 := hb t
        rw [hp] at h1
        have h3 : (poly (em m)).degreeOf t ≤ (psum L).degreeOf t := by
          rw [hK.poly, MvPolynomial.degreeOf_monomial_eq _ _ (hL.ne m hm)]
          exact MvPolynomial.le_degreeOf_of_mem_support t (hL.mem_support hm hK)
        omega
      · have := hok K.fs
        rwa [((hL.coeff hK).1 hm).1] at this
    have h0 : poly (.sum (L.map em) : Expr D) ≠ 0 := by
      intro h
      have : (.sum (L.map em) : Expr D) = zero := he.unique EP.zero (by rw [h, poly_zero])
      cases this
    choose! N Q hN using hall
    have hF : ∀ e ∈ (L.map em : List (Expr D)), ∃ n d, (fun e => (⟨N e, .int (Q e)⟩ : Frac D)) e = ⟨n, .int d⟩ ∧ Over cfg.maxPrime (poly e) n d :=
      fun e h => ⟨_, _, rfl, (hN e h).2.1.over (hN e h).2.2⟩
    obtain ⟨m, L, rfl⟩ := List.exists_cons_of_ne_nil (l := L) (by rintro rfl; simp at h2)
    obtain ⟨n, d, r1, r2⟩ := rts_foldFrac hc (cfg := cfg) (F := fun e => (⟨N e, .int (Q e)⟩ : Frac D)) (L.map em)
      (fun e h => hF e (by simp only [List.map_cons]; exact List.mem_cons_of_mem _ h)) ((hN (em m) (by simp)).2.1.over (hN (em m) (by simp)).2.2)
    have hs : poly (em m) + ((L.map em).map poly).sum = poly (.sum ((m :: L).map em) : Expr D) := by rw [poly_sum]; simp
    rw [hs] at r2
    obtain ⟨n', d', c1, c2, c3⟩ := rts_cancel hc r2.ep r2.int (fun t => by
      rw [← r2.eq]; have := degreeOf_mul_C_le (poly (.sum ((m :: L).map em) : Expr D)) d t; have := hb t; omega) r2.pos r2.ok _ r2.eq
    refine ⟨n', d', fun S => ?_, c2, r2.ok.of_dvd c3 r2.pos.ne'⟩
    refine rts_succ (fun _ => rfl) (f := fun E => normalFrac E (.sum ((m :: L).map em)) S) ?_
    simp only [normalFrac]
    refine rts_bind (rts_expandsToZero hc he.pol h0).rts ?_
    simp only [Bool.false_eq_true, if_false]
    refine rts_bind (rts_normalOperands (F := fun e => (⟨N e, .int (Q e)⟩ : Frac D)) (fun e h S => (hN e h).1 S) S) ?_
    refine rts_bind (a := ⟨n', .int d'⟩) ?_ (tot_pure _).rts
    simp only [List.map_cons, toCommonDenom]
    exact rts_bind r1 c1

end Tsym
