import Verif.PolyExact
import Verif.Props.Poly

set_option autoImplicit false
set_option linter.unusedSectionVars false
set_option linter.unusedSimpArgs false
set_option linter.unusedVariables false

/-!
# Helper lemmas for the greatest common divisor: numeric factors, least degrees, contents, signs
-/

namespace Tsym

open Expr

variable {D : Type} [Flt D] [ExactLt D] {cfg : Cfg D}

/-! ## A number times an expanded polynomial -/

theorem norm_single {b : Expr D} {l : List (Expr D)} (hb : b = .sum l) {R : List (Expr D × ℕ)} (h : Norm cfg [(b, 1)] R) : R = [(b, 1)] := by
  subst hb
  have h3 : pv isSumBase R = Multiplicative.ofAdd 1 := by
    rw [← h.same]; simp [isSumBase]
  have h4 : ∀ (P : List (Expr D × ℕ)), PFacs cfg P → (∀ f ∈ P, f.1 = .sum l) → P.length ≤ (pv isSumBase P).toAdd ∧ ∀ f ∈ P, f.2 ≤ (pv isSumBase P).toAdd := by
    intro P hP hs
    induction P with
    | nil => simp
    | cons f P ih =>
      obtain ⟨i1, i2⟩ := ih hP.cons.2 fun g hg => hs g (by simp [hg])
      have hf := hP.cons.1.one_le
      rw [pv_cons, toAdd_mul, hs f (by simp), toAdd_pow]
      simp only [isSumBase, toAdd_ofAdd, smul_eq_mul, mul_one, List.length_cons]
      refine ⟨by omega, fun g hg => ?_⟩
      rcases List.mem_cons.1 hg with rfl | hg
      · omega
      · have := i2 g hg; omega
  have h5 : ∀ f ∈ R, f.1 = .sum l := by
    intro f hf
    obtain ⟨g, hg, e⟩ := h.sub f hf
    rw [List.mem_singleton.1 hg] at e
    exact e.symm
  obtain ⟨h6, h7⟩ := h4 R h.facs h5
  rw [h3] at h6 h7
  simp only [toAdd_ofAdd] at h6 h7
  match R, h3 with
  | [], h3 =>
    have := congrArg Multiplicative.toAdd h3
    simp at this
  | [f], _ =>
    have h8 := h.facs f (by simp)
    have h9 := h8.one_le
    have := h7 f (by simp)
    have e := h5 f (by simp)
    obtain ⟨x, k⟩ := f
    simp only at e h9 this
    subst e
    rw [show k = 1 by omega]
  | _ :: _ :: _, _ => simp at h6

/-- A number times an expanded polynomial is expanded. -/
theorem tot_num_ep (hc : cfg.Ok) (q : ℚ) {e : Expr D} (he : EP e) :
    ∃ r, Tot cfg (fun E => E.prodCreate [.num (.rat q), e]) r ∧ EP r ∧ poly r = MvPolynomial.C q * poly e := by
  rcases he.cases with h | ⟨m, K, hm, hk, h⟩ | ⟨L, hL, h2, h⟩
  · obtain ⟨r, r1, r2, r3⟩ := tot_prod_em hc (cfg := cfg) (A := [.num (.rat q), e]) (by simp) (by
      intro x hx
      simp only [List.mem_cons, List.not_mem_nil, or_false] at hx
      rcases hx with rfl | rfl
      exacts [EM.num q, h ▸ EM.zero])
    exact ⟨r, tot_prod r1, r2.1, by rw [r3]; simp [poly_ratE]⟩
  · obtain ⟨r, r1, r2, r3⟩ := tot_prod_em hc (cfg := cfg) (A := [.num (.rat q), e]) (by simp) (by
      intro x hx
      simp only [List.mem_cons, List.not_mem_nil, or_false] at hx
      rcases hx with rfl | rfl
      exacts [EM.num q, h ▸ EM.mono hm hk])
    exact ⟨r, tot_prod r1, r2.1, by rw [r3]; simp [poly_ratE]⟩
  · by_cases hq : q = 0
    · subst hq
      refine ⟨zero, tot_prod ?_, EP.zero, by rw [poly_zero]; simp⟩
      unfold prodCreate
      have hZ : [num (.rat (0 : ℚ)), e].any Expr.isZero = true := by simp [isZero_ratE]
      have hU : [num (.rat (0 : ℚ)), e].any Expr.isUndefined = false := by rw [List.any_cons, List.any_cons, he.isUndefined]; rfl
      simp only [hU, hZ, Bool.false_eq_true, if_false, if_true]; exact tot_pure _
    have bS : PBase cfg (.sum (L.map em) : Expr D) := pbase_sum (B := fun _ => True) (hL.sl (by simp)) h2
    have fS : PFacs cfg [((.sum (L.map em) : Expr D), 1)] := by
      intro f hf; rw [List.mem_singleton.1 hf]; exact ⟨bS, le_refl 1⟩
    obtain ⟨R, hR, t1, t2⟩ := tot_prodCreate hc (Ms := [(q, []), (1, [(.sum (L.map em), 1)])]) (by
      intro n hn
      simp only [List.mem_cons, List.not_mem_nil, or_false] at hn
      rcases hn with rfl | rfl
      exacts [⟨hq, by simp [PFacs]⟩, ⟨one_ne_zero, fS⟩]) (by simp)
    have hms : (.sum (L.map em) : Expr D) = mexpr 1 [(.sum (L.map em), 1)] := by simp [mexpr, rl_one, prodOf, fac]
    simp only [List.map_cons, List.map_nil, List.prod_cons, List.prod_nil, mul_one, List.flatMap_cons, List.flatMap_nil,
      List.append_nil, List.nil_append, ← hms, ← num_mexpr] at hR t1 t2
    have hR' := norm_single rfl hR
    rw [h]
    rw [h] at he
    by_cases hq1 : q = 1
    · subst hq1
      have := t1 fun hn => hn.1 rfl
      rw [hR', ← hms] at this
      exact ⟨_, tot_prod this, he, by simp⟩
    · have hn : Nx q R := ⟨hq1, _, hR'⟩
      have hrl : rl q R = [.num (.rat q), .sum (L.map em)] := by rw [hR', rl_ne hq1]; simp [fac]
      rw [hrl] at t2
      obtain ⟨r, hr, er, pr⟩ := tot_expand_one hc (l := [.num (.rat q), .sum (L.map em)]) (by
        intro x hx
        simp only [List.mem_cons, List.not_mem_nil, or_false] at hx
        rcases hx with rfl | rfl
        exacts [EP.num q, he]) (by simp [Expr.isSum, List.filter_cons])
      exact ⟨r, tot_prod (t2 hn r hr), er, by rw [pr]; simp [poly_ratE]⟩

/-! ## The least degree -/

theorem numEval_int (n : ℤ) : numEval (int n : Expr D) = .ok (some (.rat n)) := rfl

theorem minDegree_symFac (s : Sym) {x : Sym × ℕ} (h1 : 1 ≤ x.2) (hb : x.1 = s → (x.2 : ℤ) < intMax) :
    minDegree (.sym s) (symFac x : Expr D) = .ok (if x.1 = s then (x.2 : ℤ) else 0) := by
  unfold symFac fac
  by_cases h : x.2 = 1
  · simp only [h, if_true, minDegree, isEqual_sym]
    by_cases hs : x.1 = s <;> simp [hs, pure, Except.pure]
  · simp only [h, if_false, minDegree, isEqual_pow_sym, Bool.false_eq_true, isEqual_sym, numEval_int, bind, Except.bind]
    have hn : (Number.rat ((x.2 : ℤ) : ℚ) : Number D).numerator = x.2 := by simp [Number.numerator]
    rw [hn]
    by_cases hs : x.1 = s
    · have hf : fitsInt (x.2 : ℤ) = true := by
        have := hb hs
        simp only [fitsInt, decide_eq_true_eq]
        exact ⟨by unfold intMin; omega, by omega⟩
      simp [hf, hs, pure, Except.pure]
    · by_cases hf : fitsInt (x.2 : ℤ) = true
      · simp [hf, hs, pure, Except.pure]
      · simp [hf, hs, pure, Except.pure]

theorem minDegreeAdd_symFacs (s : Sym) {K : Key} (hK : K.Ok) (hb : (K.count s : ℤ) < intMax) (acc : ℤ) :
    minDegreeAdd (.sym s) acc (K.map symFac : List (Expr D)) = .ok (acc + K.count s) := by
  induction K generalizing acc with
  | nil => simp [minDegreeAdd, Key.count]; rfl
  | cons x K ih =>
    have hc : Key.count (x :: K) s = (if x.1 = s then x.2 else 0) + Key.count K s := by simp [Key.count]
    rw [hc] at hb ⊢
    simp only [List.map_cons, minDegreeAdd]
    rw [minDegree_symFac s (hK x (by simp)).2 (fun e => by rw [if_pos e] at hb; push_cast at hb; omega)]
    simp only [bind, Except.bind]
    rw [ih (fun a ha => hK a (by simp [ha])) (by push_cast at hb; split at hb <;> omega)]
    congr 1
    split <;> push_cast <;> ring

theorem minDegree_em (s : Sym) {m : Mono D} {K : Key} (hk : IsKey m.2 K) (hb : (K.count s : ℤ) < intMax) :
    minDegree (.sym s) (em m) = .ok (K.count s : ℤ) := by
  obtain ⟨q, P⟩ := m
  obtain ⟨hK, _, rfl⟩ := hk
  rcases mexpr_cases (D := D) q K.facs with ⟨h, e⟩ | ⟨f, h, hq, e⟩ | ⟨h, h2, e⟩
  · rw [em, e]
    have : K = [] := by simpa [Key.facs] using h
    subst this; simp [minDegree, Key.count]; rfl
  · rw [em, e]
    obtain ⟨x, rfl, rfl⟩ := facs_single h
    have hc : Key.count [x] s = if x.1 = s then x.2 else 0 := by simp [Key.count]
    rw [hc] at hb ⊢
    rw [show (fac (.sym x.1, x.2) : Expr D) = symFac x from rfl,
      minDegree_symFac s (hK x (by simp)).2 fun e => by rw [if_pos e] at hb; exact hb]
    push_cast; rfl
  · rw [em, e]
    simp only [minDegree, isEqual_prod_sym, Bool.false_eq_true, if_false]
    unfold rl
    rw [Key.facs_map]
    split
    · rw [List.nil_append, minDegreeAdd_symFacs s hK hb, zero_add]
    · rw [List.singleton_append, minDegreeAdd]
      simp only [minDegree, pure, Except.pure, bind, Except.bind]
      rw [minDegreeAdd_symFacs s hK hb]; congr 1; ring

theorem minDegreeMin_eq {x : Expr D} {l : List (Expr D)} {N acc : ℤ} (h : ∀ a ∈ l, ∃ d, minDegree x a = .ok d ∧ N ≤ d) (h1 : N ≤ acc)
    (h2 : acc = N ∨ ∃ a ∈ l, minDegree x a = .ok N) : minDegreeMin x acc l = .ok N := by
  induction l generalizing acc with
  | nil =>
    rcases h2 with h2 | ⟨a, ha, _⟩
    · simp only [minDegreeMin, h2]; rfl
    · simp at ha
  | cons a l ih =>
    obtain ⟨d, hd, hl⟩ := h a (by simp)
    simp only [minDegreeMin, hd, bind, Except.bind]
    refine ih (fun b hb => h b (by simp [hb])) (le_min h1 hl) ?_
    rcases h2 with h2 | ⟨b, hb, h2⟩
    · left; rw [h2]; exact min_eq_left hl
    · rcases List.mem_cons.1 hb with rfl | hb
      · rw [hd] at h2; cases h2; left; exact min_eq_right h1
      · exact .inr ⟨b, hb, h2⟩

theorem coeff_of_support {s : Sym} {p : MvPolynomial Sym ℚ} {f : Sym →₀ ℕ} (hf : f ∈ p.support) : (upoly s p).coeff (f s) ≠ 0 := by
  intro h0
  have := upoly_cf s (f s) p (f.erase s)
  rw [h0, if_pos (by simp), add_comm, Finsupp.single_add_erase] at this
  exact MvPolynomial.mem_support_iff.1 hf this.symm

theorem support_of_coeff {s : Sym} {p : MvPolynomial Sym ℚ} {n : ℕ} (h : (upoly s p).coeff n ≠ 0) : ∃ f ∈ p.support, f s = n := by
  obtain ⟨g, hg⟩ := MvPolynomial.ne_zero_iff.1 h
  have h1 := upoly_cf s n p g
  by_cases hz : g s = 0
  · rw [if_pos hz] at h1
    refine ⟨g + Finsupp.single s n, MvPolynomial.mem_support_iff.2 (h1 ▸ hg), by simp [hz]⟩
  · rw [if_neg hz] at h1; exact absurd h1 hg

/-- The least degree of an expanded polynomial. -/
theorem minDegree_ep (s : Sym) {r : Expr D} (h : EP r) (h0 : poly r ≠ 0) (hb : ((poly r).degreeOf s : ℤ) < intMax) :
    ∃ k : ℕ, minDegree (.sym s) r = .ok (k : ℤ) ∧ (upoly s (poly r)).coeff k ≠ 0 ∧ ∀ i < k, (upoly s (poly r)).coeff i = 0 := by
  rcases h.cases with rfl | ⟨m, K, hm, hK, rfl⟩ | ⟨L, hL, h2, rfl⟩
  · exact absurd poly_zero h0
  · have hd : (poly (em m)).degreeOf s = K.count s := by
      rw [hK.poly, MvPolynomial.degreeOf_monomial_eq _ _ hm, Key.fs_count]
    rw [hd] at hb
    refine ⟨K.count s, minDegree_em s hK hb, ?_, fun i hi => ?_⟩
    · rw [← Key.fs_count]
      refine coeff_of_support ?_
      rw [hK.poly, MvPolynomial.mem_support_iff, MvPolynomial.coeff_monomial, if_pos rfl]; exact hm
    · by_contra hn
      obtain ⟨f, hf, hfi⟩ := support_of_coeff hn
      rw [hK.poly, MvPolynomial.mem_support_iff, MvPolynomial.coeff_monomial] at hf
      have : K.fs = f := by by_contra h; rw [if_neg h] at hf; exact hf rfl
      rw [← this, Key.fs_count] at hfi
      omega
  · have hp : poly (.sum (L.map em) : Expr D) = psum L := poly_sum_em h2
    rw [hp] at hb h0 ⊢
    have hle : ∀ m ∈ L, ∀ K, IsKey m.2 K → K.count s ≤ (psum L).degreeOf s := by
      intro m hm K hK
      rw [← Key.fs_count, MvPolynomial.degreeOf_eq_sup]
      exact Finset.le_sup (f := fun m => m s) (hL.mem_support hm hK)
    obtain ⟨f, hf, e⟩ := Finset.exists_min_image _ (fun f : Sym →₀ ℕ => f s) (MvPolynomial.support_nonempty.2 h0)
    refine ⟨f s, ?_, coeff_of_support hf, fun i hi => ?_⟩
    · have hall : ∀ a ∈ L.map em, ∃ d, minDegree (.sym s) (a : Expr D) = .ok d ∧ ((f s : ℕ) : ℤ) ≤ d := by
        intro a ha
        obtain ⟨m, hm, rfl⟩ := List.mem_map.1 ha
        obtain ⟨K, hK⟩ := hL.ks.key m hm
        have h3 := hle m hm K hK
        have h4 := e _ (hL.mem_support hm hK)
        rw [Key.fs_count] at h4
        exact ⟨_, minDegree_em s hK (by omega), by exact_mod_cast h4⟩
      obtain ⟨m, hm, K, hK, hKf⟩ := hL.of_support hf
      have hex : ∃ a ∈ L.map em, minDegree (.sym s) (a : Expr D) = .ok (f s : ℤ) := by
        refine ⟨_, List.mem_map.2 ⟨m, hm, rfl⟩, ?_⟩
        rw [← hKf, Key.fs_count]
        exact minDegree_em s hK (by have := hle m hm K hK; omega)
      clear hb
      match L, h2, hall, hex with
      | a :: L, h2, hall, hex =>
        simp only [List.map_cons] at hall hex ⊢
        simp only [minDegree, isEqual_sum_sym, Bool.false_eq_true, if_false]
        obtain ⟨d, hd, hl⟩ := hall (em a) (by simp)
        rw [hd]
        simp only [bind, Except.bind]
        refine minDegreeMin_eq (fun b hb => hall b (by simp only [List.mem_cons]; exact .inr hb)) hl ?_
        obtain ⟨b, hb, hbe⟩ := hex
        rcases List.mem_cons.1 hb with rfl | hb
        · rw [hd] at hbe; cases hbe; exact .inl rfl
        · exact .inr ⟨b, hb, hbe⟩
    · by_contra hn
      obtain ⟨g, hg, hgi⟩ := support_of_coeff hn
      have := e g hg
      omega

/-! ## Symbols -/

/-- A symbol that does not occur. -/
theorem EP.of_not_has {s : Sym} {r : Expr D} (h : EP r) (hd : has (.sym s) r = false) : (poly r).degreeOf s = 0 := by
  rcases h.cases with rfl | ⟨m, K, hm, hK, rfl⟩ | ⟨L, hL, h2, rfl⟩
  · rw [poly_zero, MvPolynomial.degreeOf_zero]
  · have : (poly (em m)).degreeOf s = K.count s := by
      rw [hK.poly, MvPolynomial.degreeOf_monomial_eq _ _ hm, Key.fs_count]
    rw [has_em s hK] at hd
    rw [this]; simpa using hd
  · rw [poly_sum_em h2]
    rw [has, isEqual_sum_sym, Bool.false_or] at hd
    have hany : ∀ l : List (Expr D), hasAny (.sym s) l = false → ∀ a ∈ l, has (.sym s) a = false := by
      intro l hl
      induction l with
      | nil => simp
      | cons b l ih =>
        simp only [hasAny, Bool.or_eq_false_iff] at hl
        intro a ha
        rcases List.mem_cons.1 ha with rfl | ha
        exacts [hl.1, ih hl.2 a ha]
    rw [← Nat.le_zero, MvPolynomial.degreeOf_le_iff]
    intro f hf
    obtain ⟨m, hm, K, hK, rfl⟩ := hL.of_support hf
    have := hany _ hd _ (List.mem_map.2 ⟨m, hm, rfl⟩)
    rw [has_em s hK] at this
    rw [Key.fs_count]; simpa using this

/-! ## Contents of integers -/

theorem integerGcd_ne {a b : ℤ} (h : a ≠ 0 ∨ b ≠ 0) : integerGcd a b ≠ 0 := by
  obtain ⟨h1, h2, _⟩ := C42_integer_gcd a b
  intro h0
  rw [h0, zero_dvd_iff] at h1 h2
  tauto

theorem abs_rat (q : ℚ) : ∃ p : ℚ, (Number.rat q : Number D).abs = .rat p ∧ (p = q ∨ p = -q) := by
  unfold Number.abs
  split
  · exact ⟨-q, rfl, .inr rfl⟩
  · exact ⟨q, rfl, .inl rfl⟩

theorem isInt_num {q : ℚ} (h : (Number.rat q : Number D).isInt = true) : q = (q.num : ℚ) := by
  simp only [Number.isInt, Number.isRational, Number.denominator, Bool.true_and, beq_iff_eq, Nat.cast_eq_one] at h
  exact (Rat.den_eq_one_iff q).1 h |>.symm

theorem numericFactor_em {m : Mono D} {K : Key} (hm : m.1 ≠ 0) (hk : IsKey m.2 K) : ∃ q : ℚ, q ≠ 0 ∧ numericFactor (em m) = .ok (.rat q) := by
  obtain ⟨q, P⟩ := m
  obtain ⟨hK, _, rfl⟩ := hk
  rcases mexpr_cases (D := D) q K.facs with ⟨h, e⟩ | ⟨f, h, hq, e⟩ | ⟨h, h2, e⟩
  · rw [em, e]; exact ⟨q, hm, rfl⟩
  · rw [em, e]
    obtain ⟨x, rfl, rfl⟩ := facs_single h
    refine ⟨1, one_ne_zero, ?_⟩
    rw [← Number.one_def]
    unfold fac
    split <;> rfl
  · rw [em, e]
    unfold rl
    split
    · rename_i hq
      match K, h with
      | x :: K, _ =>
        refine ⟨1, one_ne_zero, ?_⟩
        rw [← Number.one_def]
        simp only [Key.facs, List.map_cons, List.nil_append]
        unfold fac
        by_cases hx : x.2 = 1
        · simp only [hx, if_true]; rfl
        · simp only [hx, if_false]; rfl
    · exact ⟨q, hm, rfl⟩

theorem em_not_sum {m : Mono D} {K : Key} (hm : m.1 ≠ 0) (hk : IsKey m.2 K) : (em m).isSum = false := (EM.mono hm hk).2

theorem integerContent_of_factor {e : Expr D} (hs : e.isSum = false) {q : ℚ} (h : numericFactor e = .ok (.rat q)) :
    ∃ c : ℤ, integerContent e = .ok (.rat c) ∧ (q ≠ 0 → c ≠ 0) := by
  have h1 : integerContent e = (do let n ← numericFactor e; pure (if n.abs.isInt then n.abs else 1)) := by
    cases e <;> first | rfl | simp [Expr.isSum] at hs
  rw [h1, h]
  simp only [bind, Except.bind, pure, Except.pure]
  obtain ⟨p, hp, hpq⟩ := abs_rat (D := D) q
  rw [hp]
  split
  · rename_i hi
    have hi' := isInt_num hi
    refine ⟨p.num, by rw [← hi'], fun hq h0 => ?_⟩
    have : p = 0 := Rat.num_eq_zero.1 h0
    rcases hpq with rfl | rfl
    · exact hq this
    · exact hq (by simpa using this)
  · exact ⟨1, by rw [Number.one_def]; simp, fun _ => one_ne_zero⟩

theorem integerContentOfSum_em {L : List (Mono D)} (h : ∀ m ∈ L, m.1 ≠ 0 ∧ ∃ K, IsKey m.2 K) (acc : ℤ) :
    ∃ c : ℤ, integerContentOfSum acc (L.map em : List (Expr D)) = .ok c ∧ (acc ≠ 0 ∨ L ≠ [] → c ≠ 0) := by
  induction L generalizing acc with
  | nil => exact ⟨acc, rfl, by simp⟩
  | cons m L ih =>
    obtain ⟨hm, K, hK⟩ := h m (by simp)
    obtain ⟨q, hq, hf⟩ := numericFactor_em hm hK
    obtain ⟨c, hc, hc0⟩ := integerContent_of_factor (em_not_sum hm hK) hf
    have hn : (Number.rat (c : ℚ) : Number D).isInt = true := Number.rat_isInt c
    have hnn : (Number.rat (c : ℚ) : Number D).numerator = c := by simp [Number.numerator]
    obtain ⟨c', h1, h2⟩ := ih (fun n hn => h n (by simp [hn])) (integerGcd acc c)
    refine ⟨c', ?_, fun _ => h2 (.inl (integerGcd_ne (.inr (hc0 hq))))⟩
    simp only [List.map_cons, integerContentOfSum, hc, bind, Except.bind, hn, Bool.not_true, Bool.false_eq_true, if_false, hnn]
    exact h1

theorem integerContent_ep {e : Expr D} (h : EP e) : ∃ c : ℤ, integerContent e = .ok (.rat c) ∧ (poly e ≠ 0 → c ≠ 0) := by
  rcases h.cases with rfl | ⟨m, K, hm, hK, rfl⟩ | ⟨L, hL, h2, rfl⟩
  · obtain ⟨c, h1, _⟩ := integerContent_of_factor (e := (zero : Expr D)) rfl (q := 0) (by rw [zero_eq]; rfl)
    exact ⟨c, h1, fun h => absurd poly_zero h⟩
  · obtain ⟨q, hq, hf⟩ := numericFactor_em hm hK
    obtain ⟨c, h1, h2⟩ := integerContent_of_factor (em_not_sum hm hK) hf
    exact ⟨c, h1, fun _ => h2 hq⟩
  · obtain ⟨c, h3, h4⟩ := integerContentOfSum_em (L := L) (fun m hm => ⟨hL.ne m hm, hL.ks.key m hm⟩) 0
    refine ⟨c, ?_, fun _ => h4 (.inr (by rintro rfl; simp at h2))⟩
    simp only [integerContent, h3, bind, Except.bind, pure, Except.pure]

theorem tot_integerContent2 {u v : Expr D} (hu : EP u) (hv : EP v) (h : poly u ≠ 0 ∨ poly v ≠ 0) :
    ∃ c : ℤ, c ≠ 0 ∧ Tot cfg (fun _ => integerContent2 u v) (.int c) := by
  obtain ⟨a, h1, h2⟩ := integerContent_ep hu
  obtain ⟨b, h3, h4⟩ := integerContent_ep hv
  refine ⟨integerGcd a b, integerGcd_ne (h.imp h2 h4), ?_⟩
  unfold integerContent2
  refine tot_bind (tot_lift h1) (tot_bind (tot_lift h3) ?_)
  have hn : ∀ c : ℤ, (Number.rat (c : ℚ) : Number D).isInt = true := fun c => Number.rat_isInt c
  have hnn : ∀ c : ℤ, (Number.rat (c : ℚ) : Number D).numerator = c := fun c => by simp [Number.numerator]
  simp only [hn, hnn, Bool.not_true, Bool.or_self, Bool.false_eq_true, if_false]
  exact tot_pure _

theorem tot_computeNumerics {a b : ℚ} (h : a ≠ 0 ∨ b ≠ 0) :
    ∃ q : ℚ, q ≠ 0 ∧ Tot cfg (fun _ => computeNumerics (.rat a) (.rat b) : Eng D → M D (Expr D)) (.num (.rat q)) := by
  unfold computeNumerics
  simp only [Number.isRational, Bool.and_self, Bool.not_true, Bool.false_eq_true, if_false]
  by_cases hi : ((Number.rat a : Number D).isInt && (Number.rat b : Number D).isInt) = true
  · simp only [hi, if_true]
    refine ⟨_, ?_, tot_pure _⟩
    have : integerGcd a.num b.num ≠ 0 := integerGcd_ne (h.imp (fun h h0 => h (Rat.num_eq_zero.1 h0)) fun h h0 => h (Rat.num_eq_zero.1 h0))
    exact_mod_cast this
  · simp only [hi, if_false]
    refine ⟨1, one_ne_zero, ?_⟩
    rw [← one_eq]; exact tot_pure _

/-! ## Signs -/

theorem sign_rat_ne {q : ℚ} (h : q ≠ 0) : ∃ f : ℤ, f ≠ 0 ∧ (Number.rat q : Number D).sign = .ok f := by
  unfold Number.sign
  rw [Number.zero_def, lt_rat, lt_rat]
  rcases lt_or_gt_of_ne h with h | h
  · exact ⟨-1, by decide, by simp [h]⟩
  · exact ⟨1, by decide, by simp [h, not_lt.2 h.le]⟩

/-- The sign of the leading coefficient of the leading coefficient, and so on. -/
theorem tot_normalizationFactor (hc : cfg.Ok) (K : List Sym) : ∀ {e : Expr D}, EP e → poly e ≠ 0 → (∀ t, ((poly e).degreeOf t : ℤ) < intMax) →
    (∀ t, t ∉ K → (poly e).degreeOf t = 0) → ∃ f : ℤ, f ≠ 0 ∧ Tot cfg (fun E => normalizationFactor E (K.map .sym) e) f := by
  induction K with
  | nil =>
    intro e he h0 hb hK
    have e1 := const_of_degree fun t => hK t (by simp)
    have e2 := he.eq_num e1
    have hq : (poly e).coeff 0 ≠ 0 := by intro h; rw [h, map_zero] at e1; exact h0 e1
    obtain ⟨f, hf, hs⟩ := sign_rat_ne (D := D) hq
    refine ⟨f, hf, ?_⟩
    rw [e2]
    simp only [List.map_nil, normalizationFactor]
    exact tot_lift hs
  | cons s K ih =>
    intro e he h0 hb hK
    obtain ⟨c, c1, c2, c3⟩ := tot_lead hc s he (hb s)
    have hc0 : poly c ≠ 0 := by rw [c3]; exact lead_ne_zero h0
    have hcd : ∀ t, (poly c).degreeOf t ≤ (poly e).degreeOf t := fun t => by rw [c3]; exact upoly_coeff_degreeOf s t _ _
    simp only [List.map_cons, normalizationFactor]
    by_cases hnum : ∃ q : ℚ, c = .num (.rat q)
    · obtain ⟨q, rfl⟩ := hnum
      have hq : q ≠ 0 := by rintro rfl; rw [poly_ratE, map_zero] at hc0; exact hc0 rfl
      obtain ⟨f, hf, hs⟩ := sign_rat_ne (D := D) hq
      exact ⟨f, hf, tot_bind c1 (tot_lift hs)⟩
    · obtain ⟨f, hf, ht⟩ := ih c2 hc0 (fun t => by have := hcd t; have := hb t; omega) (by
        intro t ht
        by_cases hts : t = s
        · subst hts; rw [c3]; exact upoly_coeff_free _ _ _
        · have := hcd t
          rw [hK t (by simp [hts, ht])] at this; omega)
      refine ⟨f, hf, tot_bind c1 ?_⟩
      split
      · rename_i n
        exfalso
        match n with
        | .rat q => exact hnum ⟨q, rfl⟩
        | .dbl d => have := c2.polyE; simp [isPolyE] at this
      · exact ht

theorem tot_normalizeGcd (hc : cfg.Ok) (L : List Sym) {e : Expr D} (he : EP e) (h0 : poly e ≠ 0) (hb : ∀ t, ((poly e).degreeOf t : ℤ) < intMax)
    (hL : ∀ t, t ∉ L → (poly e).degreeOf t = 0) :
    ∃ (c : ℚ) (r : Expr D), c ≠ 0 ∧ Tot cfg (fun E => normalizeGcd E e (L.map .sym)) r ∧ EP r ∧ poly r = MvPolynomial.C c * poly e := by
  obtain ⟨f, hf, ht⟩ := tot_normalizationFactor hc L.reverse he h0 hb (fun t ht => hL t (by simpa using ht))
  obtain ⟨r, r1, r2, r3⟩ := tot_num_ep hc (cfg := cfg) (f : ℚ) he
  refine ⟨f, r, by exact_mod_cast hf, ?_, r2, r3⟩
  unfold normalizeGcd
  rw [← List.map_reverse]
  exact tot_bind ht r1

end Tsym
