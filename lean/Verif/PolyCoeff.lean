import Verif.PolyExpand
import Mathlib.Algebra.MvPolynomial.Degrees

set_option autoImplicit false
set_option linter.unusedSectionVars false
set_option linter.unusedSimpArgs false
set_option linter.unusedVariables false

/-!
# Degrees and coefficients of expanded polynomials
-/

namespace Tsym

open Expr

variable {D : Type} [Flt D] [ExactLt D] {cfg : Cfg D} {B : Expr D → Prop}

theorem isEqual_sym (s t : Sym) : isEqual (.sym s : Expr D) (.sym t) = decide (s = t) := by
  rw [Bool.eq_iff_iff, isEqual_eq _ (exact_sym s) _ (exact_sym t)]; simp

theorem isEqual_pow_sym (b e : Expr D) (t : Sym) : isEqual (.pow b e : Expr D) (.sym t) = false := by simp [isEqual]
theorem isEqual_prod_sym (l : List (Expr D)) (t : Sym) : isEqual (.prod l : Expr D) (.sym t) = false := by simp [isEqual]
theorem isEqual_sum_sym (l : List (Expr D)) (t : Sym) : isEqual (.sum l : Expr D) (.sym t) = false := by simp [isEqual]
theorem isEqual_num_sym (n : Number D) (t : Sym) : isEqual (.num n : Expr D) (.sym t) = false := by simp [isEqual]

theorem facs_single {K : Key} {f : Expr D × ℕ} (h : K.facs = [f]) : ∃ x, K = [x] ∧ f = (.sym x.1, x.2) := by
  match K, h with
  | [x], h => exact ⟨x, rfl, by simpa [Key.facs] using h.symm⟩
  | [], h => simp [Key.facs] at h
  | _ :: _ :: _, h => simp [Key.facs] at h

theorem poly_sum_em {L : List (Mono D)} (h : 2 ≤ L.length) : poly (.sum (L.map em) : Expr D) = psum L := by
  rw [← sumOf_poly]
  match L, h with
  | _ :: _ :: _, _ => rfl

/-! ## Degrees -/

theorem degree_symFac (s : Sym) {x : Sym × ℕ} (h1 : 1 ≤ x.2) (hb : x.1 = s → (x.2 : ℤ) < intMax) :
    degree (.sym s) (symFac x : Expr D) = .ok (if x.1 = s then (x.2 : ℤ) else 0) := by
  unfold symFac fac
  by_cases h : x.2 = 1
  · simp only [h, if_true, degree, isEqual_sym]
    by_cases hs : x.1 = s <;> simp [hs, pure, Except.pure]
  · simp only [h, if_false, degree, isEqual_pow_sym, Bool.false_eq_true, isEqual_sym]
    by_cases hs : x.1 = s
    · have := hb hs
      have hm : intMin ≤ (x.2 : ℤ) := by unfold intMin; omega
      simp only [hs, decide_true, if_true, degreeExp, int, numEval, pure, Except.pure, bind, Except.bind, degreePow]
      have hi : (Number.rat ((x.2 : ℤ) : ℚ) : Number D).isInt = true := by
        simp [Number.isInt, Number.isRational, Number.denominator]
      have hn : (Number.rat ((x.2 : ℤ) : ℚ) : Number D).numerator = x.2 := by simp [Number.numerator]
      rw [hi, hn, if_pos rfl]
      simp only [one_ne_zero, if_false, Int.cast_one, div_one, mul_one]
      rw [if_pos]
      refine ⟨hm, by omega, by exact_mod_cast this, ?_⟩
      have : (intMin : ℤ) < x.2 := by unfold intMin; omega
      exact_mod_cast this
    · simp only [hs, decide_false, Bool.false_eq_true, if_false, degreeExp, int, numEval, pure, Except.pure, bind, Except.bind, degreePow, if_true]

theorem degreeSum_symFacs (s : Sym) {K : Key} (hK : K.Ok) (hb : (K.count s : ℤ) < intMax) (acc : ℤ) :
    degreeSum (.sym s) acc (K.map symFac : List (Expr D)) = .ok (acc + K.count s) := by
  induction K generalizing acc with
  | nil => simp [degreeSum, Key.count]; rfl
  | cons x K ih =>
    have hc : Key.count (x :: K) s = (if x.1 = s then x.2 else 0) + Key.count K s := by simp [Key.count]
    rw [hc] at hb ⊢
    simp only [List.map_cons, degreeSum]
    rw [degree_symFac s (hK x (by simp)).2 (fun e => by rw [if_pos e] at hb; push_cast at hb; omega)]
    simp only [bind, Except.bind]
    rw [ih (fun a ha => hK a (by simp [ha])) (by push_cast at hb; split at hb <;> omega)]
    congr 1
    split <;> push_cast <;> ring

theorem degree_em (s : Sym) {m : Mono D} {K : Key} (hk : IsKey m.2 K) (hb : (K.count s : ℤ) < intMax) :
    degree (.sym s) (em m) = .ok (K.count s : ℤ) := by
  obtain ⟨q, P⟩ := m
  obtain ⟨hK, _, rfl⟩ := hk
  rcases mexpr_cases (D := D) q K.facs with ⟨h, e⟩ | ⟨f, h, hq, e⟩ | ⟨h, h2, e⟩
  · rw [em, e]
    have : K = [] := by simpa [Key.facs] using h
    subst this; simp [degree, Key.count]; rfl
  · rw [em, e]
    obtain ⟨x, rfl, rfl⟩ := facs_single h
    have hc : Key.count [x] s = if x.1 = s then x.2 else 0 := by simp [Key.count]
    rw [hc] at hb ⊢
    rw [show (fac (.sym x.1, x.2) : Expr D) = symFac x from rfl,
      degree_symFac s (hK x (by simp)).2 fun e => by rw [if_pos e] at hb; exact hb]
    push_cast; rfl
  · rw [em, e]
    simp only [degree, isEqual_prod_sym, Bool.false_eq_true, if_false]
    unfold rl
    rw [Key.facs_map]
    split
    · rw [List.nil_append, degreeSum_symFacs s hK hb, zero_add]
    · rw [List.singleton_append, degreeSum]
      simp only [degree, pure, Except.pure, bind, Except.bind]
      rw [degreeSum_symFacs s hK hb]; congr 1; ring

theorem degreeMax_eq {x : Expr D} {l : List (Expr D)} {N acc : ℤ} (h : ∀ a ∈ l, ∃ d, degree x a = .ok d ∧ d ≤ N) (h1 : acc ≤ N)
    (h2 : acc = N ∨ ∃ a ∈ l, degree x a = .ok N) : degreeMax x acc l = .ok N := by
  induction l generalizing acc with
  | nil =>
    rcases h2 with h2 | ⟨a, ha, _⟩
    · simp only [degreeMax, h2]; rfl
    · simp at ha
  | cons a l ih =>
    obtain ⟨d, hd, hl⟩ := h a (by simp)
    simp only [degreeMax, hd, bind, Except.bind]
    refine ih (fun b hb => h b (by simp [hb])) (max_le h1 hl) ?_
    rcases h2 with h2 | ⟨b, hb, h2⟩
    · left; rw [h2]; exact max_eq_left hl
    · rcases List.mem_cons.1 hb with rfl | hb
      · rw [hd] at h2; cases h2; left; exact max_eq_right h1
      · exact .inr ⟨b, hb, h2⟩

theorem EL.mem_support {L : List (Mono D)} (h : EL L) {m : Mono D} (hm : m ∈ L) {K : Key} (hk : IsKey m.2 K) :
    K.fs ∈ (psum L).support := by
  have := (h.coeff hk).1 hm
  rw [MvPolynomial.mem_support_iff, this.1]
  exact this.2

theorem EL.of_support {L : List (Mono D)} (h : EL L) {f : Sym →₀ ℕ} (hf : f ∈ (psum L).support) :
    ∃ m ∈ L, ∃ K, IsKey m.2 K ∧ K.fs = f := by
  rw [MvPolynomial.mem_support_iff] at hf
  by_contra hn
  apply hf
  have key : ∀ L' : List (Mono D), (∀ m ∈ L', m ∈ L) → (psum L').coeff f = 0 := by
    intro L' hs
    induction L' with
    | nil => simp
    | cons m L' ih =>
      obtain ⟨K, hK⟩ := h.ks.key m (hs m (by simp))
      rw [psum_cons, MvPolynomial.coeff_add, ih fun x hx => hs x (by simp [hx]), hK.poly, MvPolynomial.coeff_monomial, if_neg, add_zero]
      intro e
      exact hn ⟨m, hs m (by simp), K, hK, e⟩
  exact key L fun _ h => h

/-- The degree of an expanded polynomial. -/
theorem degree_ep (s : Sym) {r : Expr D} (h : EP r) (hb : ((poly r).degreeOf s : ℤ) < intMax) :
    degree (.sym s) r = .ok ((poly r).degreeOf s : ℤ) := by
  rcases h.cases with rfl | ⟨m, K, hm, hK, rfl⟩ | ⟨L, hL, h2, rfl⟩
  · rw [poly_zero, MvPolynomial.degreeOf_zero]; simp [zero, degree]; rfl
  · have hd : (poly (em m)).degreeOf s = K.count s := by
      rw [hK.poly, MvPolynomial.degreeOf_monomial_eq _ _ hm, Key.fs_count]
    rw [hd] at hb ⊢
    exact degree_em s hK hb
  · have hp : poly (.sum (L.map em) : Expr D) = psum L := poly_sum_em h2
    rw [hp] at hb ⊢
    have hle : ∀ m ∈ L, ∀ K, IsKey m.2 K → K.count s ≤ (psum L).degreeOf s := by
      intro m hm K hK
      rw [← Key.fs_count, MvPolynomial.degreeOf_eq_sup]
      exact Finset.le_sup (f := fun m => m s) (hL.mem_support hm hK)
    simp only [degree, isEqual_sum_sym, Bool.false_eq_true, if_false]
    refine degreeMax_eq ?_ (by unfold intMin; omega) (.inr ?_)
    · intro a ha
      obtain ⟨m, hm, rfl⟩ := List.mem_map.1 ha
      obtain ⟨K, hK⟩ := hL.ks.key m hm
      have := hle m hm K hK
      exact ⟨_, degree_em s hK (by omega), by exact_mod_cast this⟩
    · have hne : (psum L).support.Nonempty := by
        obtain ⟨m, hm⟩ := List.exists_mem_of_length_pos (l := L) (by omega)
        obtain ⟨K, hK⟩ := hL.ks.key m hm
        exact ⟨_, hL.mem_support hm hK⟩
      obtain ⟨f, hf, e⟩ := Finset.exists_mem_eq_sup _ hne fun m => m s
      rw [← MvPolynomial.degreeOf_eq_sup] at e
      obtain ⟨m, hm, K, hK, rfl⟩ := hL.of_support hf
      rw [Key.fs_count] at e
      refine ⟨_, List.mem_map.2 ⟨m, hm, rfl⟩, ?_⟩
      rw [e]
      exact degree_em s hK (by rw [← e]; exact hb)

/-! ## Coefficients -/

/-- `c` is the coefficient of the power of a symbol. -/
def Cf (s : Sym) (n : ℕ) (p c : MvPolynomial Sym ℚ) : Prop :=
  ∀ f : Sym →₀ ℕ, c.coeff f = if f s = 0 then p.coeff (f + Finsupp.single s n) else 0

theorem Cf.unique {s : Sym} {n : ℕ} {p c d : MvPolynomial Sym ℚ} (h : Cf s n p c) (h' : Cf s n p d) : c = d := by
  ext f; rw [h f, h' f]

theorem Cf.zero (s : Sym) (n : ℕ) : Cf s n 0 0 := fun f => by simp

theorem Cf.add {s : Sym} {n : ℕ} {p c q d : MvPolynomial Sym ℚ} (h : Cf s n p c) (h' : Cf s n q d) : Cf s n (p + q) (c + d) := by
  intro f
  rw [MvPolynomial.coeff_add, h f, h' f]
  split
  · rw [MvPolynomial.coeff_add]
  · rw [add_zero]

/-- The coefficient of a monomial. -/
theorem Cf.monomial {s : Sym} {n : ℕ} {g : Sym →₀ ℕ} (q : ℚ) (h : g s = n) :
    Cf s n (MvPolynomial.monomial g q) (MvPolynomial.monomial (g - Finsupp.single s n) q) := by
  intro f
  rw [MvPolynomial.coeff_monomial, MvPolynomial.coeff_monomial]
  by_cases hf : f s = 0
  · rw [if_pos hf]
    have : g - Finsupp.single s n = f ↔ g = f + Finsupp.single s n := by
      constructor
      · rintro rfl
        ext t
        by_cases ht : s = t
        · subst ht; simp [h]
        · simp [Finsupp.single_apply, ht]
      · rintro rfl; simp
    simp only [this]
  · rw [if_neg hf, if_neg]
    rintro rfl
    apply hf; simp [h]

theorem Cf.none {s : Sym} {n : ℕ} {g : Sym →₀ ℕ} (q : ℚ) (h : g s ≠ n) : Cf s n (MvPolynomial.monomial g q) 0 := by
  intro f
  rw [MvPolynomial.coeff_monomial, MvPolynomial.coeff_zero]
  by_cases hf : f s = 0
  · rw [if_pos hf, if_neg]
    rintro rfl
    apply h; simp [hf]
  · rw [if_neg hf]

/-- A power of a symbol. -/
def symPow (s : Sym) (n : ℕ) : Expr D := if n = 0 then one else symFac (s, n)

theorem tot_powSym (s : Sym) (n : ℕ) : Tot cfg (fun E => powCreate E (.sym s) (.int n)) (symPow s n) := by
  unfold symPow
  match n with
  | 0 =>
    simp only [if_true]
    have : (int ((0 : ℕ) : ℤ) : Expr D).isZero = true := by rw [isZero_int]; simp
    have h' : (int ((0 : ℕ) : ℤ) : Expr D).isUndefined = false := rfl
    simp only [powCreate, this, h', Expr.isUndefined, Bool.or_self, Bool.false_eq_true, if_false, Bool.true_or, if_true]
    exact tot_pure _
  | 1 =>
    have h1 : (int ((1 : ℕ) : ℤ) : Expr D).isZero = false := by rw [isZero_int]; simp
    have h2 : (int ((1 : ℕ) : ℤ) : Expr D).isOne = true := by rw [isOne_int]; simp
    have h3 : (int ((1 : ℕ) : ℤ) : Expr D).isUndefined = false := rfl
    have h4 : (Expr.sym s : Expr D).isOne = false := rfl
    have h5 : (Expr.sym s : Expr D).isZero = false := rfl
    have h6 : (Expr.sym s : Expr D).isUndefined = false := rfl
    simp only [powCreate, h1, h2, h3, h4, h5, h6, Bool.or_self, Bool.false_eq_true, if_false, if_true, one_ne_zero, symFac, fac]
    exact tot_pure _
  | k + 2 =>
    rw [if_neg (by omega)]
    exact tot_powCreate (pbase_sym s) (by omega)

theorem removeFirst_some {p : Expr D} {l m : List (Expr D)} (h : removeFirst p l = some m) :
    ∃ a, isEqual a p = true ∧ l.Perm (a :: m) := by
  induction l generalizing m with
  | nil => simp [removeFirst] at h
  | cons a l ih =>
    simp only [removeFirst] at h
    split at h
    · rename_i he
      cases h
      exact ⟨a, he, List.Perm.refl _⟩
    · cases hr : removeFirst p l with
      | none => rw [hr] at h; simp at h
      | some m' =>
        rw [hr] at h
        simp only [Option.map_some, Option.some.injEq] at h
        subst h
        obtain ⟨b, hb, hp⟩ := ih hr
        exact ⟨b, hb, (hp.cons a).trans (List.Perm.swap _ _ _)⟩

theorem removeFirst_none {p : Expr D} {l : List (Expr D)} (h : removeFirst p l = none) : ∀ a ∈ l, isEqual a p = false := by
  induction l with
  | nil => simp
  | cons a l ih =>
    simp only [removeFirst] at h
    split at h
    · cases h
    · rename_i he
      intro b hb
      rcases List.mem_cons.1 hb with rfl | hb
      · simpa using he
      · exact ih (by simpa using h) b hb

theorem has_symFac (s : Sym) (x : Sym × ℕ) : has (.sym s) (symFac x : Expr D) = decide (x.1 = s) := by
  unfold symFac fac
  split
  · simp [has, isEqual_sym]
  · simp [has, isEqual_sym, isEqual_pow_sym, int, isEqual_num_sym]

theorem hasAny_symFacs (s : Sym) {K : Key} (hK : K.Ok) : hasAny (.sym s) (K.map symFac : List (Expr D)) = decide (K.count s ≠ 0) := by
  induction K with
  | nil => simp [hasAny, Key.count]
  | cons x K ih =>
    have hc : Key.count (x :: K) s = (if x.1 = s then x.2 else 0) + Key.count K s := by simp [Key.count]
    simp only [List.map_cons, hasAny, has_symFac, ih fun a ha => hK a (by simp [ha]), hc]
    have := (hK x (by simp)).2
    by_cases h : x.1 = s
    · simp [h]; omega
    · simp [h]

theorem hasAny_rl (s : Sym) (q : ℚ) {K : Key} (hK : K.Ok) :
    hasAny (.sym s) (rl q (K.facs : List (Expr D × ℕ))) = decide (K.count s ≠ 0) := by
  unfold rl
  rw [Key.facs_map]
  split
  · rw [List.nil_append, hasAny_symFacs s hK]
  · rw [List.singleton_append, hasAny, hasAny_symFacs s hK]
    simp [has, isEqual_num_sym]

theorem EM.symFac {x : Sym × ℕ} (hx : x.1.id.Ok ∧ 1 ≤ x.2) : EM (symFac x : Expr D) := by
  have : (Tsym.symFac x : Expr D) = em (1, Key.facs [x]) := by
    simp [em, mexpr, rl_one, Key.facs, prodOf, Tsym.symFac]
  rw [this]
  refine EM.mono (K := [x]) one_ne_zero ⟨by simpa [Key.Ok] using hx, by simp [Key.Sorted], rfl⟩

theorem EM.num (q : ℚ) : EM (.num (.rat q) : Expr D) := ⟨EP.num q, rfl⟩

theorem em_rl (q : ℚ) {K : Key} (hK : K.Ok) : ∀ e ∈ rl q (K.facs : List (Expr D × ℕ)), EM e := by
  intro e he
  unfold rl at he
  rw [Key.facs_map] at he
  rcases List.mem_append.1 he with he | he
  · split at he
    · simp at he
    · rw [List.mem_singleton.1 he]; exact EM.num q
  · obtain ⟨x, hx, rfl⟩ := List.mem_map.1 he
    exact EM.symFac (hK x hx)

theorem mem_rl_symFac {q : ℚ} {K : Key} (hK : K.Ok) {x : Sym × ℕ} (hx : 1 ≤ x.2) :
    (symFac x : Expr D) ∈ rl q (K.facs : List (Expr D × ℕ)) ↔ x ∈ K := by
  unfold rl
  rw [Key.facs_map, List.mem_append]
  constructor
  · rintro (h | h)
    · split at h
      · simp at h
      · rw [List.mem_singleton] at h
        exfalso
        have : (symFac x : Expr D).isNumeric = true := by rw [h]; rfl
        have h' := PFac.isNumeric (cfg := Cfg.std 0) (f := (Expr.sym x.1, x.2)) (D := D) ⟨pbase_sym _, hx⟩
        unfold symFac at this
        rw [h'] at this; cases this
    · obtain ⟨y, hy, e⟩ := List.mem_map.1 h
      rw [← symFac_inj (hK y hy).2 hx e]; exact hy
  · exact fun h => .inr (List.mem_map_of_mem h)

theorem poly_symFac (x : Sym × ℕ) (hx : 1 ≤ x.2) : poly (symFac x : Expr D) = MvPolynomial.monomial (Finsupp.single x.1 x.2) 1 := by
  have := PFac.poly (cfg := Cfg.std 0) (f := (Expr.sym x.1, x.2)) (D := D) ⟨pbase_sym _, hx⟩
  unfold symFac
  rw [this]; simp only [poly]
  rw [MvPolynomial.X_pow_eq_monomial]

/-- The coefficient of a monomial. -/
theorem tot_coeff_em (hc : cfg.Ok) (s : Sym) (n : ℕ) {m : Mono D} {K : Key} (hm : m.1 ≠ 0) (hk : IsKey m.2 K) :
    ∃ c, Tot cfg (fun E => coeff E (.sym s) n (em m)) c ∧ EM c ∧ Cf s n (poly (em m)) (poly c) := by
  have hpm := hk.poly
  have hme := EM.mono hm hk
  obtain ⟨q, P⟩ := m
  simp only at hm hpm
  have hk' := hk
  obtain ⟨hK, sK, rfl⟩ := hk'
  have h0 : (K.count s = 0 ∧ n = 0) → Cf s n (poly (em (q, K.facs) : Expr D)) (poly (em (q, K.facs) : Expr D)) := by
    rintro ⟨h, rfl⟩
    rw [hpm]
    have := Cf.monomial (s := s) (n := 0) (g := K.fs) q (by rw [Key.fs_count, h])
    simpa using this
  have h1 : K.count s ≠ n → Cf s n (poly (em (q, K.facs) : Expr D)) (poly (zero : Expr D)) := by
    intro h
    rw [hpm, poly_zero]
    exact Cf.none q (by rw [Key.fs_count]; exact h)
  rcases mexpr_cases (D := D) q K.facs with ⟨h, e⟩ | ⟨f, h, hq, e⟩ | ⟨h, h2, e⟩
  · have hK0 : K = [] := by simpa [Key.facs] using h
    have hcnt : K.count s = 0 := by rw [hK0]; rfl
    by_cases hn : n = 0
    · refine ⟨_, ?_, hme, h0 ⟨hcnt, hn⟩⟩
      rw [em, e]
      simp only [coeff, isEqual_num_sym, has, hn, Bool.false_eq_true, if_false, Bool.not_false, Nat.cast_zero, beq_self_eq_true,
        Bool.and_self, if_true]
      exact tot_pure _
    · refine ⟨zero, ?_, EM.zero, h1 (by omega)⟩
      rw [em, e]
      have : (((n : ℤ) == 0)) = false := by simp [hn]
      simp only [coeff, isEqual_num_sym, has, this, Bool.false_eq_true, if_false, Bool.and_false]
      exact tot_pure _
  · obtain ⟨x, rfl, hf⟩ := facs_single h
    have hx := hK x (by simp)
    have hcnt : Key.count [x] s = if x.1 = s then x.2 else 0 := by simp [Key.count]
    have hone : Key.count [x] s = n → x.1 = s → Cf s n (poly (em (q, Key.facs [x]) : Expr D)) (poly (one : Expr D)) := by
      intro h3 h4
      rw [hpm, poly_one]
      have := Cf.monomial (s := s) (n := n) (g := Key.fs [x]) q (by rw [Key.fs_count, h3])
      have he : Key.fs [x] - Finsupp.single s n = 0 := by
        rw [hcnt, if_pos h4] at h3
        ext t; simp [Key.fs, h3, h4]
      rw [he, hq] at this
      rw [hq]
      exact this
    have e1 : em (q, Key.facs [x]) = (fac f : Expr D) := e
    rw [hf] at e1
    by_cases h1' : x.2 = 1
    · have e2 : em (q, Key.facs [x]) = (.sym x.1 : Expr D) := by rw [e1]; simp [fac, h1']
      by_cases hs : x.1 = s
      · by_cases hn : n = 1
        · refine ⟨one, ?_, by rw [one_eq]; exact EM.num 1, hone (by rw [hcnt, if_pos hs, h1', hn]) hs⟩
          rw [e2]
          simp only [coeff, isEqual_sym, hs, decide_true, if_true, hn, Nat.cast_one]
          exact tot_pure _
        · refine ⟨zero, ?_, EM.zero, h1 (by rw [hcnt, if_pos hs, h1']; omega)⟩
          rw [e2]
          have : ((n : ℤ) = 1) = False := by simp [hn]
          simp only [coeff, isEqual_sym, hs, decide_true, if_true, this, if_false]
          exact tot_pure _
      · by_cases hn : n = 0
        · refine ⟨_, ?_, hme, h0 ⟨by rw [hcnt, if_neg hs], hn⟩⟩
          rw [e2]
          simp only [coeff, isEqual_sym, has, hs, hn, decide_false, Bool.false_eq_true, if_false, Bool.not_false, Nat.cast_zero,
            beq_self_eq_true, Bool.and_self, if_true]
          exact tot_pure _
        · refine ⟨zero, ?_, EM.zero, h1 (by rw [hcnt, if_neg hs]; omega)⟩
          rw [e2]
          have : (((n : ℤ) == 0)) = false := by simp [hn]
          simp only [coeff, isEqual_sym, has, hs, this, decide_false, Bool.false_eq_true, if_false, Bool.and_false]
          exact tot_pure _
    · have e2 : em (q, Key.facs [x]) = (.pow (.sym x.1) (.int x.2) : Expr D) := by rw [e1]; simp [fac, h1']
      have e3 : em (q, Key.facs [x]) = (symFac x : Expr D) := e1
      have hpe : isEqual (em (q, Key.facs [x]) : Expr D) (symPow s n) = true ↔ (x.1 = s ∧ x.2 = n) := by
        unfold symPow
        by_cases hn : n = 0
        · rw [if_pos hn, e2, one_eq]
          simp [isEqual]; omega
        · rw [if_neg hn, e3, isEqual_eq _ (exact_symFac hx.2) _ (exact_symFac (by simp only; omega))]
          constructor
          · intro h
            have := symFac_inj hx.2 (by simp only; omega) h
            rw [this]; exact ⟨rfl, rfl⟩
          · rintro ⟨a, b⟩
            rw [← a, ← b]
      by_cases hp : x.1 = s ∧ x.2 = n
      · refine ⟨one, ?_, by rw [one_eq]; exact EM.num 1, hone (by rw [hcnt, if_pos hp.1, hp.2]) hp.1⟩
        have hpe := hpe.2 hp
        rw [e2] at hpe ⊢
        simp only [coeff, isEqual_pow_sym, Bool.false_eq_true, if_false]
        refine tot_bind (tot_silent (tot_pow (tot_powSym s n))) ?_
        simp only [hpe, if_true]; exact tot_pure _
      · have hpe' : isEqual (em (q, Key.facs [x]) : Expr D) (symPow s n) = false := by
          rw [← Bool.not_eq_true, hpe]; exact hp
        by_cases hs : x.1 = s
        · refine ⟨zero, ?_, EM.zero, h1 (by rw [hcnt, if_pos hs]; exact fun h => hp ⟨hs, h⟩)⟩
          rw [e2] at hpe' ⊢
          simp only [coeff, isEqual_pow_sym, Bool.false_eq_true, if_false]
          refine tot_bind (tot_silent (tot_pow (tot_powSym s n))) ?_
          rw [hs] at hpe'
          simp only [hpe', Bool.false_eq_true, if_false, isEqual_sym, hs, decide_true, Bool.not_true]
          exact tot_pure _
        · by_cases hn : n = 0
          · refine ⟨_, ?_, hme, h0 ⟨by rw [hcnt, if_neg hs], hn⟩⟩
            rw [e2] at hpe' ⊢
            simp only [coeff, isEqual_pow_sym, Bool.false_eq_true, if_false]
            refine tot_bind (tot_silent (tot_pow (tot_powSym s n))) ?_
            simp only [hpe', Bool.false_eq_true, if_false, isEqual_sym, hs, decide_false, Bool.not_false, if_true, hn, Nat.cast_zero]
            exact tot_pure _
          · refine ⟨zero, ?_, EM.zero, h1 (by rw [hcnt, if_neg hs]; omega)⟩
            rw [e2] at hpe' ⊢
            simp only [coeff, isEqual_pow_sym, Bool.false_eq_true, if_false]
            refine tot_bind (tot_silent (tot_pow (tot_powSym s n))) ?_
            have : ((n : ℤ) = 0) = False := by simp [hn]
            simp only [hpe', Bool.false_eq_true, if_false, isEqual_sym, hs, decide_false, Bool.not_false, if_true, this]
            exact tot_pure _
  · have e' : (em (q, K.facs) : Expr D) = .prod (rl q K.facs) := e
    by_cases hb : (!has (.sym s) (em (q, K.facs) : Expr D) && (n : ℤ) == 0) = true
    · refine ⟨_, ?_, hme, h0 ?_⟩
      · rw [e'] at hb ⊢
        simp only [coeff, isEqual_prod_sym, hb, Bool.false_eq_true, if_false, if_true]
        exact tot_pure _
      · rw [e'] at hb
        simpa [has, isEqual_prod_sym, hasAny_rl s q hK] using hb
    · have hn0 : n = 0 → K.count s ≠ 0 := by
        rw [e'] at hb
        simp only [has, isEqual_prod_sym, hasAny_rl s q hK] at hb
        intro h h'
        apply hb; simp [h, h']
      have hb' : (!has (.sym s) (em (q, K.facs) : Expr D) && (n : ℤ) == 0) = false := by simpa using hb
      have hT : Tot cfg (fun E => M.silent (E.powCreate (.sym s) (.int n))) (symPow s n : Expr D) :=
        tot_silent (tot_pow (tot_powSym s n))
      have hmem : ∀ a ∈ rl q (K.facs : List (Expr D × ℕ)), isEqual a (symPow s n) = true → 1 ≤ n ∧ a = symFac (s, n) ∧ K.count s = n := by
        intro a ha he
        by_cases hn : n = 0
        · exfalso
          unfold symPow at he
          rw [if_pos hn, one_eq] at he
          unfold rl at ha
          rw [Key.facs_map] at ha
          rcases List.mem_append.1 ha with ha | ha
          · split at ha
            · simp at ha
            · rename_i hq
              rw [List.mem_singleton.1 ha, isEqual_eq _ (exact_ratE _) _ (exact_ratE _)] at he
              simp only [Expr.num.injEq, Number.rat.injEq] at he
              exact hq he
          · obtain ⟨y, hy, rfl⟩ := List.mem_map.1 ha
            rw [isEqual_eq _ (exact_symFac (hK y hy).2) _ (exact_ratE _)] at he
            exact PFac.ne_num (cfg := Cfg.std 0) (f := (Expr.sym y.1, y.2)) ⟨pbase_sym _, (hK y hy).2⟩ _ he
        · unfold symPow at he
          rw [if_neg hn, isEqual_eq _ ?_ _ (exact_symFac (by simp only; omega))] at he
          · refine ⟨by omega, he, ?_⟩
            rw [he] at ha
            have := (mem_rl_symFac (D := D) hK (x := (s, n)) (by simp only; omega)).1 ha
            exact ((sK.count hK _).1 this).1
          · exact isPolyE_exact _ (em_rl q hK a ha).1.polyE
      cases hr : removeFirst (symPow s n : Expr D) (rl q K.facs) with
      | none =>
        refine ⟨zero, ?_, EM.zero, h1 ?_⟩
        · rw [e'] at hb' ⊢
          simp only [coeff, isEqual_prod_sym, hb', Bool.false_eq_true, if_false]
          refine tot_bind hT ?_
          simp only [hr]; exact tot_pure _
        · intro hcn
          by_cases hn : n = 0
          · exact hn0 hn (by omega)
          · have : (s, n) ∈ K := (sK.count hK (s, n)).2 ⟨hcn, hn⟩
            have h3 := removeFirst_none hr _ ((mem_rl_symFac (D := D) (q := q) hK (x := (s, n)) (by simp only; omega)).2 this)
            unfold symPow at h3
            rw [if_neg hn, isEqual_refl (exact_symFac (by simp only; omega))] at h3
            cases h3
      | some l =>
        obtain ⟨a, ha, hperm⟩ := removeFirst_some hr
        obtain ⟨hn, rfl, hcn⟩ := hmem a (hperm.mem_iff.2 (by simp)) ha
        have hl : l ≠ [] := by
          rintro rfl
          have := hperm.length_eq
          simp at this; omega
        obtain ⟨c, hTc, hEc, hPc⟩ := tot_prod_em hc hl fun x hx => em_rl q hK x (hperm.mem_iff.2 (by simp [hx]))
        refine ⟨c, ?_, hEc, ?_⟩
        · rw [e'] at hb' ⊢
          simp only [coeff, isEqual_prod_sym, hb', Bool.false_eq_true, if_false]
          refine tot_bind hT ?_
          simp only [hr]; exact tot_prod hTc
        · have h3 : poly (em (q, K.facs) : Expr D) = poly (symFac (s, n) : Expr D) * poly c := by
            rw [hPc, e', poly, polyProd_eq, (hperm.map poly).prod_eq, List.map_cons, List.prod_cons]
          rw [hpm, poly_symFac _ (by simpa using hn)] at h3
          simp only at h3
          have h4 : MvPolynomial.monomial K.fs q = MvPolynomial.monomial (Finsupp.single s n) 1 *
              MvPolynomial.monomial (K.fs - Finsupp.single s n) q := by
            rw [MvPolynomial.monomial_mul, one_mul]
            congr 1
            rw [add_tsub_cancel_of_le]
            rw [Finsupp.single_le_iff, Key.fs_count, hcn]
          have h5 : poly c = MvPolynomial.monomial (K.fs - Finsupp.single s n) q := by
            refine mul_left_cancel₀ (a := (MvPolynomial.monomial (Finsupp.single s n) (1 : ℚ))) ?_ (h3.symm.trans h4)
            rw [Ne, MvPolynomial.monomial_eq_zero]; exact one_ne_zero
          rw [h5, hpm]
          exact Cf.monomial q (by rw [Key.fs_count, hcn])

/-- The coefficients of an expanded polynomial. -/
theorem tot_coeff_ep (hc : cfg.Ok) (s : Sym) (n : ℕ) {r : Expr D} (h : EP r) :
    ∃ c, Tot cfg (fun E => coeff E (.sym s) n r) c ∧ EP c ∧ Cf s n (poly r) (poly c) := by
  rcases h.cases with rfl | ⟨m, K, hm, hK, rfl⟩ | ⟨L, hL, h2, rfl⟩
  · refine ⟨zero, ?_, EP.zero, by rw [poly_zero]; exact Cf.zero s n⟩
    simp only [zero, coeff, isEqual_num_sym, Bool.false_eq_true, if_false, has, Bool.not_false, Bool.true_and]
    split <;> exact tot_pure _
  · obtain ⟨c, h1, h2, h3⟩ := tot_coeff_em hc s n hm hK
    exact ⟨c, h1, h2.1, h3⟩
  · have hp : poly (.sum (L.map em) : Expr D) = psum L := poly_sum_em h2
    by_cases hb : (!has (.sym s) (.sum (L.map em) : Expr D) && (n : ℤ) == 0) = true
    · refine ⟨.sum (L.map em), ?_, h, ?_⟩
      · simp only [coeff, isEqual_sum_sym, hb, Bool.false_eq_true, if_false, if_true]
        exact tot_pure _
      · obtain ⟨h3, h4⟩ : has (.sym s) (.sum (L.map em) : Expr D) = false ∧ n = 0 := by simpa using hb
        subst h4
        rw [hp]
        have key : ∀ L' : List (Mono D), (∀ m ∈ L', m ∈ L) → Cf s 0 (psum L') (psum L') := by
          intro L' hs
          induction L' with
          | nil => exact Cf.zero s 0
          | cons m L' ih =>
            obtain ⟨K, hK⟩ := hL.ks.key m (hs m (by simp))
            rw [psum_cons]
            refine Cf.add ?_ (ih fun x hx => hs x (by simp [hx]))
            have h5 : has (.sym s) (em m : Expr D) = false := by
              simp only [has, isEqual_sum_sym, Bool.false_or] at h3
              have : ∀ l : List (Expr D), hasAny (.sym s) l = false → ∀ a ∈ l, has (.sym s) a = false := by
                intro l hl
                induction l with
                | nil => simp
                | cons b l ih =>
                  simp only [hasAny, Bool.or_eq_false_iff] at hl
                  intro a ha
                  rcases List.mem_cons.1 ha with rfl | ha
                  exacts [hl.1, ih hl.2 a ha]
              exact this _ h3 _ (List.mem_map_of_mem (hs m (by simp)))
            have h6 : K.count s = 0 := by
              obtain ⟨q, P⟩ := m
              obtain ⟨hK1, _, rfl⟩ := hK
              rw [em] at h5
              rcases mexpr_cases (D := D) q K.facs with ⟨h, e⟩ | ⟨f, h, hq, e⟩ | ⟨h, h2, e⟩
              · have : K = [] := by simpa [Key.facs] using h
                rw [this]; rfl
              · rw [e] at h5
                obtain ⟨x, rfl, hf⟩ := facs_single h
                have := has_symFac (D := D) s x
                unfold symFac at this
                rw [hf, this] at h5
                have : x.1 ≠ s := by simpa using h5
                simp [Key.count, this]
              · rw [e] at h5
                simpa [has, isEqual_prod_sym, hasAny_rl s q hK1] using h5
            have := Cf.monomial (s := s) (n := 0) (g := K.fs) m.1 (by rw [Key.fs_count, h6])
            rw [hK.poly]
            simpa using this
        exact key L fun _ h => h
    · have hb' : (!has (.sym s) (.sum (L.map em) : Expr D) && (n : ℤ) == 0) = false := by simpa using hb
      have key : ∀ (L' : List (Mono D)), (∀ m ∈ L', m ∈ L) → ∀ (acc : Expr D) (p : MvPolynomial Sym ℚ), EP acc → Cf s n p (poly acc) →
          ∃ c, Tot cfg (fun E => M.foldL (fun acc a => do
            let c ← E.coeff (.sym s) n a
            E.sumCreate [acc, c]) acc (L'.map em)) c ∧ EP c ∧ Cf s n (p + psum L') (poly c) := by
        intro L' hs
        induction L' with
        | nil =>
          intro acc p ha hp
          exact ⟨acc, by simp only [List.map_nil, M.foldL]; exact tot_pure _, ha, by simpa using hp⟩
        | cons m L' ih =>
          intro acc p ha hp
          have hmL := hs m (by simp)
          obtain ⟨K, hK⟩ := hL.ks.key m hmL
          obtain ⟨c, h1, h2, h3⟩ := tot_coeff_em hc s n (hL.ne m hmL) hK
          obtain ⟨d, h4, h5, h6⟩ := tot_sum_ep hc (es := [acc, c]) (by simp) (by simpa using ⟨ha, h2.1⟩)
          obtain ⟨r, h7, h8, h9⟩ := ih (fun x hx => hs x (by simp [hx])) d (p + poly (em m)) h5 (by
            rw [h6]; simpa using hp.add h3)
          refine ⟨r, ?_, h8, by rw [psum_cons, ← add_assoc]; exact h9⟩
          simp only [List.map_cons, M.foldL]
          exact tot_bind (tot_bind (tot_coeff h1) (tot_sum h4)) h7
      obtain ⟨c, h1, h2, h3⟩ := key L (fun _ h => h) zero 0 EP.zero (by rw [poly_zero]; exact Cf.zero s n)
      refine ⟨c, ?_, h2, by rw [hp]; simpa using h3⟩
      simp only [coeff, isEqual_sum_sym, hb', Bool.false_eq_true, if_false]
      exact h1

end Tsym
