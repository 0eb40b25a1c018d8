import Verif.PowNum

set_option autoImplicit false
set_option linter.unusedSectionVars false
set_option linter.unusedSimpArgs false
set_option linter.unusedVariables false

/-!
# Helper lemmas: powers of polynomials with natural exponents
-/

namespace Tsym

open Expr

variable {D : Type} [Flt D] [ExactLt D] {cfg : Cfg D}

/-- The numeric factor of a number or a product is raised to powers exactly. -/
def CoefOk (max : ℤ) : Expr D → Prop
  | .num (.rat q) => q ≠ 0 → NumOk max q
  | .prod (.num (.rat q) :: _) => q ≠ 0 → NumOk max q
  | _ => True

theorem coefOk_small {max : ℤ} (h : max < 324) (e : Expr D) : CoefOk max e := by
  unfold CoefOk
  split
  · exact fun _ => .inl h
  · exact fun _ => .inl h
  · trivial

theorem tot_prod_nil (hc : cfg.Ok) : Tot cfg (fun E => prodCreate E []) (one : Expr D) := by
  obtain ⟨R, hR, t1, _⟩ := tot_prodCreate (cfg := cfg) hc (Ms := []) (by simp) (by simp)
  have : R = [] := by
    match R, hR with
    | [], _ => rfl
    | f :: R, hR =>
      obtain ⟨g, hg, _⟩ := hR.sub f (by simp)
      simp at hg
  subst this
  have := t1 (by rintro ⟨h, _⟩; simp at h)
  simpa [mexpr, rl_one, prodOf] using this

theorem tot_simplPow_base {b : Expr D} (hb : PBase cfg b) (k : ℕ) :
    Tot cfg (fun E => simplPow E b (int k)) (b, int k) := by
  obtain ⟨v, hv⟩ := hb.neg
  unfold simplPow
  refine tot_bind (tot_noComplex_int hv k) ?_
  simp only [Bool.false_eq_true, if_false]
  rcases hb.shape with ⟨s, rfl⟩ | ⟨l, rfl⟩
  · exact tot_pure _
  · exact tot_pure _

theorem tot_prod_int (hc : cfg.Ok) (j k : ℕ) : Tot cfg (fun E => prodCreate E [int j, int k]) (int (j * k : ℕ)) := by
  obtain ⟨x, hx, hx2, hx3⟩ := tot_prod_em (cfg := cfg) hc (A := [(int j : Expr D), int k]) (by simp) (by
    intro e he
    simp only [List.mem_cons, List.not_mem_nil, or_false] at he
    rcases he with rfl | rfl
    · exact EM.num _
    · exact EM.num _)
  have : x = int (j * k : ℕ) := by
    refine EP.unique hx2.1 (EP.num _) ?_
    rw [hx3]
    simp [int, poly_ratE]
  rwa [this] at hx

/-- Powers of a factor. -/
theorem tot_pow_fac (hc : cfg.Ok) {f : Expr D × ℕ} (hf : PFac cfg f) {k : ℕ} (hk : 2 ≤ k) :
    Tot cfg (fun E => powCreate E (fac f) (int k)) (fac (f.1, f.2 * k)) := by
  obtain ⟨b, j⟩ := f
  by_cases hj : j = 1
  · subst hj
    have : fac (b, 1) = b := by simp [fac]
    rw [this]
    simpa using tot_powCreate hf.base hk
  · have hj1 : 1 ≤ j := hf.one_le
    have hfe : (fac (b, j) : Expr D) = .pow b (int j) := by simp [fac, hj]
    have hfe2 : (fac (b, j * k) : Expr D) = .pow b (int (j * k : ℕ)) := by
      have : ¬ j * k = 1 := by nlinarith
      simp only [fac, this, if_false]
    simp only
    rw [hfe, hfe2]
    have e1 : (int k : Expr D).isUndefined = false := rfl
    have e2 : (int k : Expr D).isZero = false := by rw [isZero_int]; simp; omega
    have e3 : (int k : Expr D).isOne = false := by rw [isOne_int]; simp; omega
    have e4 : (int (j * k : ℕ) : Expr D).isZero = false := by
      rw [isZero_int]; simp; omega
    have e5 : (int (j * k : ℕ) : Expr D).isOne = false := by
      rw [isOne_int]
      have : ¬ j * k = 1 := by nlinarith
      simp only [decide_eq_false_iff_not]
      exact_mod_cast this
    have i1 : ∀ n : ℕ, isInteger (int n : Expr D) = .ok true := by
      intro n
      simp [isInteger, int, numEval, bind, Except.bind, pure, Except.pure, Number.isInt, Number.isRational, Number.denominator]
    have u : (Expr.pow b (int j) : Expr D).isUndefined = false := rfl
    have o : (Expr.pow b (int j) : Expr D).isOne = false := rfl
    have z : (Expr.pow b (int j) : Expr D).isZero = false := rfl
    simp only [powCreate, u, o, z, e1, e2, e3, Bool.or_self, Bool.false_eq_true, if_false, powCreateNonTrivial]
    refine tot_bind (a := (b, int (j * k : ℕ))) (tot_simplPow ?_) ?_
    · unfold simplPow
      have hn : Tot cfg (fun E => isNeg E (.pow b (int j) : Expr D)) false := by simp only [isNeg]; exact tot_pure _
      refine tot_bind (tot_noComplex_int hn k) ?_
      simp only [Bool.false_eq_true, if_false]
      unfold simplifyPowerBase
      refine tot_bind (a := some b) ?_ ?_
      · unfold newPowerBase doContractExpFirst
        refine tot_bind (a := true) (tot_bind (tot_lift (i1 j)) ?_) ?_
        · simp only [if_true]
          refine tot_bind (tot_lift (i1 k)) ?_
          simp only [if_true]
          exact tot_pure _
        · simp only [if_true]
          exact tot_pure _
      · refine tot_bind (tot_prod (tot_prod_int hc j k)) ?_
        simp only [e4, Bool.false_eq_true, if_false]
        exact tot_simplPow (tot_simplPow_base hf.base _)
    · have : b.isOne = false := by
        have h : PFac cfg (b, 1) := ⟨hf.base, le_refl 1⟩
        simpa [fac] using h.isOne
      simp only [e5, this, Bool.false_eq_true, if_false]
      exact tot_pure _

theorem Pol.fac {f : Expr D × ℕ} (hf : PFac cfg f) (hb : XB cfg f.1) : Pol cfg (Tsym.fac f) := by
  have := Pol.of_mexpr (cfg := cfg) (q := 1) (P := [f]) one_ne_zero (fun g hg => by rw [List.mem_singleton.1 hg]; exact hf)
    (fun g hg => by rw [List.mem_singleton.1 hg]; exact hb) (by rintro ⟨h, _⟩; exact h rfl)
  simpa [mexpr, rl_one, prodOf] using this

theorem poly_fac {f : Expr D × ℕ} (hf : PFac cfg f) : poly (fac f) = poly f.1 ^ f.2 := by
  have := mexpr_poly (cfg := cfg) (q := 1) (P := [f]) (fun g hg => by rw [List.mem_singleton.1 hg]; exact hf)
  simpa [mexpr, rl_one, prodOf, pv] using this

/-- Powers of polynomials. -/
theorem tot_pow_pol (hc : cfg.Ok) {e : Expr D} (he : Pol cfg e) {k : ℕ} (hk : 8 * (k : ℤ) < Number.unsignedMax)
    (hco : CoefOk cfg.maxPrime e) :
    ∃ r, Tot cfg (fun E => powCreate E e (int k)) r ∧ Pol cfg r ∧ poly r = poly e ^ k := by
  have hnum : ∀ q : ℚ, (q ≠ 0 → NumOk cfg.maxPrime q) →
      ∃ r, Tot cfg (fun E => powCreate E (num (.rat q)) (int k)) r ∧ Pol cfg r ∧ poly r = poly (num (.rat q) : Expr D) ^ k := by
    intro q hq
    refine ⟨_, tot_powNum hc (n := (k : ℤ)) (.inr (by omega)) (by simpa using hk) hq, Pol.rat _, ?_⟩
    simp [poly_ratE]
  have hu := he.isUndefined
  have eu : (int k : Expr D).isUndefined = false := rfl
  by_cases hk0 : k = 0
  · subst hk0
    refine ⟨one, ?_, by rw [one_eq]; exact Pol.rat 1, by rw [one_eq, poly_ratE]; simp⟩
    have : (int ((0 : ℕ) : ℤ) : Expr D).isZero = true := by rw [isZero_int]; simp
    simp only [powCreate, hu, eu, this, Bool.or_self, Bool.false_eq_true, if_false, Bool.true_or, if_true]
    exact tot_pure _
  by_cases hk1 : k = 1
  · subst hk1
    rcases he.cases with rfl | ⟨q, P, hq, hP, hb, rfl⟩
    · rw [zero_eq]; exact hnum 0 (by simp)
    · by_cases ho : (mexpr q P).isOne = true
      · refine ⟨one, ?_, by rw [one_eq]; exact Pol.rat 1, ?_⟩
        · simp only [powCreate, hu, eu, ho, Bool.or_self, Bool.false_eq_true, if_false, Bool.or_true, if_true]
          exact tot_pure _
        · rcases mexpr_cases q P with ⟨rfl, h⟩ | ⟨f, rfl, _, h⟩ | ⟨_, _, h⟩
          · rw [h, isOne_ratE] at ho
            have : q = 1 := by simpa using ho
            rw [h, this, one_eq]; simp
          · rw [h, (hP.cons.1).isOne] at ho; simp at ho
          · rw [h] at ho; simp [Expr.isOne] at ho
      · refine ⟨mexpr q P, ?_, he, by simp⟩
        have z : (mexpr q P).isZero = false := mexpr_isZero hq hP
        have e2 : (int ((1 : ℕ) : ℤ) : Expr D).isZero = false := by rw [isZero_int]; simp
        have e3 : (int ((1 : ℕ) : ℤ) : Expr D).isOne = true := by rw [isOne_int]; simp
        have ho : (mexpr q P).isOne = false := by simpa using ho
        simp only [powCreate, hu, eu, ho, z, e2, e3, Bool.or_self, Bool.false_eq_true, if_false, if_true]
        exact tot_pure _
  have hk2 : 2 ≤ k := by omega
  rcases he.cases with rfl | ⟨q, P, hq, hP, hb, rfl⟩
  · rw [zero_eq]; exact hnum 0 (by simp)
  rcases mexpr_cases q P with ⟨rfl, h⟩ | ⟨f, rfl, _, h⟩ | ⟨hne, hl, h⟩
  · rw [h]
    rw [h] at hco
    exact hnum q hco
  · rw [h]
    have hf := hP.cons.1
    have hf' : PFac cfg (f.1, f.2 * k) := ⟨hf.base, by have := hf.one_le; simp only; nlinarith⟩
    refine ⟨_, tot_pow_fac hc hf hk2, Pol.fac hf' (hb f (by simp)), ?_⟩
    rw [poly_fac hf', poly_fac hf]; simp only [pow_mul]
  · rw [h] at hco hu
    rw [h]
    have i1 : isInteger (int k : Expr D) = .ok true := by
      simp [isInteger, int, numEval, bind, Except.bind, pure, Except.pure, Number.isInt, Number.isRational, Number.denominator]
    have hrl : ∀ x ∈ rl q P, ∃ r, Tot cfg (fun E => powCreate E x (int k)) r ∧ Pol cfg r ∧ poly r = poly x ^ k := by
      intro x hx
      by_cases hq1 : q = 1
      · rw [hq1, rl_one] at hx
        obtain ⟨f, hf, rfl⟩ := List.mem_map.1 hx
        have hf' : PFac cfg (f.1, f.2 * k) := ⟨(hP f hf).base, by have := (hP f hf).one_le; simp only; nlinarith⟩
        refine ⟨_, tot_pow_fac hc (hP f hf) hk2, Pol.fac hf' (hb f hf), ?_⟩
        rw [poly_fac hf', poly_fac (hP f hf)]; simp only [pow_mul]
      · rw [rl_ne hq1] at hx hco
        rcases List.mem_cons.1 hx with rfl | hx
        · exact hnum q hco
        · obtain ⟨f, hf, rfl⟩ := List.mem_map.1 hx
          have hf' : PFac cfg (f.1, f.2 * k) := ⟨(hP f hf).base, by have := (hP f hf).one_le; simp only; nlinarith⟩
          refine ⟨_, tot_pow_fac hc (hP f hf) hk2, Pol.fac hf' (hb f hf), ?_⟩
          rw [poly_fac hf', poly_fac (hP f hf)]; simp only [pow_mul]
    generalize hlist : rl q P = l at hrl hl hu
    have hsplit : ∀ l : List (Expr D), (∀ x ∈ l, ∃ r, Tot cfg (fun E => powCreate E x (int k)) r ∧ Pol cfg r ∧ poly r = poly x ^ k) →
        ∃ ps, Tot cfg (fun E => splitFactors E true (int k) l) (l, ps, []) ∧ (∀ p ∈ ps, Pol cfg p) ∧ ps.length = l.length ∧
          (ps.map poly).prod = (l.map poly).prod ^ k := by
      intro l
      induction l with
      | nil => intro _; exact ⟨[], by simp only [splitFactors]; exact tot_pure _, by simp, rfl, by simp⟩
      | cons x l ih =>
        intro hx
        obtain ⟨r, hr, hr2, hr3⟩ := hx x (by simp)
        obtain ⟨ps, hps, hps2, hps3, hps4⟩ := ih fun y hy => hx y (by simp [hy])
        refine ⟨r :: ps, ?_, ?_, by simp [hps3], by simp [hr3, hps4, mul_pow]⟩
        · simp only [splitFactors, if_true]
          refine tot_bind (tot_pure true) ?_
          simp only [if_true]
          exact tot_bind (tot_pow hr) (tot_bind hps (tot_pure _))
        · intro p hp
          rcases List.mem_cons.1 hp with rfl | hp
          · exact hr2
          · exact hps2 p hp
    obtain ⟨ps, hps, hps2, hps3, hps4⟩ := hsplit l hrl
    obtain ⟨r, hr, hr2, hr3⟩ := tot_prod_pol hc (es := ps ++ [(one : Expr D)]) (by simp) (by
      intro e he
      rcases List.mem_append.1 he with he | he
      · exact hps2 e he
      · rw [List.mem_singleton.1 he, one_eq]; exact Pol.rat 1)
    refine ⟨r, ?_, hr2, ?_⟩
    · have u : (Expr.prod l : Expr D).isUndefined = false := rfl
      have o : (Expr.prod l : Expr D).isOne = false := rfl
      have z : (Expr.prod l : Expr D).isZero = false := rfl
      have e2 : (int k : Expr D).isZero = false := by rw [isZero_int]; simp; omega
      have e3 : (int k : Expr D).isOne = false := by rw [isOne_int]; simp; omega
      have o1 : (one : Expr D).isOne = true := by rw [one_eq, isOne_ratE]; simp
      simp only [powCreate, u, o, z, eu, e2, e3, Bool.or_self, Bool.false_eq_true, if_false, powCreateNonTrivial]
      refine tot_bind (a := (r, one)) (tot_simplPow ?_) ?_
      · unfold simplPow
        have hsg : Signs cfg (.prod l : Expr D) := by
          have := signs_mexpr (q := q) hP
          rwa [h, hlist] at this
        obtain ⟨v, hv⟩ := hsg.2
        refine tot_bind (tot_noComplex_int hv k) ?_
        simp only [Bool.false_eq_true, if_false]
        unfold simplifyProductBase
        refine tot_bind (tot_lift i1) (tot_bind hps ?_)
        have hem : ps.isEmpty = false := by
          rw [List.isEmpty_eq_false_iff]
          intro e
          rw [e] at hps3; simp at hps3; omega
        simp only [hem, Bool.false_eq_true, if_false, Bool.true_or, Bool.not_true]
        refine tot_bind (tot_logIf rfl) (tot_bind (tot_prod (tot_prod_nil hc)) (tot_bind (a := one) (tot_pow ?_) (tot_bind (tot_prod hr) (tot_pure _))))
        have u1 : (one : Expr D).isUndefined = false := by rw [one_eq]; rfl
        simp only [powCreate, u1, eu, o1, Bool.or_self, Bool.false_eq_true, if_false, Bool.or_true, if_true]
        exact tot_pure _
      · simp only [o1, if_true]
        exact tot_pure _
    · rw [hr3, List.map_append, List.prod_append, hps4, one_eq]
      have : poly (.prod l : Expr D) = (l.map poly).prod := by rw [poly, polyProd_eq]
      rw [this]; simp [poly_ratE]

end Tsym
