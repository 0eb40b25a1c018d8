import Verif.SurdScale
import Verif.SqrtMul

set_option autoImplicit false
set_option linter.unusedSectionVars false
set_option linter.unusedSimpArgs false
set_option linter.unusedVariables false

/-!
# Helper lemmas: products of integer multiples of square roots
-/

namespace Tsym.Sd

open Expr NumPowerSimpl

variable {D : Type} [Flt D] [LawfulFlt D] {cfg : Cfg D}

/-- What is left below the root. -/
def below (a b : ℕ) : ℕ := (a / a.gcd b) * (b / a.gcd b)

theorem below_sf {a b : ℕ} (ha : Squarefree a) (hb : Squarefree b) : Squarefree (below a b) := by
  have hg : 0 < a.gcd b := Nat.gcd_pos_of_pos_left _ (Nat.pos_of_ne_zero ha.ne_zero)
  refine (Nat.squarefree_mul (Nat.coprime_div_gcd_div_gcd hg)).2 ⟨?_, ?_⟩
  · exact ha.squarefree_of_dvd (Nat.div_dvd_of_dvd (Nat.gcd_dvd_left a b))
  · exact hb.squarefree_of_dvd (Nat.div_dvd_of_dvd (Nat.gcd_dvd_right a b))

theorem below_mul (a b : ℕ) : a * b = a.gcd b ^ 2 * below a b := by
  unfold below
  have e1 := Nat.div_mul_cancel (Nat.gcd_dvd_left a b)
  have e2 := Nat.div_mul_cancel (Nat.gcd_dvd_right a b)
  generalize a.gcd b = g at *
  calc a * b = (a / g * g) * (b / g * g) := by rw [e1, e2]
    _ = _ := by ring

theorem below_one {a b : ℕ} (ha : 0 < a) (hb : 0 < b) : below a b = 1 ↔ a = b := by
  have hg : 0 < a.gcd b := Nat.gcd_pos_of_pos_left _ ha
  constructor
  · intro h
    have h1 : a / a.gcd b = 1 := Nat.dvd_one.1 ⟨_, h.symm⟩
    have h2 : b / a.gcd b = 1 := Nat.dvd_one.1 ⟨_, (by unfold below at h; rw [mul_comm]; exact h.symm)⟩
    have e1 := Nat.div_mul_cancel (Nat.gcd_dvd_left a b)
    have e2 := Nat.div_mul_cancel (Nat.gcd_dvd_right a b)
    rw [h1] at e1; rw [h2] at e2; omega
  · rintro rfl
    simp [below, Nat.div_self ha]

theorem below_comm (a b : ℕ) : below a b = below b a := by
  unfold below; rw [Nat.gcd_comm, mul_comm]

theorem below_one_left (b : ℕ) : below 1 b = b := by simp [below]

theorem rootOf_mul {a b : ℕ} (ha : Squarefree a) (hb : Squarefree b) (hm : ((a * b : ℕ) : ℤ) ≤ cfg.maxPrime) (h1 : 1 ≤ cfg.maxPrime) :
    RootOf cfg.maxPrime ((a : ℚ) * b) 1 (a.gcd b : ℕ) (below a b : ℕ) := by
  have hg : 0 < a.gcd b := Nat.gcd_pos_of_pos_left _ (Nat.pos_of_ne_zero ha.ne_zero)
  have hr : 0 < below a b := Nat.pos_of_ne_zero (below_sf ha hb).ne_zero
  have e : (a : ℚ) * b = ((a * b : ℕ) : ℚ) := by push_cast; rfl
  refine .small (a.gcd b : ℕ) ?_ ⟨by simpa using h1, by simpa using h1⟩ ⟨by exact_mod_cast hg, by exact_mod_cast hr, ?_, ?_, ?_, ?_⟩ (by norm_num)
  · rw [e]; refine ⟨?_, ?_⟩
    · rw [Rat.num_natCast, Int.natAbs_natCast]; exact hm
    · rw [Rat.den_natCast]; exact_mod_cast h1
  · rw [e, one_pow, mul_one, below_mul]; simp only [Rat.num_natCast]; push_cast; rfl
  · rw [e, one_pow, mul_one]; simp only [Rat.den_natCast]; norm_num
  · simpa using below_sf ha hb
  · simp

theorem tot_pos {q : ℚ} (h : 0 < q) : Tot cfg (fun E => M.silent (E.isPos (num (.rat q) : Expr D))) true := by
  have : Tot cfg (fun E => E.isPos (num (.rat q) : Expr D)) true := by
    refine tot_isPos ?_
    simp only [isPos]
    have : Number.lt 0 (.rat q : Number D) = true := by rw [Number.zero_def, lt_rat]; simpa using h
    rw [this]; exact tot_pure _
  obtain ⟨n, hn⟩ := this
  exact ⟨n, fun m hm => by
    have := hn m hm
    simp only at this
    simp only [M.silent, this]; rfl⟩

theorem tot_two_roots {a b : ℕ} (ha : Squarefree a) (hb : Squarefree b) (ha1 : a ≠ 1) (hb1 : b ≠ 1) (hm : ((a * b : ℕ) : ℤ) ≤ cfg.maxPrime)
    (h1 : 1 ≤ cfg.maxPrime) :
    Tot cfg (fun E => simplTwoConst E (rootE (a : ℚ) : Expr D) (rootE (b : ℚ))) (surdList (a.gcd b : ℕ) (below a b : ℕ)) := by
  have pa : 0 < a := Nat.pos_of_ne_zero ha.ne_zero
  have pb : 0 < b := Nat.pos_of_ne_zero hb.ne_zero
  have qa : (0 : ℚ) < a := by exact_mod_cast pa
  have qb : (0 : ℚ) < b := by exact_mod_cast pb
  rw [rootE_nat ha1, rootE_nat hb1]
  have hbase : haveEqualBases (.pow (num (.rat (a : ℚ))) (num (.rat (1 / 2))) : Expr D) (.pow (num (.rat (b : ℚ))) (num (.rat (1 / 2)))) = decide (a = b) := by
    simp only [haveEqualBases, Expr.base, isEqual]
    have := Number.rat_eqv (D := D) (a : ℚ) (b : ℚ)
    rw [this]; simp
  have hexp : areNumPowersWithEqualExp (.pow (num (.rat (a : ℚ))) (num (.rat (1 / 2))) : Expr D) (.pow (num (.rat (b : ℚ))) (num (.rat (1 / 2)))) = true := by
    simp only [areNumPowersWithEqualExp, isNumericPower, Expr.exp, isEqual, Bool.true_and]
    have := Number.rat_eqv (D := D) (1 / 2) (1 / 2)
    rw [this]; simp; exact ⟨⟨rfl, rfl⟩, rfl, rfl⟩
  simp only [simplTwoConst, hbase, hexp]
  by_cases hab : a = b
  · subst hab
    have e1 : below a a = 1 := (below_one pa pa).2 rfl
    have e2 : (surdList ((a.gcd a : ℕ) : ℚ) ((below a a : ℕ) : ℚ) : List (Expr D)) = [num (.rat a)] := by
      rw [e1, Nat.gcd_self]; simp [surdList]
    rw [e2]
    simp only [decide_true, if_true]
    unfold simplTwoEqualBases
    have hsum := tot_sum_num (cfg := cfg) (D := D) (1 / 2) (1 / 2)
    rw [show (1 / 2 + 1 / 2 : ℚ) = 1 by norm_num] at hsum
    refine tot_bind hsum (tot_bind (tot_pos qa) ?_)
    simp only [if_true]
    refine tot_bind (tot_pure _) (tot_bind (tot_pure _) ?_)
    simp only [Bool.false_eq_true, if_false]
    refine tot_bind (a := num (.rat a)) (tot_pow ?_) (tot_pure _)
    have u1 : (num (.rat (a : ℚ)) : Expr D).isUndefined = false := rfl
    have u2 : (num (.rat 1) : Expr D).isUndefined = false := rfl
    have z : (num (.rat 1) : Expr D).isZero = false := by rw [isZero_ratE]; simp
    have z2 : (num (.rat (a : ℚ)) : Expr D).isZero = false := by rw [isZero_ratE]; simpa using pa.ne'
    have o : (num (.rat 1) : Expr D).isOne = true := by rw [isOne_ratE]; simp
    have o2 : (num (.rat (a : ℚ)) : Expr D).isOne = false := by rw [isOne_ratE]; simpa using ha1
    simp only [powCreate, u1, u2, z, z2, o, o2, Expr.base, Bool.or_self, Bool.false_or, Bool.or_true, Bool.true_or, Bool.or_false, Bool.false_eq_true, Bool.false_and, Bool.and_false, if_false, if_true]
    exact tot_pure _
  · simp only [hab, decide_false, Bool.false_eq_true, if_false, if_true, simplTwoEqualExp, Number.mul]
    have hR := rootOf_mul (cfg := cfg) ha hb hm h1
    refine tot_numPowOne (mul_pos qa qb) (by norm_num) ?_ hR.spos.ne' (hR.rsimple (mul_pos qa qb))
    refine compute_root (mul_pos qa qb) ?_ one_ne_zero hR
    intro h
    have : a * b = 1 := by exact_mod_cast h
    exact ha1 (Nat.dvd_one.1 ⟨_, this.symm⟩)

/-! ## The numbers and the roots -/

/-- A number or a root. -/
def It (x : Expr D) : Prop := (∃ q : ℚ, x = num (.rat q)) ∨ ∃ a : ℕ, a ≠ 1 ∧ x = rootE (a : ℚ)

theorem It.notNum {a : ℕ} (ha : a ≠ 1) : (rootE (a : ℚ) : Expr D).isNumeric = false := by rw [rootE_nat ha]; rfl

theorem productOfNumerics_it (l : List (Expr D)) (c : ℚ) (h : ∀ x ∈ l, It x) : productOfNumerics (.rat c) l = (.rat (c * qs l) : Number D) := by
  induction l generalizing c with
  | nil => simp [productOfNumerics, qs]
  | cons x l ih =>
    have ih := fun c => ih c fun y hy => h y (by simp [hy])
    unfold qs at ih ⊢
    rcases h x (by simp) with ⟨q, rfl⟩ | ⟨a, ha, rfl⟩
    · simp only [productOfNumerics, Number.mul, ih, List.map_cons, List.prod_cons, qOf, mul_assoc]
    · rw [rootE_nat ha]
      simpa [productOfNumerics, qOf] using ih c

theorem contractNumerics_it (hc : cfg.Ok) {u w : List (Expr D)} (h : ∀ x ∈ u, It x) (hw : u.filter (fun e => !e.isNumeric) = w) (hne : w ≠ []) :
    ∃ w', w'.Perm w ∧ contractNumerics (cfg.sort doPermute u) = if qs u = 1 then w' else num (.rat (qs u)) :: w' := by
  have hperm := hc.sort doPermute u
  refine ⟨(cfg.sort doPermute u).filter (fun e => !e.isNumeric), ?_, ?_⟩
  · have := hperm.filter (fun e : Expr D => !e.isNumeric)
    rwa [hw] at this
  · unfold contractNumerics
    have e : productOfNumerics 1 (cfg.sort doPermute u) = (.rat (qs u) : Number D) := by
      rw [Number.one_def, productOfNumerics_it _ 1 fun x hx => h x (hperm.mem_iff.1 hx), qs_perm hperm, one_mul]
    have hne' : ((cfg.sort doPermute u).filter (fun e => !e.isNumeric)).isEmpty = false := by
      have := (hperm.filter (fun e : Expr D => !e.isNumeric)).length_eq
      rw [hw] at this
      rw [List.isEmpty_eq_false_iff]
      intro h0
      rw [h0] at this
      exact hne (List.eq_nil_of_length_eq_zero this.symm)
    rw [e, rat_eqv_one, hne']
    by_cases h1 : qs u = 1 <;> simp [h1]

theorem two_num {t : ℚ} {a : ℕ} (ht : SM t a) (ha : a ≠ 1) : Tot cfg (fun E => simplTwoConst E (num (.rat t)) (rootE (a : ℚ) : Expr D)) (surdList t a) := by
  have key := tot_numRoot (D := D) (cfg := cfg) (SM.simple _ ht.sf ha) ht.ne (ht.rootOf _)
  rw [rootE_nat ha] at key ⊢
  exact key

theorem two_num' {t : ℚ} {a : ℕ} (ht : SM t a) (ha : a ≠ 1) : Tot cfg (fun E => simplTwoConst E (rootE (a : ℚ) : Expr D) (num (.rat t))) (surdList t a) := by
  have key := tot_numRoot (D := D) (cfg := cfg) (SM.simple _ ht.sf ha) ht.ne (ht.rootOf _)
  rw [rootE_nat ha] at key ⊢
  exact key

theorem icn (c : ℚ) : isContractableConst (num (.rat c) : Expr D) = true := by simp [isContractableConst, isConst, Expr.isNumeric]

theorem icr {a : ℕ} (ha : a ≠ 1) : isContractableConst (rootE (a : ℚ) : Expr D) = true := by
  rw [rootE_nat ha]; simp [isContractableConst, isConst, Expr.isNumeric, Expr.isNumericPower]

theorem sm_int {k : ℤ} {n : ℕ} (hk : k ≠ 0) (hn : Squarefree n) : SM (k : ℚ) n := ⟨by exact_mod_cast hk, hn, by simp⟩

theorem tot_ub {α : Type} {x : α} (h : cfg.strictUb = false) : Tot cfg (fun E : Eng D => if E.cfg.strictUb then (M.err .ub : M D α) else pure x) x := by
  have hcfg : ∀ n, (eng cfg n).cfg = cfg := fun n => by
    induction n with
    | zero => rfl
    | succ n ih => exact ih
  refine ⟨0, fun n _ => ?_⟩
  dsimp only
  rw [hcfg, h]; rfl

theorem surdList_two {s r : ℚ} (h1 : s ≠ 1) (h2 : r ≠ 1) : (surdList s r : List (Expr D)) = [num (.rat s), rootE r] := by simp [surdList, h1, h2]

/-- The list after the roots are joined. -/
def joined (k : ℤ) (a b : ℕ) : List (Expr D) :=
  if k = 1 then (if a = b then [num (.rat a)] else if a.gcd b = 1 then [rootE (below a b : ℕ)] else [num (.rat (a.gcd b : ℕ)), rootE (below a b : ℕ)])
  else if a = b then [num (.rat (k * a))]
  else if a.gcd b = 1 then [rootE (below a b : ℕ), num (.rat k)]
  else [num (.rat k), num (.rat (a.gcd b : ℕ)), rootE (below a b : ℕ)]

theorem tot_contractConst_two (hub : cfg.strictUb = false) {k : ℤ} {a b : ℕ} (hk : k ≠ 0) (ha : Squarefree a) (hb : Squarefree b) (ha1 : a ≠ 1) (hb1 : b ≠ 1)
    (hm : ((a * b : ℕ) : ℤ) ≤ cfg.maxPrime) (h1 : 1 ≤ cfg.maxPrime) :
    Tot cfg (fun E => contractConst E (if k = 1 then [(rootE (a : ℚ) : Expr D), rootE (b : ℚ)] else [num (.rat k), rootE (a : ℚ), rootE (b : ℚ)])) (joined k a b) := by
  have pa : 0 < a := Nat.pos_of_ne_zero ha.ne_zero
  have pb : 0 < b := Nat.pos_of_ne_zero hb.ne_zero
  have two := tot_two_roots (D := D) (cfg := cfg) ha hb ha1 hb1 hm h1
  have hr1 : a ≠ b → below a b ≠ 1 := fun h e => h ((below_one pa pb).1 e)
  have hg0 : 0 < a.gcd b := Nat.gcd_pos_of_pos_left _ pa
  unfold contractConst
  refine tot_loop (f := fun E => contractConstStep E) ?_
  unfold joined
  by_cases hk1 : k = 1
  · simp only [hk1, if_true]
    refine .next _ ([rootE (a : ℚ), rootE (b : ℚ)], 0, 1) ?_ ?_
    · simp only [contractConstStep, List.getElem?_cons_zero, if_true, Nat.zero_add]; exact tot_pure _
    by_cases hab : a = b
    · subst hab
      simp only [if_true]
      refine .next _ ([num (.rat a)], 0, 0) ?_ (.next _ ([num (.rat a)], 0, 1) ?_ (.next _ ([num (.rat a)], 1, 1) ?_ (.done _ ?_)))
      · simp only [contractConstStep, List.getElem?_cons_zero, List.getElem?_cons_succ, icr ha1, Bool.and_self, if_true, show ¬ ((0 : ℕ) = 1) by decide, if_false]
        refine tot_bind two ?_
        rw [(below_one pa pa).2 rfl, Nat.gcd_self]
        simp only [surdList, Nat.cast_one, if_true, List.length_cons, List.length_nil, show ¬ (1 + 1 < 0 + 1 + 1) by decide, if_false]
        exact tot_ub hub
      · simp only [contractConstStep, List.getElem?_cons_zero, if_true, Nat.zero_add]; exact tot_pure _
      · simp only [contractConstStep, List.getElem?_cons_zero, List.getElem?_cons_succ, List.getElem?_nil]; exact tot_pure _
      · simp only [contractConstStep, List.getElem?_cons_succ, List.getElem?_nil]; exact tot_pure _
    · simp only [hab, if_false]
      have hr := hr1 hab
      have hrq : ((below a b : ℕ) : ℚ) ≠ 1 := by exact_mod_cast hr
      by_cases hg : a.gcd b = 1
      · simp only [hg, if_true]
        refine .next _ ([rootE (below a b : ℕ)], 0, 0) ?_ (.next _ ([rootE (below a b : ℕ)], 0, 1) ?_ (.next _ ([rootE (below a b : ℕ)], 1, 1) ?_ (.done _ ?_)))
        · simp only [contractConstStep, List.getElem?_cons_zero, List.getElem?_cons_succ, icr ha1, icr hb1, Bool.and_self, if_true, show ¬ ((0 : ℕ) = 1) by decide, if_false]
          refine tot_bind two ?_
          rw [hg]
          simp only [surdList, hrq, Nat.cast_one, if_true, if_false, List.length_cons, List.length_nil, show ¬ (1 + 1 < 0 + 1 + 1) by decide]
          exact tot_ub hub
        · simp only [contractConstStep, List.getElem?_cons_zero, if_true, Nat.zero_add]; exact tot_pure _
        · simp only [contractConstStep, List.getElem?_cons_zero, List.getElem?_cons_succ, List.getElem?_nil]; exact tot_pure _
        · simp only [contractConstStep, List.getElem?_cons_succ, List.getElem?_nil]; exact tot_pure _
      · simp only [hg, if_false]
        have hgq : ((a.gcd b : ℕ) : ℚ) ≠ 1 := by exact_mod_cast hg
        refine .next _ ([num (.rat (a.gcd b : ℕ)), rootE (below a b : ℕ)], 0, 2) ?_ (.next _ ([num (.rat (a.gcd b : ℕ)), rootE (below a b : ℕ)], 1, 1) ?_
          (.next _ ([num (.rat (a.gcd b : ℕ)), rootE (below a b : ℕ)], 1, 2) ?_ (.next _ ([num (.rat (a.gcd b : ℕ)), rootE (below a b : ℕ)], 2, 2) ?_ (.done _ ?_))))
        · simp only [contractConstStep, List.getElem?_cons_zero, List.getElem?_cons_succ, icr ha1, icr hb1, Bool.and_self, if_true, show ¬ ((0 : ℕ) = 1) by decide, if_false]
          refine tot_bind two ?_
          rw [surdList_two hgq hrq]
          simp only [List.set_cons_zero, List.set_cons_succ]
          exact tot_pure _
        · simp only [contractConstStep, List.getElem?_cons_zero, List.getElem?_cons_succ, List.getElem?_nil]; exact tot_pure _
        · simp only [contractConstStep, List.getElem?_cons_zero, List.getElem?_cons_succ, if_true]; exact tot_pure _
        · simp only [contractConstStep, List.getElem?_cons_zero, List.getElem?_cons_succ, List.getElem?_nil]; exact tot_pure _
        · simp only [contractConstStep, List.getElem?_cons_succ, List.getElem?_nil]; exact tot_pure _
  · simp only [hk1, if_false]
    have hkq : (k : ℚ) ≠ 1 := by exact_mod_cast hk1
    have haq : (a : ℚ) ≠ 1 := by exact_mod_cast ha1
    have hbq : (b : ℚ) ≠ 1 := by exact_mod_cast hb1
    have na := two_num (D := D) (cfg := cfg) (sm_int hk ha) ha1
    have nb := two_num (D := D) (cfg := cfg) (sm_int hk hb) hb1
    rw [surdList_two hkq haq] at na
    rw [surdList_two hkq hbq] at nb
    refine .next _ ([num (.rat k), rootE (a : ℚ), rootE (b : ℚ)], 0, 1) ?_ (.next _ ([num (.rat k), rootE (a : ℚ), rootE (b : ℚ)], 0, 2) ?_
      (.next _ ([num (.rat k), rootE (a : ℚ), rootE (b : ℚ)], 0, 3) ?_ (.next _ ([num (.rat k), rootE (a : ℚ), rootE (b : ℚ)], 1, 1) ?_
        (.next _ ([num (.rat k), rootE (a : ℚ), rootE (b : ℚ)], 1, 2) ?_ ?_))))
    · simp only [contractConstStep, List.getElem?_cons_zero, if_true, Nat.zero_add]; exact tot_pure _
    · simp only [contractConstStep, List.getElem?_cons_zero, List.getElem?_cons_succ, icr ha1, icn, Bool.and_self, if_true, show ¬ ((0 : ℕ) = 1) by decide, if_false]
      refine tot_bind na ?_
      simp only [List.set_cons_zero, List.set_cons_succ]
      exact tot_pure _
    · simp only [contractConstStep, List.getElem?_cons_zero, List.getElem?_cons_succ, icr hb1, icn, Bool.and_self, if_true, show ¬ ((0 : ℕ) = 2) by decide, if_false]
      refine tot_bind nb ?_
      simp only [List.set_cons_zero, List.set_cons_succ]
      exact tot_pure _
    · simp only [contractConstStep, List.getElem?_cons_zero, List.getElem?_cons_succ, List.getElem?_nil]; exact tot_pure _
    · simp only [contractConstStep, List.getElem?_cons_zero, List.getElem?_cons_succ, if_true]; exact tot_pure _
    by_cases hab : a = b
    · subst hab
      simp only [if_true]
      have hka : ((k : ℚ) * a) ≠ 1 := by
        intro h
        have h' : k * (a : ℤ) = 1 := by exact_mod_cast h
        have : (a : ℤ) ∣ 1 := ⟨k, by rw [mul_comm]; exact h'.symm⟩
        have := Int.natCast_dvd_natCast.1 (show ((a : ℕ) : ℤ) ∣ ((1 : ℕ) : ℤ) by simpa using this)
        exact ha1 (Nat.dvd_one.1 this)
      refine .next _ ([num (.rat k), num (.rat a)], 1, 0) ?_ (.next _ ([num (.rat (k * a))], 0, 1) ?_ (.next _ ([num (.rat (k * a))], 1, 1) ?_ (.done _ ?_)))
      · simp only [contractConstStep, List.getElem?_cons_zero, List.getElem?_cons_succ, icr ha1, Bool.and_self, if_true, show ¬ ((1 : ℕ) = 2) by decide, if_false]
        refine tot_bind two ?_
        rw [(below_one pa pa).2 rfl, Nat.gcd_self]
        simp only [surdList, Nat.cast_one, if_true, List.length_cons, List.length_nil, show ¬ (2 + 1 < 0 + 1 + 1 + 1) by decide, if_false]
        exact tot_ub hub
      · simp only [contractConstStep, List.getElem?_cons_zero, List.getElem?_cons_succ, icn, Bool.and_self, if_true, show ¬ ((1 : ℕ) = 0) by decide, if_false]
        refine tot_bind (a := [num (.rat (k * a))]) ?_ ?_
        · simp only [simplTwoConst, mulNumerics, Number.mul, rat_eqv_one, mul_comm (a : ℚ) (k : ℚ), hka, decide_false, Bool.false_eq_true, if_false]
          exact tot_pure _
        · simp only [List.length_cons, List.length_nil, show (0 + 1 < 0 + 1 + 1) by decide, if_true, show (0 < 1) by decide, List.set_cons_succ, List.set_cons_zero,
            List.eraseIdx_cons_zero, Nat.sub_self, Nat.zero_add]
          exact tot_pure _
      · simp only [contractConstStep, List.getElem?_cons_zero, List.getElem?_cons_succ, List.getElem?_nil]; exact tot_pure _
      · simp only [contractConstStep, List.getElem?_cons_succ, List.getElem?_nil]; exact tot_pure _
    · simp only [hab, if_false]
      have hr := hr1 hab
      have hrq : ((below a b : ℕ) : ℚ) ≠ 1 := by exact_mod_cast hr
      by_cases hg : a.gcd b = 1
      · simp only [hg, if_true]
        have nr := two_num' (D := D) (cfg := cfg) (sm_int hk (below_sf ha hb)) hr
        rw [surdList_two hkq hrq] at nr
        refine .next _ ([num (.rat k), rootE (below a b : ℕ)], 1, 0) ?_ (.next _ ([rootE (below a b : ℕ), num (.rat k)], 1, 1) ?_
          (.next _ ([rootE (below a b : ℕ), num (.rat k)], 1, 2) ?_ (.next _ ([rootE (below a b : ℕ), num (.rat k)], 2, 2) ?_ (.done _ ?_))))
        · simp only [contractConstStep, List.getElem?_cons_zero, List.getElem?_cons_succ, icr ha1, icr hb1, Bool.and_self, if_true, show ¬ ((1 : ℕ) = 2) by decide, if_false]
          refine tot_bind two ?_
          rw [hg]
          simp only [surdList, hrq, Nat.cast_one, if_true, if_false, List.length_cons, List.length_nil, show ¬ (2 + 1 < 0 + 1 + 1 + 1) by decide]
          exact tot_ub hub
        · simp only [contractConstStep, List.getElem?_cons_zero, List.getElem?_cons_succ, icr hr, icn, Bool.and_self, if_true, show ¬ ((1 : ℕ) = 0) by decide, if_false]
          refine tot_bind nr ?_
          simp only [List.set_cons_zero, List.set_cons_succ]
          exact tot_pure _
        · simp only [contractConstStep, List.getElem?_cons_zero, List.getElem?_cons_succ, if_true]; exact tot_pure _
        · simp only [contractConstStep, List.getElem?_cons_zero, List.getElem?_cons_succ, List.getElem?_nil]; exact tot_pure _
        · simp only [contractConstStep, List.getElem?_cons_succ, List.getElem?_nil]; exact tot_pure _
      · simp only [hg, if_false]
        have hgq : ((a.gcd b : ℕ) : ℚ) ≠ 1 := by exact_mod_cast hg
        refine .next _ ([num (.rat k), num (.rat (a.gcd b : ℕ)), rootE (below a b : ℕ)], 1, 3) ?_
          (.next _ ([num (.rat k), num (.rat (a.gcd b : ℕ)), rootE (below a b : ℕ)], 2, 2) ?_
          (.next _ ([num (.rat k), num (.rat (a.gcd b : ℕ)), rootE (below a b : ℕ)], 2, 3) ?_
          (.next _ ([num (.rat k), num (.rat (a.gcd b : ℕ)), rootE (below a b : ℕ)], 3, 3) ?_ (.done _ ?_))))
        · simp only [contractConstStep, List.getElem?_cons_zero, List.getElem?_cons_succ, icr ha1, icr hb1, Bool.and_self, if_true, show ¬ ((1 : ℕ) = 2) by decide, if_false]
          refine tot_bind two ?_
          rw [surdList_two hgq hrq]
          simp only [List.set_cons_zero, List.set_cons_succ]
          exact tot_pure _
        · simp only [contractConstStep, List.getElem?_cons_zero, List.getElem?_cons_succ, List.getElem?_nil]; exact tot_pure _
        · simp only [contractConstStep, List.getElem?_cons_zero, List.getElem?_cons_succ, if_true]; exact tot_pure _
        · simp only [contractConstStep, List.getElem?_cons_zero, List.getElem?_cons_succ, List.getElem?_nil]; exact tot_pure _
        · simp only [contractConstStep, List.getElem?_cons_succ, List.getElem?_nil]; exact tot_pure _

/-- The two passes over powers with equal exponents change nothing if there is at most one root. -/
theorem tot_passes {u : List (Expr D)} (h : u.Pairwise fun x y => x.isNumericPower = false ∨ y.isNumericPower = false) {r : List (Expr D)}
    (hr : Tot cfg (fun E => simplPreparedFactors E u) r) :
    Tot cfg (fun E => contract E (fun a b => pure (areNumPowersWithEqualExp a b)) (simplTwoEqualExp E) u >>= fun u =>
      contract E (fun a b => pure (areNumPowersWithEqualExpDenom a b)) (simplTwoEqualExpDenom E) u >>= fun v => simplPreparedFactors E v) r := by
  refine tot_bind (tot_contract_pw (simpl := fun E => simplTwoEqualExp E) ?_) (tot_bind (tot_contract_pw (simpl := fun E => simplTwoEqualExpDenom E) ?_) hr)
  · refine h.imp fun {x y} hxy => ?_
    rcases hxy with e | e <;> simp [areNumPowersWithEqualExp, e]
  · refine h.imp fun {x y} hxy => ?_
    unfold areNumPowersWithEqualExpDenom
    split
    · rcases hxy with e | e <;> exact absurd e (by simp [Expr.isNumericPower, Expr.isNumeric])
    · rfl

theorem numNotPow (q : ℚ) : (num (.rat q) : Expr D).isNumericPower = false := rfl

theorem tot_twoFactors {t : ℚ} {a : ℕ} (ht : SM t a) (ha : a ≠ 1) (ht1 : t ≠ 1) :
    Tot cfg (fun E => simplTwoFactors E (num (.rat t)) (rootE (a : ℚ) : Expr D)) [num (.rat t), rootE (a : ℚ)] ∧
    Tot cfg (fun E => simplTwoFactors E (rootE (a : ℚ) : Expr D) (num (.rat t))) [num (.rat t), rootE (a : ℚ)] := by
  have ho : (num (.rat t) : Expr D).isOne = false := by rw [isOne_ratE]; simpa using ht1
  have haq : (a : ℚ) ≠ 1 := by exact_mod_cast ha
  have h1 := two_num (D := D) (cfg := cfg) ht ha
  have h2 := two_num' (D := D) (cfg := cfg) ht ha
  rw [surdList_two ht1 haq] at h1 h2
  constructor
  · simp only [simplTwoFactors, show (num (.rat t) : Expr D).isProduct = false from rfl, rootE_isProduct, Bool.or_self, Bool.false_eq_true, if_false,
      simplTwoFactorsWithoutProduct, ho, rootE_isOne, show (num (.rat t) : Expr D).isConst = true by simp [isConst], rootE_isConst, Bool.and_self, if_true]
    exact h1
  · simp only [simplTwoFactors, show (num (.rat t) : Expr D).isProduct = false from rfl, rootE_isProduct, Bool.or_self, Bool.false_eq_true, if_false,
      simplTwoFactorsWithoutProduct, ho, rootE_isOne, show (num (.rat t) : Expr D).isConst = true by simp [isConst], rootE_isConst, Bool.and_self, if_true]
    exact h2

theorem mul_ne_one_int {k : ℤ} {n : ℕ} (hn : n ≠ 1) : (k : ℚ) * n ≠ 1 := by
  intro h
  have h' : k * (n : ℤ) = 1 := by exact_mod_cast h
  have : (n : ℤ) ∣ 1 := ⟨k, by rw [mul_comm]; exact h'.symm⟩
  have := Int.natCast_dvd_natCast.1 (show ((n : ℕ) : ℤ) ∣ ((1 : ℕ) : ℤ) by simpa using this)
  exact hn (Nat.dvd_one.1 this)

theorem tot_extract_it {u : List (Expr D)} (h : ∀ x ∈ u, It x) : Tot cfg (fun E => extractProducts E u) u := by
  have := tot_extract (cfg := cfg) (u := u) (by
    intro l hl
    rcases h _ hl with ⟨q, e⟩ | ⟨a, ha, e⟩
    · cases e
    · rw [rootE_nat ha] at e; cases e)
  have e : u.flatMap factors = u := by
    clear this
    induction u with
    | nil => rfl
    | cons x u ih =>
      rw [List.flatMap_cons, ih fun y hy => h y (by simp [hy])]
      rcases h x (by simp) with ⟨q, rfl⟩ | ⟨a, ha, rfl⟩
      · rfl
      · rw [rootE_factors]; rfl
  rwa [e] at this

theorem tot_trig_it {u : List (Expr D)} (h : ∀ x ∈ u, It x) : Tot cfg (fun E => contractTrigonometrics E u) u := by
  refine tot_contract (simpl := fun E => contractTrigFctPowers E) fun x hx y hy => ?_
  rcases h x hx with ⟨q, rfl⟩ | ⟨a, ha, rfl⟩
  · exact num_trig_pair _ _
  · unfold areContractableTrigFctPowers; rw [rootE_trig]; rfl

theorem tot_prepared_two {k : ℤ} {a b : ℕ} (hk : k ≠ 0) (ha : Squarefree a) (hb : Squarefree b) (ha1 : a ≠ 1) (hb1 : b ≠ 1) :
    (joined k a b : List (Expr D)).Pairwise (fun x y => x.isNumericPower = false ∨ y.isNumericPower = false) ∧
    Tot cfg (fun E => simplPreparedFactors E (joined k a b : List (Expr D))) (surdList (k * (a.gcd b : ℕ)) (below a b : ℕ)) := by
  have pa : 0 < a := Nat.pos_of_ne_zero ha.ne_zero
  have pb : 0 < b := Nat.pos_of_ne_zero hb.ne_zero
  have hr1 : a ≠ b → below a b ≠ 1 := fun h e => h ((below_one pa pb).1 e)
  have hg0 : a.gcd b ≠ 0 := (Nat.gcd_pos_of_pos_left _ pa).ne'
  have hsf := below_sf ha hb
  unfold joined
  by_cases hab : a = b
  · subst hab
    have e1 : below a a = 1 := (below_one pa pa).2 rfl
    simp only [if_true, e1, Nat.gcd_self, Nat.cast_one, surdList]
    by_cases hk1 : k = 1
    · simp only [hk1, if_true, Int.cast_one, one_mul, simplPreparedFactors]
      exact ⟨by simp, tot_pure _⟩
    · simp only [hk1, if_false, simplPreparedFactors]
      exact ⟨by simp, tot_pure _⟩
  have hr := hr1 hab
  have hrq : ((below a b : ℕ) : ℚ) ≠ 1 := by exact_mod_cast hr
  by_cases hk1 : k = 1
  · subst hk1
    simp only [hab, if_true, if_false, Int.cast_one, one_mul]
    by_cases hg : a.gcd b = 1
    · simp only [hg, if_true, simplPreparedFactors, surdList, Nat.cast_one, hrq, if_false]
      exact ⟨by simp, tot_pure _⟩
    · have hgq : ((a.gcd b : ℕ) : ℚ) ≠ 1 := by exact_mod_cast hg
      simp only [hg, if_false, simplPreparedFactors, surdList_two hgq hrq]
      have := (tot_twoFactors (D := D) (cfg := cfg) (sm_int (k := (a.gcd b : ℕ)) (by exact_mod_cast hg0) hsf) hr (by exact_mod_cast hg)).1
      exact ⟨by simp [numNotPow], by simpa using this⟩
  · have hkq : (k : ℚ) ≠ 1 := by exact_mod_cast hk1
    simp only [hk1, hab, if_false]
    by_cases hg : a.gcd b = 1
    · simp only [hg, if_true, simplPreparedFactors, Nat.cast_one, mul_one, surdList_two hkq hrq]
      exact ⟨by simp [numNotPow], (tot_twoFactors (D := D) (cfg := cfg) (sm_int hk hsf) hr hkq).2⟩
    · have hgq : ((a.gcd b : ℕ) : ℚ) ≠ 1 := by exact_mod_cast hg
      have hkg : (k : ℚ) * (a.gcd b : ℕ) ≠ 1 := mul_ne_one_int hg
      simp only [hg, if_false, surdList_two hkg hrq]
      refine ⟨by simp [numNotPow], ?_⟩
      simp only [simplPreparedFactors]
      have h2 := (tot_twoFactors (D := D) (cfg := cfg) (sm_int (k := (a.gcd b : ℕ)) (by exact_mod_cast hg0) hsf) hr (by exact_mod_cast hg)).1
      have hit : ∀ x ∈ [num (.rat (a.gcd b : ℕ)), (rootE (below a b : ℕ) : Expr D)], It x := by
        intro x hx
        simp only [List.mem_cons, List.not_mem_nil, or_false] at hx
        rcases hx with rfl | rfl
        · exact .inl ⟨_, rfl⟩
        · exact .inr ⟨_, hr, rfl⟩
      refine tot_bind (a := [num (.rat (a.gcd b : ℕ)), rootE (below a b : ℕ)]) (tot_simplProd ?_) (tot_mergeProd ?_)
      · unfold simplProd
        exact tot_bind (tot_extract_it hit) (tot_bind (tot_trig_it hit) (by simpa using h2))
      · simp only [mergeProd]
        have ok : (num (.rat (k : ℚ)) : Expr D).isOne = false := by rw [isOne_ratE]; simpa using hkq
        have og : (num (.rat ((a.gcd b : ℕ) : ℚ)) : Expr D).isOne = false := by rw [isOne_ratE]; simpa using hgq
        have okg : (num (.rat ((k : ℚ) * (a.gcd b : ℕ))) : Expr D).isOne = false := by rw [isOne_ratE]; simpa using hkg
        refine tot_bind (a := [num (.rat ((k : ℚ) * (a.gcd b : ℕ)))]) ?_ ?_
        · have hc : ∀ q : ℚ, (num (.rat q) : Expr D).isConst = true := fun _ => by simp [isConst]
          simp only [simplTwoFactors, show ∀ q : ℚ, (num (.rat q) : Expr D).isProduct = false from fun _ => rfl, Bool.or_self, Bool.false_eq_true, if_false,
            simplTwoFactorsWithoutProduct, ok, og, hc, Bool.and_self, if_true, simplTwoConst, mulNumerics, Number.mul, rat_eqv_one, hkg, decide_false]
          exact tot_pure _
        · simp only [okg, Bool.false_eq_true, if_false]
          refine tot_bind (a := [rootE (below a b : ℕ)]) (tot_mergeProd ?_) (tot_pure _)
          simp only [mergeProd]
          exact tot_pure _

/-- Three or four factors with two roots. -/
theorem tot_simplProd_two (hc : cfg.Ok) (hub : cfg.strictUb = false) {k : ℤ} {a b : ℕ} (hk : k ≠ 0) (ha : Squarefree a) (hb : Squarefree b) (ha1 : a ≠ 1) (hb1 : b ≠ 1)
    (hm : ((a * b : ℕ) : ℤ) ≤ cfg.maxPrime) (h1 : 1 ≤ cfg.maxPrime) {u : List (Expr D)} (h : ∀ x ∈ u, It x)
    (hw : u.filter (fun e => !e.isNumeric) = [rootE (a : ℚ), rootE (b : ℚ)]) (hq : qs u = k) :
    Tot cfg (fun E => prepareConst E u >>= simplPreparedFactors E) (surdList (k * (a.gcd b : ℕ)) (below a b : ℕ)) := by
  obtain ⟨w, hw1, hw2⟩ := contractNumerics_it hc h hw (by simp)
  have hcfg : ∀ n, (eng cfg n).cfg = cfg := fun n => by
    induction n with
    | zero => rfl
    | succ n ih => exact ih
  have key : ∀ {a b : ℕ}, Squarefree a → Squarefree b → a ≠ 1 → b ≠ 1 → ((a * b : ℕ) : ℤ) ≤ cfg.maxPrime →
      Tot cfg (fun E => (contractConst E (if k = 1 then [(rootE (a : ℚ) : Expr D), rootE (b : ℚ)] else [num (.rat k), rootE (a : ℚ), rootE (b : ℚ)])) >>= fun u =>
        contract E (fun a b => pure (areNumPowersWithEqualExp a b)) (simplTwoEqualExp E) u >>= fun u =>
        contract E (fun a b => pure (areNumPowersWithEqualExpDenom a b)) (simplTwoEqualExpDenom E) u >>= fun v => simplPreparedFactors E v)
        (surdList (k * (a.gcd b : ℕ)) (below a b : ℕ)) := by
    intro a b ha hb ha1 hb1 hm
    obtain ⟨p1, p2⟩ := tot_prepared_two (D := D) (cfg := cfg) hk ha hb ha1 hb1
    exact tot_bind (tot_contractConst_two hub hk ha hb ha1 hb1 hm h1) (tot_passes p1 p2)
  have hk' : ((k : ℚ) = 1) ↔ k = 1 := by exact_mod_cast Iff.rfl
  have hfin : Tot cfg (fun E => (contractConst E (if k = 1 then w else num (.rat k) :: w)) >>= fun u =>
        contract E (fun a b => pure (areNumPowersWithEqualExp a b)) (simplTwoEqualExp E) u >>= fun u =>
        contract E (fun a b => pure (areNumPowersWithEqualExpDenom a b)) (simplTwoEqualExpDenom E) u >>= fun v => simplPreparedFactors E v)
        (surdList (k * (a.gcd b : ℕ)) (below a b : ℕ)) := by
    have hcase : w = [rootE (a : ℚ), rootE (b : ℚ)] ∨ w = [rootE (b : ℚ), rootE (a : ℚ)] := by
      match w, hw1 with
      | [x, y], hw1 =>
        have hl := hw1.mem_iff (a := (rootE (a : ℚ) : Expr D))
        simp only [List.mem_cons, List.not_mem_nil, or_false, true_or, iff_true] at hl
        rcases hl with rfl | rfl
        · have := (List.perm_cons _).1 hw1
          rw [List.perm_singleton] at this
          simp only [List.cons.injEq, and_true] at this
          rw [this]; exact .inl rfl
        · have := (List.perm_cons _).1 ((List.Perm.swap _ _ _).trans hw1)
          rw [List.perm_singleton] at this
          simp only [List.cons.injEq, and_true] at this
          rw [this]; exact .inr rfl
      | [], hw1 => have := hw1.length_eq; simp at this
      | [_], hw1 => have := hw1.length_eq; simp at this
      | _ :: _ :: _ :: _, hw1 => have := hw1.length_eq; simp at this
    rcases hcase with rfl | rfl
    · exact key ha hb ha1 hb1 hm
    · rw [Nat.gcd_comm, below_comm]
      exact key hb ha hb1 ha1 (by rwa [mul_comm])
  obtain ⟨N, hN⟩ := hfin
  refine ⟨N, fun n hn => ?_⟩
  have := hN n hn
  unfold prepareConst
  dsimp only at this ⊢
  rw [hcfg, hw2, hq]
  simp only [hk']
  simpa only [bind_assoc] using this

/-- The factors. -/
theorem em_factors {k : ℤ} {a : ℕ} : factors (em ((k : ℚ), a) : Expr D) = surdList k a := by
  unfold em surd surdList
  split
  · rfl
  · split
    · exact rootE_factors _
    · rfl

theorem it_surdList {k : ℤ} {a : ℕ} : ∀ x ∈ (surdList (k : ℚ) (a : ℚ) : List (Expr D)), It x := by
  intro x hx
  unfold surdList at hx
  split at hx
  · simp only [List.mem_singleton] at hx; exact .inl ⟨_, hx⟩
  · rename_i h1
    have h1 : a ≠ 1 := by exact_mod_cast h1
    split at hx
    · simp only [List.mem_singleton] at hx; exact .inr ⟨_, h1, hx⟩
    · simp only [List.mem_cons, List.not_mem_nil, or_false] at hx
      rcases hx with hx | hx
      · exact .inl ⟨_, hx⟩
      · exact .inr ⟨_, h1, hx⟩

theorem tot_extract_em {k l : ℤ} {a b : ℕ} : Tot cfg (fun E => extractProducts E [em ((k : ℚ), a), (em ((l : ℚ), b) : Expr D)]) (surdList k a ++ surdList l b) := by
  have hp : ∀ (k : ℤ) (a : ℕ) (ops : List (Expr D)), Expr.prod ops = em ((k : ℚ), a) → ∀ y ∈ ops, y.isProduct = false := by
    intro k a ops h y hy
    unfold em surd at h
    split at h
    · cases h
    · split at h
      · have := rootE_isProduct (D := D) ((k : ℚ), a).2
        rw [← h] at this; cases this
      · simp only [Expr.prod.injEq] at h
        subst h
        simp only [List.mem_cons, List.not_mem_nil, or_false] at hy
        rcases hy with rfl | rfl
        · rfl
        · exact rootE_isProduct _
  have := tot_extract (cfg := cfg) (u := [em ((k : ℚ), a), (em ((l : ℚ), b) : Expr D)]) (by
    intro ops hops y hy
    simp only [List.mem_cons, List.not_mem_nil, or_false] at hops
    rcases hops with h | h
    · exact hp k a ops h y hy
    · exact hp l b ops h y hy)
  simpa only [List.flatMap_cons, List.flatMap_nil, em_factors, List.append_nil] using this

theorem qs_surdList (k : ℤ) (a : ℕ) : qs (surdList (k : ℚ) (a : ℚ) : List (Expr D)) = k := by
  unfold surdList
  split
  · simp [qs, qOf]
  · rename_i h1
    have h1 : a ≠ 1 := by exact_mod_cast h1
    split
    · rename_i h2; rw [rootE_nat h1, h2]; simp [qs, qOf]
    · rw [rootE_nat h1]; simp [qs, qOf]

theorem qs_append (l m : List (Expr D)) : qs (l ++ m) = qs l * qs m := by simp [qs]

theorem filter_surdList (k : ℤ) {a : ℕ} (ha : a ≠ 1) : (surdList (k : ℚ) (a : ℚ) : List (Expr D)).filter (fun e => !e.isNumeric) = [rootE (a : ℚ)] := by
  have haq : (a : ℚ) ≠ 1 := by exact_mod_cast ha
  have := It.notNum (D := D) ha
  unfold surdList
  rw [if_neg haq]
  split
  · rw [List.filter_cons_of_pos (by simp [this]), List.filter_nil]
  · rw [List.filter_cons_of_neg (by simp [Expr.isNumeric]), List.filter_cons_of_pos (by simp [this]), List.filter_nil]

/-- One root with numbers on both sides. -/
theorem tot_simplProd_one (hc : cfg.Ok) {k : ℤ} {a : ℕ} (hk : k ≠ 0) (ha : Squarefree a) (ha1 : a ≠ 1) {u : List (Expr D)} (h : ∀ x ∈ u, It x)
    (hw : u.filter (fun e => !e.isNumeric) = [rootE (a : ℚ)]) (hq : qs u = k) :
    Tot cfg (fun E => prepareConst E u >>= simplPreparedFactors E) (surdList k a) := by
  obtain ⟨w, hw1, hw2⟩ := contractNumerics_it hc h hw (by simp)
  rw [List.perm_singleton] at hw1
  subst hw1
  have hcfg : ∀ n, (eng cfg n).cfg = cfg := fun n => by
    induction n with
    | zero => rfl
    | succ n ih => exact ih
  have haq : (a : ℚ) ≠ 1 := by exact_mod_cast ha1
  have key : Tot cfg (fun E => (contractConst E (if (k : ℚ) = 1 then [(rootE (a : ℚ) : Expr D)] else [num (.rat k), rootE (a : ℚ)])) >>= fun u =>
        contract E (fun a b => pure (areNumPowersWithEqualExp a b)) (simplTwoEqualExp E) u >>= fun u =>
        contract E (fun a b => pure (areNumPowersWithEqualExpDenom a b)) (simplTwoEqualExpDenom E) u >>= fun v => simplPreparedFactors E v)
        (surdList k a) := by
    by_cases hk1 : (k : ℚ) = 1
    · simp only [hk1, if_true, surdList, haq, if_false]
      refine tot_bind (a := [rootE (a : ℚ)]) ?_ (tot_passes (by simp) (by simp only [simplPreparedFactors]; exact tot_pure _))
      refine tot_contractConst fun i j x y hij hi hj => ?_
      match i, j with
      | 0, 0 => exact absurd rfl hij
      | 0, j + 1 => simp at hj
      | i + 1, _ => simp at hi
    · simp only [hk1, if_false, surdList_two hk1 haq]
      refine tot_bind (a := [num (.rat k), rootE (a : ℚ)]) ?_ (tot_passes (by simp [numNotPow]) (by
        simp only [simplPreparedFactors]
        exact (tot_twoFactors (D := D) (cfg := cfg) (sm_int hk ha) ha1 hk1).1))
      have na := two_num (D := D) (cfg := cfg) (sm_int hk ha) ha1
      rw [surdList_two hk1 haq] at na
      unfold contractConst
      refine tot_loop (f := fun E => contractConstStep E) ?_
      refine .next _ ([num (.rat k), rootE (a : ℚ)], 0, 1) ?_ (.next _ ([num (.rat k), rootE (a : ℚ)], 0, 2) ?_
        (.next _ ([num (.rat k), rootE (a : ℚ)], 1, 1) ?_ (.next _ ([num (.rat k), rootE (a : ℚ)], 1, 2) ?_ (.next _ ([num (.rat k), rootE (a : ℚ)], 2, 2) ?_ (.done _ ?_)))))
      · simp only [contractConstStep, List.getElem?_cons_zero, if_true, Nat.zero_add]; exact tot_pure _
      · simp only [contractConstStep, List.getElem?_cons_zero, List.getElem?_cons_succ, icn, icr ha1, Bool.and_self, if_true,
          show ¬ ((0 : ℕ) = 1) by decide, if_false]
        refine tot_bind na ?_
        simp only [List.set_cons_zero, List.set_cons_succ]
        exact tot_pure _
      · simp only [contractConstStep, List.getElem?_cons_zero, List.getElem?_cons_succ, List.getElem?_nil]; exact tot_pure _
      · simp only [contractConstStep, List.getElem?_cons_zero, List.getElem?_cons_succ, if_true]; exact tot_pure _
      · simp only [contractConstStep, List.getElem?_cons_zero, List.getElem?_cons_succ, List.getElem?_nil]; exact tot_pure _
      · simp only [contractConstStep, List.getElem?_cons_succ, List.getElem?_nil]; exact tot_pure _
  obtain ⟨N, hN⟩ := key
  refine ⟨N, fun n hn => ?_⟩
  have := hN n hn
  unfold prepareConst
  dsimp only at this ⊢
  rw [hcfg, hw2, hq]
  simpa only [bind_assoc] using this

theorem em_surd (q : ℚ) (n : ℕ) : (em (q, n) : Expr D) = surd q n := rfl

/-- A product whose factors are simplified to the factors of a multiple of a root. -/
theorem tot_prod_of {k l : ℤ} {a b : ℕ} (ha : SM (k : ℚ) a) (hb : SM (l : ℚ) b) {s r : ℚ}
    (h : Tot cfg (fun E => simplProd E [em ((k : ℚ), a), (em ((l : ℚ), b) : Expr D)]) (surdList s r)) :
    Tot cfg (fun E => prodCreate E [em ((k : ℚ), a), (em ((l : ℚ), b) : Expr D)]) (surd s r) := by
  simp only [prodCreate, List.any_cons, List.any_nil, SM.isUndefined (D := D) (m := ((k : ℚ), a)) ha, SM.isUndefined (D := D) (m := ((l : ℚ), b)) hb,
    SM.isZero (D := D) (m := ((k : ℚ), a)) ha, SM.isZero (D := D) (m := ((l : ℚ), b)) hb, Bool.or_self, Bool.false_eq_true, if_false]
  exact tot_bind (tot_prodSimplify h) (tot_surdList s r)

/-- The product of two integer multiples of roots. -/
theorem tot_mul_em (hc : cfg.Ok) (hub : cfg.strictUb = false) (h1 : 1 ≤ cfg.maxPrime) {k l : ℤ} {a b : ℕ} (hk : k ≠ 0) (hl : l ≠ 0)
    (ha : Squarefree a) (hb : Squarefree b) (hm : ((a * b : ℕ) : ℤ) ≤ cfg.maxPrime) :
    Tot cfg (fun E => prodCreate E [em ((k : ℚ), a), (em ((l : ℚ), b) : Expr D)]) (em (((k * l * (a.gcd b : ℕ) : ℤ) : ℚ), below a b)) := by
  have sa := sm_int hk ha
  have sb := sm_int hl hb
  have hkq : (k : ℚ) ≠ 0 := by exact_mod_cast hk
  have hlq : (l : ℚ) ≠ 0 := by exact_mod_cast hl
  have hkl : k * l ≠ 0 := mul_ne_zero hk hl
  by_cases ha1 : a = 1
  · subst ha1
    rw [Nat.gcd_one_left, below_one_left, em_one]
    push_cast
    rw [mul_one]
    by_cases hk1 : (k : ℚ) = 1
    · rw [hk1, one_mul]
      by_cases hb1 : b = 1
      · subst hb1
        rw [em_one]
        simpa using tot_num_num (D := D) (cfg := cfg) one_ne_zero hlq
      · have hbq : (b : ℚ) ≠ 1 := by exact_mod_cast hb1
        by_cases hl1 : (l : ℚ) = 1
        · rw [hl1, em_root (show ((1 : ℚ), b).2 ≠ 1 from hb1), if_pos rfl]
          exact tot_prod_one_em b hb1
        · exact tot_num_surd hc (sb.st hb1) one_ne_zero (.inr hl1) (by rwa [one_mul]) (by rw [one_mul]; exact sb.rootOf _) hl1 hbq (sb.st hb1)
    · exact tot_scale_one (m := ((l : ℚ), b)) hc sb hkq hk1 (by simp)
  have haq : (a : ℚ) ≠ 1 := by exact_mod_cast ha1
  rw [em_surd _ (below a b)]
  refine tot_prod_of sa sb ?_
  have hit : ∀ x ∈ (surdList (k : ℚ) (a : ℚ) ++ surdList (l : ℚ) (b : ℚ) : List (Expr D)), It x := by
    intro x hx
    rcases List.mem_append.1 hx with hx | hx
    · exact it_surdList x hx
    · exact it_surdList x hx
  unfold simplProd
  refine tot_bind tot_extract_em (tot_bind (tot_trig_it hit) ?_)
  have hqs : qs (surdList (k : ℚ) (a : ℚ) ++ surdList (l : ℚ) (b : ℚ) : List (Expr D)) = ((k * l : ℤ) : ℚ) := by
    rw [qs_append, qs_surdList, qs_surdList]; push_cast; rfl
  by_cases hb1 : b = 1
  · subst hb1
    rw [Nat.gcd_one_right, below_comm, below_one_left]
    have hfl : (surdList (k : ℚ) (a : ℚ) ++ surdList (l : ℚ) ((1 : ℕ) : ℚ) : List (Expr D)).filter (fun e => !e.isNumeric) = [rootE (a : ℚ)] := by
      rw [List.filter_append, filter_surdList k ha1]
      simp [surdList, Expr.isNumeric]
    have gen := tot_simplProd_one hc hkl ha ha1 hit hfl hqs
    push_cast at gen ⊢
    rw [mul_one]
    by_cases hk1 : (k : ℚ) = 1
    · rw [hk1, one_mul]
      simp only [surdList, haq, if_false, if_true, List.cons_append, List.nil_append]
      by_cases hl1 : (l : ℚ) = 1
      · have o : (num (.rat (l : ℚ)) : Expr D).isOne = true := by rw [isOne_ratE]; simpa using hl1
        simp only [hl1, if_true, simplTwoFactors, rootE_isProduct, show ∀ q : ℚ, (num (.rat q) : Expr D).isProduct = false from fun _ => rfl, Bool.or_self, Bool.false_eq_true, if_false,
          simplTwoFactorsWithoutProduct, rootE_isOne]
        rw [hl1] at o
        simp only [o, if_true]
        exact tot_pure _
      · simp only [hl1, if_false]
        exact (tot_twoFactors (D := D) (cfg := cfg) (sm_int hl ha) ha1 hl1).2
    · simp only [surdList, haq, if_false, if_true, hk1, List.cons_append, List.nil_append, Nat.cast_one] at gen ⊢
      exact gen
  have hbq : (b : ℚ) ≠ 1 := by exact_mod_cast hb1
  have hfl : (surdList (k : ℚ) (a : ℚ) ++ surdList (l : ℚ) (b : ℚ) : List (Expr D)).filter (fun e => !e.isNumeric) = [rootE (a : ℚ), rootE (b : ℚ)] := by
    rw [List.filter_append, filter_surdList k ha1, filter_surdList l hb1]; rfl
  have gen := tot_simplProd_two hc hub hkl ha hb ha1 hb1 hm h1 hit hfl hqs
  have e : ((k * l * (a.gcd b : ℕ) : ℤ) : ℚ) = ((k * l : ℤ) : ℚ) * (a.gcd b : ℕ) := by push_cast; rfl
  rw [e]
  by_cases hk1 : (k : ℚ) = 1
  · by_cases hl1 : (l : ℚ) = 1
    · have hkl1 : ((k * l : ℤ) : ℚ) = 1 := by push_cast; rw [hk1, hl1, mul_one]
      rw [hkl1, one_mul]
      have two := tot_two_roots (D := D) (cfg := cfg) ha hb ha1 hb1 hm h1
      simp only [hk1, hl1]
      have e2 : ∀ n : ℚ, n ≠ 1 → (surdList 1 n : List (Expr D)) = [rootE n] := fun n hn => by simp [surdList, hn]
      rw [e2 _ haq, e2 _ hbq]
      simp only [List.cons_append, List.nil_append, simplTwoFactors, rootE_isProduct, Bool.or_self, Bool.false_eq_true, if_false,
        simplTwoFactorsWithoutProduct, rootE_isOne, rootE_isConst, Bool.and_self, if_true]
      exact two
    · have e2 : (surdList (k : ℚ) (a : ℚ) ++ surdList (l : ℚ) (b : ℚ) : List (Expr D)) = [rootE (a : ℚ), num (.rat l), rootE (b : ℚ)] := by
        simp only [surdList, haq, hbq, hk1, hl1, if_true, if_false, List.cons_append, List.nil_append]
      rw [e2] at gen ⊢
      exact gen
  · by_cases hl1 : (l : ℚ) = 1
    · have e2 : (surdList (k : ℚ) (a : ℚ) ++ surdList (l : ℚ) (b : ℚ) : List (Expr D)) = [num (.rat k), rootE (a : ℚ), rootE (b : ℚ)] := by
        simp only [surdList, haq, hbq, hk1, hl1, if_true, if_false, List.cons_append, List.nil_append]
      rw [e2] at gen ⊢
      exact gen
    · have e2 : (surdList (k : ℚ) (a : ℚ) ++ surdList (l : ℚ) (b : ℚ) : List (Expr D)) = [num (.rat k), rootE (a : ℚ), num (.rat l), rootE (b : ℚ)] := by
        simp only [surdList, haq, hbq, hk1, hl1, if_true, if_false, List.cons_append, List.nil_append]
      rw [e2] at gen ⊢
      exact gen

end Tsym.Sd
