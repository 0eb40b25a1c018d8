import Verif.SurdMul
import Verif.TrigAll
import Verif.DiffFn

set_option autoImplicit false
set_option linter.unusedSectionVars false
set_option linter.unusedSimpArgs false
set_option linter.unusedVariables false

/-!
# Helper lemmas: products of sums of integer multiples of square roots
-/

namespace Tsym.Sd

open Expr NumPowerSimpl

variable {D : Type} [Flt D] [LawfulFlt D] {cfg : Cfg D}

/-- The product of two multiples of roots. -/
def mulM (m n : Mo) : Mo := (m.1 * n.1 * (m.2.gcd n.2 : ℕ), below m.2 n.2)

/-- An integer multiple of the root of a squarefree number. -/
structure ZM (m : Mo) : Prop where
  ne : m.1 ≠ 0
  sf : Squarefree m.2
  int : m.1.den = 1

theorem ZM.sm {m : Mo} (h : ZM m) : SM m.1 m.2 := ⟨h.ne, h.sf, by rw [h.int]; simp⟩

theorem ZM.num {m : Mo} (h : ZM m) : (m.1.num : ℚ) = m.1 := (Rat.den_eq_one_iff _).1 h.int

theorem ZM.mul {m n : Mo} (hm : ZM m) (hn : ZM n) : ZM (mulM m n) := by
  have hg : m.2.gcd n.2 ≠ 0 := (Nat.gcd_pos_of_pos_left _ (Nat.pos_of_ne_zero hm.sf.ne_zero)).ne'
  refine ⟨mul_ne_zero (mul_ne_zero hm.ne hn.ne) (by exact_mod_cast hg), below_sf hm.sf hn.sf, ?_⟩
  show (m.1 * n.1 * (m.2.gcd n.2 : ℕ)).den = 1
  rw [← hm.num, ← hn.num]
  have : (m.1.num : ℚ) * n.1.num * ((m.2.gcd n.2 : ℕ) : ℚ) = ((m.1.num * n.1.num * (m.2.gcd n.2 : ℕ) : ℤ) : ℚ) := by push_cast; rfl
  rw [this]; exact Rat.den_intCast _

theorem tot_mulM (hc : cfg.Ok) (hub : cfg.strictUb = false) (h1 : 1 ≤ cfg.maxPrime) {m n : Mo} (hm : ZM m) (hn : ZM n) (hmax : ((m.2 * n.2 : ℕ) : ℤ) ≤ cfg.maxPrime) :
    Tot cfg (fun E => prodCreate E [em m, (em n : Expr D)]) (em (mulM m n)) := by
  have hm0 : m.1.num ≠ 0 := Rat.num_ne_zero.2 hm.ne
  have hn0 : n.1.num ≠ 0 := Rat.num_ne_zero.2 hn.ne
  have := tot_mul_em (D := D) hc hub h1 hm0 hn0 hm.sf hn.sf hmax
  push_cast at this
  rw [hm.num, hn.num] at this
  exact this

theorem tot_one_em {m : Mo} (hc : cfg.Ok) (h : SM m.1 m.2) : Tot cfg (fun E => prodCreate E [one, (em m : Expr D)]) (em m) := by
  obtain ⟨q, n⟩ := m
  rw [one_eq]
  by_cases hn : n = 1
  · subst hn
    rw [em_one]
    simpa using tot_num_num (D := D) (cfg := cfg) one_ne_zero h.ne
  · have hnq : (n : ℚ) ≠ 1 := by exact_mod_cast hn
    by_cases hq : q = 1
    · subst hq
      rw [em_root (show ((1 : ℚ), n).2 ≠ 1 from hn), if_pos rfl]
      exact tot_prod_one_em n hn
    · exact tot_num_surd hc (h.st hn) one_ne_zero (.inr hq) (by rwa [one_mul]) (by rw [one_mul]; exact h.rootOf _) hq hnq (h.st hn)

/-! ## Sums -/

theorem allConst_em (K : List Mo) : allConst (K.map (em (D := D))) = true := by
  induction K with
  | nil => rfl
  | cons k K ih => simp [allConst, em_isConst, ih]

theorem sum_isConst {L : List Mo} (h2 : 2 ≤ L.length) : (Expr.sum (L.map (em (D := D)))).isConst = true := by
  match L, h2 with
  | m :: m' :: L, _ => simp only [isConst, allConst_em]; simp

theorem expand_sum {L : List Mo} (h : SL L) (h2 : 2 ≤ L.length) : Tot cfg (fun E => E.expand (.sum (L.map (em (D := D))))) (.sum (L.map em)) := by
  refine tot_expand ?_
  simp only [expand]
  refine tot_bind (a := L.map em) ?_ (tot_sum (sum_self h h2))
  have := tot_mapL (cfg := cfg) (f := fun E e => E.expand e) (g := id) (l := L.map (em (D := D))) (by
    intro e he
    obtain ⟨k, hk, rfl⟩ := List.mem_map.1 he
    exact (cs_em (h.sm k hk)).exp)
  rwa [List.map_id] at this

theorem expand_sumOf {L : List Mo} (h : SL L) : Tot cfg (fun E => E.expand (sumOf (L.map (em (D := D))))) (sumOf (L.map em)) := by
  match L, h with
  | [], _ => refine tot_expand ?_; simp only [List.map_nil, sumOf, zero_eq, expand]; exact tot_pure _
  | [m], h => exact (cs_em h.cons.1).exp
  | m :: m' :: L, h => exact expand_sum h (by simp)

theorem sumOf_two {L : List Mo} (h2 : 2 ≤ L.length) : sumOf (L.map (em (D := D))) = .sum (L.map em) := by
  match L, h2 with
  | m :: m' :: L, _ => rfl

/-- A multiple of a root times the summands of a sum. -/
theorem tot_scalarSum (hc : cfg.Ok) (hub : cfg.strictUb = false) (h1 : 1 ≤ cfg.maxPrime) {m : Mo} (hm : ZM m) {L : List Mo} (hne : L ≠ []) (hL : ∀ n ∈ L, ZM n)
    (hmax : ∀ n ∈ L, ((m.2 * n.2 : ℕ) : ℤ) ≤ cfg.maxPrime) :
    ∃ R, Tot cfg (fun E => expandScalarSum E (em m) (L.map (em (D := D)))) (sumOf (R.map em)) ∧ Added (L.map fun n => [mulM m n]) R := by
  obtain ⟨R, hR, A⟩ := tot_sumCreate (D := D) (cfg := cfg) (Ls := L.map fun n => [mulM m n]) (by simpa using hne) (by
    intro l hl
    obtain ⟨n, hn, rfl⟩ := List.mem_map.1 hl
    exact SL.single (hm.mul (hL n hn)).sm)
  refine ⟨R, ?_, A⟩
  unfold expandScalarSum
  refine tot_bind (a := L.map fun n => em (mulM m n)) ?_ (tot_sum ?_)
  · clear hR A hne
    induction L with
    | nil => exact tot_pure _
    | cons n L ih =>
      have hn := hL n (by simp)
      exact tot_bind (tot_bind (tot_prod (tot_mulM hc hub h1 hm hn (hmax n (by simp)))) (cs_em (hm.mul hn).sm).exp)
        (tot_bind (ih (fun n hn => hL n (by simp [hn])) fun n hn => hmax n (by simp [hn])) (tot_pure _))
  · rw [List.map_map] at hR
    exact hR

theorem tot_oneSum (hc : cfg.Ok) {L : List Mo} (h : SL L) (h2 : 2 ≤ L.length) :
    Tot cfg (fun E => expandScalarSum E one (L.map (em (D := D)))) (.sum (L.map em)) := by
  unfold expandScalarSum
  refine tot_bind (a := L.map em) ?_ (tot_sum (sum_self h h2))
  have sm := h.sm
  clear h h2
  induction L with
  | nil => exact tot_pure _
  | cons n L ih =>
    have hn := sm n (by simp)
    exact tot_bind (tot_bind (tot_prod (tot_one_em hc hn)) (cs_em hn).exp) (tot_bind (ih fun n hn => sm n (by simp [hn])) (tot_pure _))

/-! ## A multiple of a root times a sum -/

theorem whenFalse : (M.whenTrue (pure false) : M D Bool) = pure false := rfl

theorem ordered_or (x y : Expr D) : ordered x y = [x, y] ∨ ordered x y = [y, x] := by
  unfold ordered; split <;> simp

theorem tot_root_sum {a : ℕ} (ha1 : a ≠ 1) {l : List (Expr D)} (hS : (Expr.sum l : Expr D).isConst = true) :
    Tot cfg (fun E => simplTwoFactors E (rootE (a : ℚ)) (.sum l)) (ordered (rootE (a : ℚ)) (.sum l)) ∧
    Tot cfg (fun E => simplTwoFactors E (.sum l) (rootE (a : ℚ))) (ordered (.sum l) (rootE (a : ℚ))) := by
  have c := rootE_isConst (D := D) (a : ℚ)
  have o := rootE_isOne (D := D) (a : ℚ)
  have p := rootE_isProduct (D := D) (a : ℚ)
  rw [rootE_nat ha1] at c o p ⊢
  constructor
  · simp only [simplTwoFactors, p, show (Expr.sum l : Expr D).isProduct = false from rfl, Bool.or_self, Bool.false_eq_true, if_false, simplTwoFactorsWithoutProduct, o, c, hS,
      show (Expr.sum l : Expr D).isOne = false from rfl, Bool.and_self, if_true, simplTwoConst, haveEqualBases, Expr.base, isEqual, areNumPowersWithEqualExp,
      areNumPowersWithZeroSumExp, areNumPowersWithEqualExpDenom, show (Expr.sum l : Expr D).isNumericPower = false from rfl, Bool.and_false, Bool.false_and, whenFalse]
    exact tot_bind (a := false) (tot_pure _) (by simp only [Bool.false_eq_true, if_false]; exact tot_pure _)
  · simp only [simplTwoFactors, p, show (Expr.sum l : Expr D).isProduct = false from rfl, Bool.or_self, Bool.false_eq_true, if_false, simplTwoFactorsWithoutProduct, o, c, hS,
      show (Expr.sum l : Expr D).isOne = false from rfl, Bool.and_self, if_true, simplTwoConst, haveEqualBases, Expr.base, isEqual, areNumPowersWithEqualExp,
      areNumPowersWithZeroSumExp, areNumPowersWithEqualExpDenom, show (Expr.sum l : Expr D).isNumericPower = false from rfl, Bool.and_false, Bool.false_and, whenFalse]
    exact tot_bind (a := false) (tot_pure _) (by simp only [Bool.false_eq_true, if_false]; exact tot_pure _)

theorem tot_num_sum {k : ℚ} (hk1 : k ≠ 1) {l : List (Expr D)} (hS : (Expr.sum l : Expr D).isConst = true) :
    Tot cfg (fun E => simplTwoFactors E (num (.rat k)) (.sum l)) [num (.rat k), .sum l] := by
  have o : (num (.rat k) : Expr D).isOne = false := by rw [isOne_ratE]; simpa using hk1
  have cn : (num (.rat k) : Expr D).isConst = true := by simp [isConst]
  simp only [simplTwoFactors, show (num (.rat k) : Expr D).isProduct = false from rfl, show (Expr.sum l : Expr D).isProduct = false from rfl,
    Bool.or_self, Bool.false_eq_true, if_false, simplTwoFactorsWithoutProduct, o, show (Expr.sum l : Expr D).isOne = false from rfl, cn, hS, Bool.and_self,
    if_true, simplTwoConst, simplNumAndConst]
  exact tot_pure _

/-- contractConst changes nothing if no two constants can be joined. -/
theorem tot_contractConst_stable {u : List (Expr D)} (h : ∀ (i j : ℕ) (x y : Expr D), i < j → u[i]? = some x → u[j]? = some y →
    (isContractableConst x && isContractableConst y) = false ∨ Tot cfg (fun E => simplTwoConst E x y) [x, y]) :
    Tot cfg (fun E => contractConst E u) u := by
  unfold contractConst
  refine tot_loop (f := fun E => contractConstStep E) ?_
  suffices key : ∀ (a b i j : ℕ), u.length - i = a → u.length - j = b → i ≤ j → Rounds cfg (fun E => contractConstStep E) u (u, i, j) by
    exact key _ _ 0 0 rfl rfl (le_refl _)
  intro a
  induction a with
  | zero =>
    intro b i j hi hj _
    refine .done _ ?_
    have : u[i]? = none := List.getElem?_eq_none (by omega)
    simp only [contractConstStep, this]
    exact tot_pure _
  | succ a iha =>
    intro b
    induction b with
    | zero =>
      intro i j hi hj _
      have h1 : u[j]? = none := List.getElem?_eq_none (by omega)
      have h2 : u[i]? = some u[i] := List.getElem?_eq_getElem (by omega)
      refine .next _ (u, i + 1, i + 1) ?_ ?_
      · simp only [contractConstStep, h1, h2]
        exact tot_pure _
      · exact iha _ _ _ (by omega) rfl (le_refl _)
    | succ b ihb =>
      intro i j hi hj hle
      have h1 : u[j]? = some u[j] := List.getElem?_eq_getElem (by omega)
      have h2 : u[i]? = some u[i] := List.getElem?_eq_getElem (by omega)
      refine .next _ (u, i, j + 1) ?_ (ihb _ _ hi (by omega) (by omega))
      by_cases hij : i = j
      · simp only [contractConstStep, h1, h2, hij, if_true]
        exact tot_pure _
      · rcases h i j _ _ (by omega) h2 h1 with h0 | hT
        · simp only [contractConstStep, h1, h2, hij, if_false, h0, Bool.false_eq_true]
          exact tot_pure _
        · by_cases hcc : (isContractableConst u[i] && isContractableConst u[j]) = true
          · simp only [contractConstStep, h1, h2, hij, if_false, hcc, if_true]
            refine tot_bind hT ?_
            simp only [List.set_getElem_self]
            exact tot_pure _
          · simp only [contractConstStep, h1, h2, hij, if_false, hcc, Bool.false_eq_true]
            exact tot_pure _

theorem productOfNumerics_gen (l : List (Expr D)) (c : ℚ) (h : ∀ x ∈ l, (∃ q : ℚ, x = num (.rat q)) ∨ x.isNumeric = false) :
    productOfNumerics (.rat c) l = (.rat (c * qs l) : Number D) := by
  induction l generalizing c with
  | nil => simp [productOfNumerics, qs]
  | cons x l ih =>
    have ih := fun c => ih c fun y hy => h y (by simp [hy])
    unfold qs at ih ⊢
    rcases h x (by simp) with ⟨q, rfl⟩ | hx
    · simp only [productOfNumerics, Number.mul, ih, List.map_cons, List.prod_cons, qOf, mul_assoc]
    · have e : qOf x = 1 := by cases x <;> first | rfl | exact Bool.noConfusion hx
      have e2 : productOfNumerics (.rat c) (x :: l) = (productOfNumerics (.rat c) l : Number D) := by cases x <;> first | rfl | exact Bool.noConfusion hx
      rw [e2, ih, List.map_cons, List.prod_cons, e, one_mul]

/-- Three factors: a number, a root and a sum. -/
theorem tot_prep_three (hc : cfg.Ok) {k : ℤ} {a : ℕ} (hk : k ≠ 0) (hk1 : (k : ℚ) ≠ 1) (ha : Squarefree a) (ha1 : a ≠ 1) {l : List (Expr D)} (hS : (Expr.sum l : Expr D).isConst = true)
    (hex : Exact (Expr.sum l : Expr D)) {us : List (Expr D)} (hus : us.Perm [num (.rat k), rootE (a : ℚ), .sum l]) :
    ∃ r, Tot cfg (fun E => prepareConst E us >>= simplPreparedFactors E) r ∧
      (r = [num (.rat k), rootE (a : ℚ), .sum l] ∨ r = [num (.rat k), .sum l, rootE (a : ℚ)]) := by
  have haq : (a : ℚ) ≠ 1 := by exact_mod_cast ha1
  have hcfg : ∀ n, (eng cfg n).cfg = cfg := fun n => by
    induction n with
    | zero => rfl
    | succ n ih => exact ih
  have hnum := It.notNum (D := D) ha1
  have hperm := (hc.sort doPermute us).trans hus
  have hcn : contractNumerics (cfg.sort doPermute us) = [num (.rat k), rootE (a : ℚ), .sum l] ∨
      contractNumerics (cfg.sort doPermute us) = [num (.rat k), .sum l, rootE (a : ℚ)] := by
    have e : productOfNumerics 1 (cfg.sort doPermute us) = (.rat k : Number D) := by
      rw [Number.one_def, productOfNumerics_gen _ 1 (by
        intro x hx
        have := hperm.mem_iff.1 hx
        simp only [List.mem_cons, List.not_mem_nil, or_false] at this
        rcases this with rfl | rfl | rfl
        · exact .inl ⟨_, rfl⟩
        · exact .inr hnum
        · exact .inr rfl), qs_perm hperm, one_mul]
      rw [rootE_nat ha1]; simp [qs, qOf]
    have hf : ([num (.rat (k : ℚ)), (rootE (a : ℚ) : Expr D), .sum l]).filter (fun e => !e.isNumeric) = [rootE (a : ℚ), .sum l] := by
      rw [List.filter_cons_of_neg (by simp [Expr.isNumeric]), List.filter_cons_of_pos (by simp [hnum]), List.filter_cons_of_pos (by simp [Expr.isNumeric]), List.filter_nil]
    have hp := hperm.filter (fun e : Expr D => !e.isNumeric)
    rw [hf] at hp
    unfold contractNumerics
    rw [e, rat_eqv_one]
    simp only [hk1, decide_false, Bool.not_false, Bool.true_or, if_true, List.cons.injEq, true_and]
    generalize (cfg.sort doPermute us).filter (fun e => !e.isNumeric) = w at hp
    match w, hp with
    | [x, y], hp =>
      have hl := hp.mem_iff (a := (rootE (a : ℚ) : Expr D))
      simp only [List.mem_cons, List.not_mem_nil, or_false, true_or, iff_true] at hl
      rcases hl with rfl | rfl
      · have := (List.perm_cons _).1 hp
        rw [List.perm_singleton] at this
        simp only [List.cons.injEq, and_true] at this
        rw [this]; exact .inl rfl
      · have := (List.perm_cons _).1 ((List.Perm.swap _ _ _).trans hp)
        rw [List.perm_singleton] at this
        simp only [List.cons.injEq, and_true] at this
        rw [this]; exact .inr rfl
    | [], hp => have := hp.length_eq; simp at this
    | [_], hp => have := hp.length_eq; simp at this
    | _ :: _ :: _ :: _, hp => have := hp.length_eq; simp at this
  have na := two_num (D := D) (cfg := cfg) (sm_int hk ha) ha1
  rw [surdList_two hk1 haq] at na
  have ics : isContractableConst (Expr.sum l : Expr D) = false := by simp [isContractableConst, Expr.isNumeric, Expr.isNumericPower]
  -- the merge with the number
  have merge1 : Tot cfg (fun E => E.mergeProd [num (.rat (k : ℚ))] [(rootE (a : ℚ) : Expr D), .sum l]) [num (.rat k), rootE (a : ℚ), .sum l] := by
    refine tot_mergeProd ?_
    simp only [mergeProd]
    refine tot_bind (tot_twoFactors (D := D) (cfg := cfg) (sm_int hk ha) ha1 hk1).1 ?_
    have : areEqual [num (.rat (k : ℚ)), (rootE (a : ℚ) : Expr D)] [num (.rat (k : ℚ)), rootE (a : ℚ)] = true := by
      simp [areEqual, isEqual_refl (rootE_exact (D := D) (a : ℚ)), isEqual, Number.rat_eqv]
    simp only [this, if_true]
    refine tot_bind (a := [rootE (a : ℚ), .sum l]) (tot_mergeProd ?_) (tot_pure _)
    simp only [mergeProd]; exact tot_pure _
  have merge2 : Tot cfg (fun E => E.mergeProd [num (.rat (k : ℚ))] [.sum l, (rootE (a : ℚ) : Expr D)]) [num (.rat k), .sum l, rootE (a : ℚ)] := by
    refine tot_mergeProd ?_
    simp only [mergeProd]
    refine tot_bind (tot_num_sum hk1 hS) ?_
    have : areEqual [num (.rat (k : ℚ)), .sum l] [num (.rat (k : ℚ)), (.sum l : Expr D)] = true := by
      have h1 := isEqual_refl hex
      simp [areEqual, h1, isEqual, Number.rat_eqv] at h1 ⊢
      exact h1
    simp only [this, if_true]
    refine tot_bind (a := [.sum l, rootE (a : ℚ)]) (tot_mergeProd ?_) (tot_pure _)
    simp only [mergeProd]; exact tot_pure _
  have fin : ∀ w : List (Expr D), (w = [rootE (a : ℚ), .sum l] ∨ w = [.sum l, rootE (a : ℚ)]) →
      ∃ r, Tot cfg (fun E => E.mergeProd [num (.rat (k : ℚ))] w) r ∧ (r = [num (.rat k), rootE (a : ℚ), .sum l] ∨ r = [num (.rat k), .sum l, rootE (a : ℚ)]) := by
    rintro w (rfl | rfl)
    · exact ⟨_, merge1, .inl rfl⟩
    · exact ⟨_, merge2, .inr rfl⟩
  have ext : ∀ x y : Expr D, (x = rootE (a : ℚ) ∧ y = .sum l ∨ x = .sum l ∧ y = rootE (a : ℚ)) →
      Tot cfg (fun E => extractProducts E [x, y]) [x, y] ∧ Tot cfg (fun E => contractTrigonometrics E [x, y]) [x, y] := by
    intro x y hxy
    have px : x.isProduct = false ∧ y.isProduct = false := by
      rcases hxy with ⟨rfl, rfl⟩ | ⟨rfl, rfl⟩
      · exact ⟨rootE_isProduct _, rfl⟩
      · exact ⟨rfl, rootE_isProduct _⟩
    have tr : ∀ z : Expr D, z = x ∨ z = y → isContractableTrigFctPower z = pure false := by
      intro z hz
      have hz : z = rootE (a : ℚ) ∨ z = .sum l := by
        rcases hxy with ⟨rfl, rfl⟩ | ⟨rfl, rfl⟩
        · exact hz
        · exact hz.symm
      rcases hz with rfl | rfl
      · exact rootE_trig _
      · rfl
    refine ⟨?_, ?_⟩
    · have := tot_extract (cfg := cfg) (u := [x, y]) (by
        intro ops hops
        simp only [List.mem_cons, List.not_mem_nil, or_false] at hops
        rcases hops with e | e
        · have := px.1; rw [← e] at this; cases this
        · have := px.2; rw [← e] at this; cases this)
      have f : ∀ e : Expr D, e.isProduct = false → factors e = [e] := fun e h => by cases e <;> first | rfl | exact Bool.noConfusion h
      simpa only [List.flatMap_cons, List.flatMap_nil, f x px.1, f y px.2, List.append_nil, List.cons_append, List.nil_append] using this
    · refine tot_contract (simpl := fun E => contractTrigFctPowers E) fun z hz z' hz' => ?_
      simp only [List.mem_cons, List.not_mem_nil, or_false] at hz
      unfold areContractableTrigFctPowers
      rw [tr z hz]; rfl
  have main : ∀ x y : Expr D, (x = rootE (a : ℚ) ∧ y = .sum l ∨ x = .sum l ∧ y = rootE (a : ℚ)) →
      ∃ r, Tot cfg (fun E => (contractConst E [num (.rat (k : ℚ)), x, y]) >>= fun u =>
        contract E (fun a b => pure (areNumPowersWithEqualExp a b)) (simplTwoEqualExp E) u >>= fun u =>
        contract E (fun a b => pure (areNumPowersWithEqualExpDenom a b)) (simplTwoEqualExpDenom E) u >>= fun v => simplPreparedFactors E v) r ∧
        (r = [num (.rat k), rootE (a : ℚ), .sum l] ∨ r = [num (.rat k), .sum l, rootE (a : ℚ)]) := by
    intro x y hxy
    obtain ⟨w, hw, hww⟩ : ∃ w, Tot cfg (fun E => simplTwoFactors E x y) w ∧ (w = [rootE (a : ℚ), .sum l] ∨ w = [.sum l, rootE (a : ℚ)]) := by
      obtain ⟨t1, t2⟩ := tot_root_sum (D := D) (cfg := cfg) ha1 hS
      rcases hxy with ⟨rfl, rfl⟩ | ⟨rfl, rfl⟩
      · exact ⟨_, t1, ordered_or _ _⟩
      · exact ⟨_, t2, (ordered_or _ _).symm⟩
    obtain ⟨r, hr, hrr⟩ := fin w hww
    obtain ⟨e1, e2⟩ := ext x y hxy
    refine ⟨r, tot_bind (a := [num (.rat (k : ℚ)), x, y]) (tot_contractConst_stable ?_) (tot_passes ?_ ?_), hrr⟩
    · intro i j u v hij hu hv
      match i, j, hij with
      | 0, 1, _ =>
        simp only [List.getElem?_cons_zero, List.getElem?_cons_succ, Option.some.injEq] at hu hv
        subst hu hv
        rcases hxy with ⟨rfl, rfl⟩ | ⟨rfl, rfl⟩
        · exact .inr na
        · exact .inl (by simp [ics])
      | 0, 2, _ =>
        simp only [List.getElem?_cons_zero, List.getElem?_cons_succ, Option.some.injEq] at hu hv
        subst hu hv
        rcases hxy with ⟨rfl, rfl⟩ | ⟨rfl, rfl⟩
        · exact .inl (by simp [ics])
        · exact .inr na
      | 1, 2, _ =>
        simp only [List.getElem?_cons_zero, List.getElem?_cons_succ, Option.some.injEq] at hu hv
        subst hu hv
        rcases hxy with ⟨rfl, rfl⟩ | ⟨rfl, rfl⟩ <;> exact .inl (by simp [ics])
      | _, j + 3, _ => simp at hv
      | i + 2, 2, h => omega
      | i + 1, 1, h => omega
      | _, 0, h => omega
    · have hs : (Expr.sum l : Expr D).isNumericPower = false := rfl
      rcases hxy with ⟨rfl, rfl⟩ | ⟨rfl, rfl⟩ <;> simp [numNotPow, hs]
    · simp only [simplPreparedFactors]
      refine tot_bind (tot_simplProd ?_) hr
      unfold simplProd
      exact tot_bind e1 (tot_bind e2 hw)
  have conv : ∀ {w r : List (Expr D)}, contractNumerics (cfg.sort doPermute us) = w →
      Tot cfg (fun E => (contractConst E w) >>= fun u =>
        contract E (fun a b => pure (areNumPowersWithEqualExp a b)) (simplTwoEqualExp E) u >>= fun u =>
        contract E (fun a b => pure (areNumPowersWithEqualExpDenom a b)) (simplTwoEqualExpDenom E) u >>= fun v => simplPreparedFactors E v) r →
      Tot cfg (fun E => prepareConst E us >>= simplPreparedFactors E) r := by
    rintro w r hw ⟨N, hN⟩
    refine ⟨N, fun n hn => ?_⟩
    have := hN n hn
    unfold prepareConst
    dsimp only at this ⊢
    rw [hcfg, hw]
    simpa only [bind_assoc] using this
  rcases hcn with hcn | hcn
  · obtain ⟨r, hr, hrr⟩ := main _ _ (.inl ⟨rfl, rfl⟩)
    exact ⟨r, conv hcn hr, hrr⟩
  · obtain ⟨r, hr, hrr⟩ := main _ _ (.inr ⟨rfl, rfl⟩)
    exact ⟨r, conv hcn hr, hrr⟩

theorem sum_exact (L : List Mo) : Exact (Expr.sum (L.map (em (D := D)))) := by
  refine exact_of_op (by simp) (by simp) fun o ho => ?_
  simp only [operands] at ho
  obtain ⟨m, _, rfl⟩ := List.mem_map.1 ho
  exact em_exact m

theorem root_exp {a : ℕ} (ha : Squarefree a) (ha1 : a ≠ 1) : Tot cfg (fun E => E.expand (rootE (a : ℚ) : Expr D)) (rootE (a : ℚ)) := by
  have h : SM (1 : ℚ) a := ⟨one_ne_zero, ha, by simp⟩
  have := (cs_em (D := D) (cfg := cfg) (m := (1, a)) h).exp
  rwa [em_root (show ((1 : ℚ), a).2 ≠ 1 from ha1), if_pos rfl] at this

/-- A multiple of a root times a sum. -/
theorem tot_em_sum (hc : cfg.Ok) (hub : cfg.strictUb = false) (h1 : 1 ≤ cfg.maxPrime) {m : Mo} (hm : ZM m) {L : List Mo} (hL : SL L) (h2 : 2 ≤ L.length) (hZ : ∀ n ∈ L, ZM n)
    (hmax : ∀ n ∈ L, ((m.2 * n.2 : ℕ) : ℤ) ≤ cfg.maxPrime) :
    ∃ R, Tot cfg (fun E => prodCreate E [em m, .sum (L.map (em (D := D)))]) (sumOf (R.map em)) ∧ Added (L.map fun n => [mulM m n]) R := by
  obtain ⟨q, a⟩ := m
  have hne : L ≠ [] := by rintro rfl; simp at h2
  have hS := sum_isConst (D := D) h2
  have hxs := expand_sum (D := D) (cfg := cfg) hL h2
  have hex := sum_exact (D := D) L
  obtain ⟨R, hR, A⟩ := tot_scalarSum (D := D) hc hub h1 hm hne hZ hmax
  refine ⟨R, ?_, A⟩
  have hcoR : ∀ {K : List Mo}, SL K → co K = ((L.map fun n => [mulM (q, a) n]).map co).sum → R = K := fun hK h => SL.ext A.sl hK (by rw [A.co, h])
  generalize hl : L.map (em (D := D)) = l at *
  have uS : (Expr.sum l : Expr D).isUndefined = false := rfl
  have zS : (Expr.sum l : Expr D).isZero = false := rfl
  have hsm := hm.sm
  by_cases ha1 : a = 1
  · subst ha1
    by_cases hq1 : q = 1
    · -- one
      subst hq1
      have e : R = L := hcoR hL (by
        rw [List.map_map]
        unfold co
        congr 1
        refine List.map_congr_left fun n _ => ?_
        simp [mulM, below_one_left, co])
      rw [e, sumOf_two (D := D) h2, em_one]
      have := tot_one_gen (D := D) (cfg := cfg) (e := .sum l) rfl rfl rfl
      rw [hl]
      exact this
    · have e : R = scale q L := hcoR (hL.scale hm.ne (by rw [hm.int]; simp)) (by
        rw [List.map_map]
        unfold co Sd.scale
        rw [List.map_map]
        congr 1
        refine List.map_congr_left fun n _ => ?_
        simp [mulM, below_one_left, co])
      have := tot_scale (D := D) hc hL hm.ne hq1 (by rw [hm.int]; simp)
      rw [sumOf_two h2, hl, ← e] at this
      rw [em_one]
      exact this
  · have haq : (a : ℚ) ≠ 1 := by exact_mod_cast ha1
    have hsf : Squarefree a := hm.sf
    have hrx := root_exp (D := D) (cfg := cfg) hsf ha1
    have emx := em_root (D := D) (m := (q, a)) ha1
    have hrs : (rootE (a : ℚ) : Expr D).isSum = false := rootE_isSum _
    have hcr := rootE_isConst (D := D) (a : ℚ)
    -- what remains after the factors are found
    have fin : ∀ {sc : List (Expr D)} {v : List (Expr D)}, Tot cfg (fun E => defScalarAndSums E v) (sc, [.sum l]) → sc ≠ [] →
        Tot cfg (fun E => E.prodCreate sc) (em (q, a)) → Tot cfg (fun E => E.expandAsProduct v) (sumOf (R.map (em (D := D)))) := by
      intro sc v hd hsc hp
      refine tot_expandAsProduct (tot_expandAsProduct_cons hd (scalar := em (q, a)) ?_ (ops := l) ?_ ?_)
      · rw [List.isEmpty_eq_false_iff.2 hsc]; exact hp
      · simp only [expandSums]; exact tot_pure _
      · exact hR
    have ne : ∀ v : List (Expr D), v ≠ [] → (∀ x ∈ v, x.isConst = true) → (.sum l) ∈ v → needsExpansion v = true := by
      intro v hv hvc hvs
      have c1 : constElements v = v := by
        simp only [constElements]; exact List.filter_eq_self.2 fun x hx => hvc x hx
      have c2 : nonConstElements v = [] := by
        simp only [nonConstElements]; exact List.filter_eq_nil_iff.2 fun x hx => by simp [hvc x hx]
      unfold needsExpansion
      rw [c1, c2]
      have : v.any isSum = true := List.any_eq_true.2 ⟨_, hvs, rfl⟩
      have h0 : v.isEmpty = false := List.isEmpty_eq_false_iff.2 hv
      simp [h0, this]
    have cn : (num (.rat q) : Expr D).isConst = true := by simp [isConst]
    by_cases hq1 : q = 1
    · subst hq1
      simp only [if_true] at emx
      rw [emx] at fin ⊢
      simp only [prodCreate, List.any_cons, List.any_nil, rootE_isUndefined, rootE_isZero, uS, zS, Bool.or_self, Bool.false_eq_true, if_false]
      have hsing : Tot cfg (fun E => E.prodCreate [(rootE (a : ℚ) : Expr D)]) (rootE (a : ℚ)) := tot_prod (tot_prod_single (rootE_isUndefined _) (rootE_isZero _))
      have hsimp : Tot cfg (fun E => simplProd E [(rootE (a : ℚ) : Expr D), .sum l]) (ordered (rootE (a : ℚ)) (.sum l)) := by
        unfold simplProd
        refine tot_bind (a := [rootE (a : ℚ), .sum l]) (Tsym.TrigProd.tot_extract_two (rootE_isProduct _) rfl) (tot_bind (a := [rootE (a : ℚ), .sum l]) ?_ (tot_root_sum ha1 hS).1)
        refine tot_contract_pw (simpl := fun E => contractTrigFctPowers E) ?_
        simp only [List.pairwise_cons, List.mem_cons, List.not_mem_nil, or_false, forall_eq, List.Pairwise.nil, and_true, false_imp_iff, implies_true]
        unfold areContractableTrigFctPowers
        rw [rootE_trig]; rfl
      refine tot_bind (tot_prodSimplify hsimp) ?_
      rcases ordered_or (rootE (a : ℚ) : Expr D) (.sum l) with e | e <;> rw [e]
      · simp only [ne [rootE (a : ℚ), .sum l] (by simp) (by simp [hcr, hS]) (by simp), if_true]
        refine fin (sc := [rootE (a : ℚ)]) ?_ (by simp) hsing
        simp only [defScalarAndSums]
        refine tot_bind hrx (tot_bind (a := ([], [.sum l])) (tot_bind hxs (tot_bind (a := ([], [])) (tot_pure _) ?_)) ?_)
        · simp only [show (Expr.sum l : Expr D).isSum = true from rfl, if_true]; exact tot_pure _
        · simp only [hrs, Bool.false_eq_true, if_false]; exact tot_pure _
      · simp only [ne [.sum l, rootE (a : ℚ)] (by simp) (by simp [hcr, hS]) (by simp), if_true]
        refine fin (sc := [rootE (a : ℚ)]) ?_ (by simp) hsing
        simp only [defScalarAndSums]
        refine tot_bind hxs (tot_bind (a := ([rootE (a : ℚ)], [])) (tot_bind hrx (tot_bind (a := ([], [])) (tot_pure _) ?_)) ?_)
        · simp only [hrs, Bool.false_eq_true, if_false]; exact tot_pure _
        · simp only [show (Expr.sum l : Expr D).isSum = true from rfl, if_true]; exact tot_pure _
    · simp only [hq1, if_false] at emx
      have hnum := hm.num
      have hk0 : q.num ≠ 0 := Rat.num_ne_zero.2 hm.ne
      obtain ⟨r, hr, hrr⟩ := tot_prep_three (D := D) hc hk0 (by rw [hnum]; exact hq1) hsf ha1 hS hex (List.Perm.refl _)
      simp only at hnum
      rw [hnum] at hr hrr
      have hnx : Tot cfg (fun E => E.expand (num (.rat q) : Expr D)) (num (.rat q)) := (cs_num hm.ne).exp
      have hns : (num (.rat q) : Expr D).isSum = false := rfl
      have hpr : Tot cfg (fun E => E.prodCreate [num (.rat q), (rootE (a : ℚ) : Expr D)]) (.prod [num (.rat q), rootE (a : ℚ)]) :=
        tot_prod ((hsm.st ha1).tot_prod hq1)
      rw [emx] at fin ⊢
      simp only [prodCreate, List.any_cons, List.any_nil, show (Expr.prod [num (.rat q), (rootE (a : ℚ) : Expr D)]).isUndefined = false from rfl,
        show (Expr.prod [num (.rat q), (rootE (a : ℚ) : Expr D)]).isZero = false from rfl, uS, zS, Bool.or_self, Bool.false_eq_true, if_false]
      refine tot_bind (a := r) (tot_prodSimplify ?_) ?_
      · unfold simplProd
        refine tot_bind (a := [num (.rat q), rootE (a : ℚ), .sum l]) ?_ ?_
        · have := tot_extract (cfg := cfg) (u := [.prod [num (.rat q), rootE (a : ℚ)], (.sum l : Expr D)]) (by
            intro ops hl y hy
            simp only [List.mem_cons, List.not_mem_nil, or_false, Expr.prod.injEq] at hl
            rcases hl with hl | hl
            · subst hl
              simp only [List.mem_cons, List.not_mem_nil, or_false] at hy
              rcases hy with rfl | rfl
              · rfl
              · exact rootE_isProduct _
            · cases hl)
          exact this
        · refine tot_bind (a := [num (.rat q), rootE (a : ℚ), .sum l]) ?_ hr
          refine tot_contract_pw (simpl := fun E => contractTrigFctPowers E) ?_
          simp only [List.pairwise_cons, List.mem_cons, List.not_mem_nil, or_false, forall_eq_or_imp, forall_eq, List.Pairwise.nil, and_true, false_imp_iff, implies_true, num_trig_pair,
            true_and]
          unfold areContractableTrigFctPowers
          rw [rootE_trig]; rfl
      · rcases hrr with rfl | rfl
        · simp only [ne [num (.rat q), rootE (a : ℚ), .sum l] (by simp) (by simp [hcr, hS, cn]) (by simp), if_true]
          refine fin (sc := [num (.rat q), rootE (a : ℚ)]) ?_ (by simp) hpr
          simp only [defScalarAndSums]
          refine tot_bind hnx (tot_bind (a := ([rootE (a : ℚ)], [.sum l])) (tot_bind hrx (tot_bind (a := ([], [.sum l])) (tot_bind hxs (tot_bind (a := ([], [])) (tot_pure _) ?_)) ?_)) ?_)
          · simp only [show (Expr.sum l : Expr D).isSum = true from rfl, if_true]; exact tot_pure _
          · simp only [hrs, Bool.false_eq_true, if_false]; exact tot_pure _
          · simp only [hns, Bool.false_eq_true, if_false]; exact tot_pure _
        · simp only [ne [num (.rat q), .sum l, rootE (a : ℚ)] (by simp) (by simp [hcr, hS, cn]) (by simp), if_true]
          refine fin (sc := [num (.rat q), rootE (a : ℚ)]) ?_ (by simp) hpr
          simp only [defScalarAndSums]
          refine tot_bind hnx (tot_bind (a := ([rootE (a : ℚ)], [.sum l])) (tot_bind hxs (tot_bind (a := ([rootE (a : ℚ)], [])) (tot_bind hrx (tot_bind (a := ([], [])) (tot_pure _) ?_)) ?_)) ?_)
          · simp only [hrs, Bool.false_eq_true, if_false]; exact tot_pure _
          · simp only [show (Expr.sum l : Expr D).isSum = true from rfl, if_true]; exact tot_pure _
          · simp only [hns, Bool.false_eq_true, if_false]; exact tot_pure _

end Tsym.Sd
