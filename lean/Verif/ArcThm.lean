import Verif.ArcEval

set_option autoImplicit false
set_option linter.unusedSectionVars false
set_option linter.unusedSimpArgs false
set_option linter.unusedVariables false

/-!
# Functions of arc functions of a symbol, helpers for C78
-/

namespace Tsym

namespace Arc

open Expr TrigProd

variable {D : Type} [Flt D] [LawfulFlt D] {cfg : Cfg D}

/-- The square of a symbol. -/
abbrev sq (s : Sym) : Expr D := .pow (.sym s) (.num (.rat 2))

theorem sq_symFac (s : Sym) : (sq s : Expr D) = symFac (s, 2) := by simp [symFac, fac, Expr.int]

theorem ep_sq {s : Sym} (hs : s.id.Ok) : EP (sq s : Expr D) := by rw [sq_symFac]; exact EP.symFac ⟨hs, by omega⟩

theorem poly_sq (s : Sym) : poly (sq s : Expr D) = MvPolynomial.X s ^ 2 := by
  rw [sq_symFac]; simp [symFac, fac, poly, Expr.int]

/-- One plus a multiple of the square. -/
def Wp (s : Sym) : Expr D := .sum [one, sq s]
def Wm (s : Sym) : Expr D := .sum [one, .prod [mOne, sq s]]

theorem key_sq {s : Sym} (hs : s.id.Ok) : IsKey (Key.facs [(s, 2)] : List (Expr D × ℕ)) [(s, 2)] := by
  refine ⟨?_, by simp [Key.Sorted], rfl⟩
  intro y hy; rw [List.mem_singleton.1 hy]; exact ⟨hs, by omega⟩

theorem el_two {s : Sym} (hs : s.id.Ok) {q : ℚ} (hq : q ≠ 0) : EL ([(1, []), (q, Key.facs [(s, 2)])] : List (Mono D)) := by
  have k0 : IsKey ([] : List (Expr D × ℕ)) [] := ⟨by intro y hy; simp at hy, by simp [Key.Sorted], rfl⟩
  refine ⟨by simp [hq], ⟨?_, ?_⟩⟩
  · intro m hm
    simp only [List.mem_cons, List.not_mem_nil, or_false] at hm
    rcases hm with rfl | rfl
    exacts [⟨_, k0⟩, ⟨_, key_sq hs⟩]
  · simp only [List.pairwise_cons, List.mem_singleton, forall_eq, List.not_mem_nil, false_implies, implies_true, List.Pairwise.nil, and_true]
    intro K K' h h'
    have e1 : K = [] := Key.facs_inj (D := D) (h.2.2.symm.trans rfl)
    have e2 : K' = [(s, 2)] := Key.facs_inj (D := D) (h'.2.2.symm.trans rfl)
    subst e1 e2
    rfl

theorem ep_Wp {s : Sym} (hs : s.id.Ok) : EP (Wp s : Expr D) := ⟨_, el_two hs one_ne_zero, by
  simp [Wp, em, mexpr, rl, prodOf, Key.facs, sumOf, fac, Expr.int]⟩
theorem ep_Wm {s : Sym} (hs : s.id.Ok) : EP (Wm s : Expr D) := ⟨_, el_two hs (q := -1) (by norm_num), by
  simp [Wm, em, mexpr, rl, prodOf, Key.facs, sumOf, fac, Expr.int, mOne_rat, show ¬ ((-1 : ℚ) = 1) by norm_num]⟩

theorem poly_Wp (s : Sym) : poly (Wp s : Expr D) = 1 + MvPolynomial.X s ^ 2 := by
  rw [Wp, poly_sum]; simp [poly_sq]
  rw [one_eq, poly_ratE]; simp
theorem poly_Wm (s : Sym) : poly (Wm s : Expr D) = 1 - MvPolynomial.X s ^ 2 := by
  rw [Wm, poly_sum]
  have : poly (.prod [mOne, sq s] : Expr D) = - MvPolynomial.X s ^ 2 := by
    have := poly_prodOf (D := D) [mOne, sq s]
    simp only [prodOf] at this
    rw [this, mOne_rat]
    simp only [List.map_cons, List.map_nil, List.prod_cons, List.prod_nil, poly_ratE, poly_sq]
    simp
  simp only [List.map_cons, List.map_nil, List.sum_cons, List.sum_nil, this]
  rw [one_eq, poly_ratE]; simp; ring

theorem coeff_W (s : Sym) (c : ℚ) (d : Sym →₀ ℕ) : MvPolynomial.coeff d (1 + MvPolynomial.C c * MvPolynomial.X s ^ 2 : MvPolynomial Sym ℚ) =
    (if d = 0 then 1 else 0) + if d = Finsupp.single s 2 then c else 0 := by
  rw [MvPolynomial.coeff_add, MvPolynomial.coeff_one, MvPolynomial.coeff_C_mul, MvPolynomial.coeff_X_pow]
  simp only [eq_comm]
  congr 1
  split <;> simp

theorem gw_Wp (hc : cfg.Ok) {s : Sym} (hs : s.id.Ok) : GW cfg (Wp s) true := by
  have hp : poly (Wp s : Expr D) = 1 + MvPolynomial.C 1 * MvPolynomial.X s ^ 2 := by rw [poly_Wp]; simp
  obtain ⟨p, h1, h2⟩ := GW.of_ep hc (ep_Wp (D := D) hs) rfl (by
    rw [hp]; intro f; rw [coeff_W]
    exact ⟨(if f = 0 then 1 else 0) + if f = Finsupp.single s 2 then 1 else 0, by push_cast; ring⟩) (by
    intro h
    have := (h 0 (by rw [MvPolynomial.mem_support_iff, hp, coeff_W]; simp; split_ifs <;> norm_num)).1
    rw [hp, coeff_W] at this
    simp only [if_true] at this
    split_ifs at this <;> norm_num at this)
  have : p = true := h2.2 (by
    intro d hd
    rw [MvPolynomial.mem_support_iff, hp, coeff_W] at hd
    rw [hp, coeff_W]
    refine ⟨by split_ifs at hd ⊢ <;> simp_all, ?_⟩
    intro t
    by_cases e0 : d = 0
    · subst e0; intro _; right; simp
    · by_cases e1 : d = Finsupp.single s 2
      · subst e1; intro _; right
        rw [Finsupp.single_apply]; split <;> decide
      · simp [e0, e1] at hd)
  rw [← this]; exact h1

theorem gw_Wm (hc : cfg.Ok) {s : Sym} (hs : s.id.Ok) : GW cfg (Wm s) false := by
  have hp : poly (Wm s : Expr D) = 1 + MvPolynomial.C (-1) * MvPolynomial.X s ^ 2 := by rw [poly_Wm]; simp; ring
  have h02 : (0 : Sym →₀ ℕ) ≠ Finsupp.single s 2 := by
    intro h; have := DFunLike.congr_fun h s; simp at this
  obtain ⟨p, h1, h2⟩ := GW.of_ep hc (ep_Wm (D := D) hs) rfl (by
    rw [hp]; intro f; rw [coeff_W]
    exact ⟨(if f = 0 then 1 else 0) + if f = Finsupp.single s 2 then -1 else 0, by push_cast; ring⟩) (by
    intro h
    have := (h 0 (by rw [MvPolynomial.mem_support_iff, hp, coeff_W]; simp [h02])).1
    rw [hp, coeff_W] at this
    simp only [if_true, h02, if_false] at this
    norm_num at this)
  have : p = false := by
    rw [Bool.eq_false_iff]
    intro ht
    have := (h2.1 ht (Finsupp.single s 2) (by rw [MvPolynomial.mem_support_iff, hp, coeff_W]; simp)).1
    rw [hp, coeff_W] at this
    simp only [if_true, h02.symm, if_false] at this
    norm_num at this
  rw [← this]; exact h1

/-! ## The three roots -/

theorem two_rat : (two : Expr D) = num (.rat 2) := by simp [two]
theorem half_rat : (half : Expr D) = num (.rat (1 / 2)) := by simp [half]

theorem tot_square (s : Sym) : Tot cfg (fun E => square E (.sym s)) (sq s : Expr D) := by
  unfold square
  rw [two_rat]
  have := tot_pow (Tower.tot_power (cfg := cfg) (D := D) s 2)
  rwa [show (Tower.power s 2 : Expr D) = sq s by simp only [Tower.power]; norm_num] at this

theorem tot_minus_sq (hc : cfg.Ok) {s : Sym} (hs : s.id.Ok) : ∃ r, Tot cfg (fun E => E.minus (sq s : Expr D)) r ∧ EP r ∧ poly r = - MvPolynomial.X s ^ 2 := by
  obtain ⟨r, r1, r2, r3⟩ := tot_num_ep hc (cfg := cfg) (-1) (ep_sq (D := D) hs)
  refine ⟨r, ?_, r2, by rw [r3, poly_sq]; simp⟩
  unfold Eng.minus
  rw [mOne_rat]; exact r1

theorem tot_aux1 (hc : cfg.Ok) {s : Sym} (hs : s.id.Ok) : Tot cfg (fun E => do
    let s ← square E (.sym s)
    let m ← E.minus s
    let r ← E.sumCreate [one, m]
    E.sqrt r) (rt (Wm s) (1 / 2) : Expr D) := by
  obtain ⟨m, m1, m2, m3⟩ := tot_minus_sq hc (cfg := cfg) (D := D) hs
  have e1 : EP (one : Expr D) := by rw [one_eq]; exact EP.num 1
  obtain ⟨r, r1, r2, r3⟩ := tot_sum_ep hc (cfg := cfg) (es := [one, m]) (by simp) (by simp [e1, m2])
  have : r = Wm s := r2.unique (ep_Wm hs) (by
    rw [r3, poly_Wm]; simp only [List.map_cons, List.map_nil, List.sum_cons, List.sum_nil, m3]; rw [one_eq, poly_ratE]; simp; ring)
  subst this
  refine tot_bind (tot_square s) (tot_bind m1 (tot_bind (tot_sum r1) ?_))
  unfold Eng.sqrt
  rw [half_rat]
  exact tot_pow ((gw_Wm hc hs).pow (by norm_num) (by norm_num))

theorem tot_aux2 (hc : cfg.Ok) {s : Sym} (hs : s.id.Ok) : Tot cfg (fun E => do
    let s ← square E (.sym s)
    let r ← E.sumCreate [one, s]
    E.sqrt r) (rt (Wp s) (1 / 2) : Expr D) := by
  have e1 : EP (one : Expr D) := by rw [one_eq]; exact EP.num 1
  obtain ⟨r, r1, r2, r3⟩ := tot_sum_ep hc (cfg := cfg) (es := [one, sq s]) (by simp) (by simp [e1, ep_sq hs])
  have : r = Wp s := r2.unique (ep_Wp hs) (by
    rw [r3, poly_Wp]; simp only [List.map_cons, List.map_nil, List.sum_cons, List.sum_nil, poly_sq]; rw [one_eq, poly_ratE]; simp)
  subst this
  refine tot_bind (tot_square s) (tot_bind (tot_sum r1) ?_)
  unfold Eng.sqrt
  rw [half_rat]
  exact tot_pow ((gw_Wp hc hs).pow (by norm_num) (by norm_num))

/-- Two factors, one of them a power of a number. -/
theorem tot_three (hc : cfg.Ok) {c x : Expr D} (c1 : c.isNumericPower = true) (c3 : c.isOne = false) (c4 : c.isConst = true) (hx : Fc x)
    (n1 : x.isNumeric = false) (n2 : x.isNumericPower = false) (n3 : x.isSum = false) (hne : isEqual c.base x.base = false) (hr : isEqual x.base c.base = false) :
    ∃ r, Tot cfg (fun E => prodCreate E [c, x, num (.rat 1)]) r := by
  obtain ⟨b, e, rfl⟩ : ∃ b e, c = .pow b e := by cases c <;> first | exact ⟨_, _, rfl⟩ | cases c1
  have hb : ∃ m, b = .num m := by
    simp only [isNumericPower, Bool.and_eq_true] at c1
    cases b <;> first | exact ⟨_, rfl⟩ | (simp [isNumeric] at c1)
  obtain ⟨m, rfl⟩ := hb
  set c : Expr D := .pow (.num m) e with hcd
  have cc : ∀ y, areContractableTrigFctPowers c y = pure false := fun y => by
    unfold areContractableTrigFctPowers isContractableTrigFctPower; rfl
  have oo : ∀ y, areContractableTrigFctPowers (num (.rat 1) : Expr D) y = pure false := fun y => num_trig_pair _ _
  have h1 : [c, x, num (.rat 1)].any isUndefined = false := by simp only [List.any_cons, List.any_nil, hx.undef]; rfl
  have h2 : [c, x, num (.rat 1)].any Expr.isZero = false := by
    simp only [List.any_cons, List.any_nil, hx.zero, isZero_ratE]; rfl
  have hs := hc.sort doPermute [c, x, num (.rat 1)]
  have hf : ((cfg.sort doPermute [c, x, num (.rat 1)]).filter fun e => !e.isNumeric).Perm [c, x] := by
    have := hs.filter fun e => !e.isNumeric
    rwa [List.filter_cons_of_pos (by rfl), List.filter_cons_of_pos (by simp [n1]), List.filter_cons_of_neg (by simp [isNumeric]), List.filter_nil] at this
  have hpn : productOfNumerics (1 : Number D) (cfg.sort doPermute [c, x, num (.rat 1)]) = 1 := by
    have : ∀ (l : List (Expr D)), (∀ y ∈ l, y.isNumeric = false ∨ y = num (.rat 1)) → productOfNumerics (.rat 1 : Number D) l = .rat 1 := by
      intro l
      induction l with
      | nil => intro _; rfl
      | cons a l ih =>
        intro h
        have ih := ih fun y hy => h y (by simp [hy])
        rcases h a (by simp) with h | h
        · cases a <;> first | exact ih | simp [isNumeric] at h
        · subst h; simp only [productOfNumerics, Number.mul]; simpa using ih
    rw [Number.one_def]
    refine this _ fun y hy => ?_
    have := hs.mem_iff.1 hy
    simp only [List.mem_cons, List.not_mem_nil, or_false] at this
    rcases this with rfl | rfl | rfl
    exacts [.inl rfl, .inl n1, .inr rfl]
  obtain ⟨a, b, hab, hl⟩ : ∃ a b, ((a = c ∧ b = x) ∨ (a = x ∧ b = c)) ∧ (cfg.sort doPermute [c, x, num (.rat 1)]).filter (fun e => !e.isNumeric) = [a, b] := by
    generalize (cfg.sort doPermute [c, x, num (.rat 1)]).filter (fun e => !e.isNumeric) = L at hf
    have hlen := hf.length_eq
    match L, hlen with
    | [a, b], _ =>
      refine ⟨a, b, ?_, rfl⟩
      have := hf.mem_iff (a := a)
      simp only [List.mem_cons, List.not_mem_nil, or_false, true_or, true_iff] at this
      rcases this with rfl | rfl
      · exact .inl ⟨rfl, by simpa using (List.perm_cons _).1 hf⟩
      · exact .inr ⟨rfl, by simpa using (List.perm_cons _).1 (hf.trans (List.Perm.swap _ _ _))⟩
  have hcn : contractNumerics (cfg.sort doPermute [c, x, num (.rat 1)]) = [a, b] := by
    unfold contractNumerics
    rw [hpn, hl]
    have : (1 : Number D).eqv 1 = true := by rw [Number.one_def, eqv_rat]
    simp [this]
  have xa : a.isProduct = false ∧ b.isProduct = false ∧ a.isOne = false ∧ b.isOne = false ∧ (a.isConst && b.isConst) = false ∧
      isEqual a.base b.base = false := by
    rcases hab with ⟨rfl, rfl⟩ | ⟨rfl, rfl⟩
    · exact ⟨rfl, hx.prod, c3, hx.one, by rw [hx.const, Bool.and_false], hne⟩
    · exact ⟨hx.prod, rfl, hx.one, c3, by rw [hx.const, Bool.false_and], hr⟩
  have hnp : a.isNumericPower = false ∨ b.isNumericPower = false := by
    rcases hab with ⟨rfl, rfl⟩ | ⟨rfl, rfl⟩
    exacts [.inr n2, .inl n2]
  have hprep : Tot cfg (fun E => prepareConst E [c, x, num (.rat 1)]) [a, b] := by
    unfold prepareConst
    have key : Tot cfg (fun E => contractConst E [a, b] >>= fun u =>
      contract E (fun a b => pure (areNumPowersWithEqualExp a b)) (simplTwoEqualExp E) u >>= fun u =>
        contract E (fun a b => pure (areNumPowersWithEqualExpDenom a b)) (simplTwoEqualExpDenom E) u) [a, b] := by
      have hi : (isContractableConst a && isContractableConst b) = false := by
        unfold isContractableConst
        have := xa.2.2.2.2.1
        revert this
        cases a.isConst <;> cases b.isConst <;> simp
      refine tot_bind (a := [a, b]) (tot_contractConst ?_) (tot_bind (a := [a, b]) (tot_contract_pw ?_) (tot_contract_pw ?_))
      · intro i j y z hij hy hz
        rcases i with _ | _ | i <;> rcases j with _ | _ | j <;> simp at hy hz hij
        · subst hy hz; exact hi
        · subst hy hz; rw [Bool.and_comm]; exact hi
      · simp only [List.pairwise_cons, List.mem_singleton, forall_eq, List.not_mem_nil, false_implies, implies_true, List.Pairwise.nil, and_true]
        unfold areNumPowersWithEqualExp
        rcases hnp with h | h <;> rw [h] <;> simp
      · simp only [List.pairwise_cons, List.mem_singleton, forall_eq, List.not_mem_nil, false_implies, implies_true, List.Pairwise.nil, and_true]
        have : areNumPowersWithEqualExpDenom a b = false := by
          unfold areNumPowersWithEqualExpDenom
          split
          · simp [isNumericPower, isNumeric] at hnp
          · rfl
        rw [this]
    obtain ⟨N, hN⟩ := key
    refine ⟨N, fun n hn => ?_⟩
    have := hN n hn
    dsimp only at this ⊢
    rw [eng_cfg', hcn]; exact this
  refine ⟨.prod (ordered a b), ?_⟩
  simp only [prodCreate, h1, h2, Bool.false_eq_true, if_false]
  refine tot_bind (a := ordered a b) (tot_prodSimplify ?_) ?_
  · unfold simplProd
    refine tot_bind (a := [c, x, num (.rat 1)]) ?_ (tot_bind (a := [c, x, num (.rat 1)]) (tot_contract ?_) ?_)
    · have := tot_extract (cfg := cfg) (u := [c, x, num (.rat 1)]) (by
        intro l hl
        simp only [List.mem_cons, List.not_mem_nil, or_false] at hl
        rcases hl with h | h | h
        · rw [hcd] at h; cases h
        · rw [← h] at hx; have := hx.prod; cases this
        · cases h)
      have hfx : factors x = [x] := by cases x <;> first | rfl | (have := hx.prod; cases this)
      rw [List.flatMap_cons, List.flatMap_cons, List.flatMap_cons, hfx] at this
      exact this
    · intro y hy z hz
      simp only [List.mem_cons, List.not_mem_nil, or_false] at hy
      rcases hy with rfl | rfl | rfl
      exacts [cc _, hx.check _, oo _]
    · refine tot_bind hprep ?_
      simp only [simplPreparedFactors, simplTwoFactors, xa.1, xa.2.1, Bool.or_self, Bool.false_eq_true, if_false, simplTwoFactorsWithoutProduct, xa.2.2.1, xa.2.2.2.1,
        xa.2.2.2.2.1, haveEqualBases, xa.2.2.2.2.2]
      exact tot_pure _
  · have hn : needsExpansion (ordered a b) = false := by
      have hcs : c.isSum = false := rfl
      unfold ordered needsExpansion constElements nonConstElements
      rcases hab with ⟨rfl, rfl⟩ | ⟨rfl, rfl⟩ <;> split <;> simp [hx.const, c4, n3, hcs]
    have : ∃ y z, ordered a b = [y, z] := by unfold ordered; split <;> exact ⟨_, _, rfl⟩
    obtain ⟨y, z, e⟩ := this
    rw [e] at hn ⊢
    simp only [hn, Bool.false_eq_true, if_false]
    exact tot_pure _

theorem simple_two {max : ℤ} : Simple max 2 := by
  refine ⟨by norm_num, by norm_num, fun _ => ⟨?_, ?_⟩⟩
  · rw [show ((2 : ℚ)).num.natAbs = 2 by decide +kernel]; exact Nat.prime_two.squarefree
  · rw [show ((2 : ℚ)).den = 1 by decide +kernel]; exact squarefree_one

theorem tot_root_two : Tot cfg (fun E => powCreate E (num (.rat 2)) (num (.rat (1 / 2)))) (.pow (num (.rat 2)) (num (.rat (1 / 2))) : Expr D) := by
  have := (tot_rootE (cfg := cfg) (D := D) (simple_two (max := cfg.maxPrime))).1
  rwa [rootE, if_neg (by decide +kernel)] at this

theorem prod_nil (hc : cfg.Ok) : Tot cfg (fun E => prodCreate E ([] : List (Expr D))) (num (.rat 1)) := by
  simp only [prodCreate, List.any_nil, Bool.false_eq_true, if_false]
  refine tot_bind (a := [num (.rat 1)]) (tot_prodSimplify ?_) (tot_pure _)
  unfold simplProd
  refine tot_bind (a := []) ?_ (tot_bind (a := []) (tot_contract (by simp)) ?_)
  · simpa using tot_extract (cfg := cfg) (D := D) (u := []) (by simp)
  · obtain ⟨P, h1, h2⟩ := tot_prepare_gen hc (cfg := cfg) (D := D) (l := []) (by simp)
    have : P = [] := by simpa using h1
    subst this
    simp only [or_true, if_true, qs, List.map_nil, List.prod_nil] at h2
    exact tot_bind h2 (tot_pure _)

theorem tot_aux3 (hc : cfg.Ok) {s : Sym} (hs : s.id.Ok) : ∃ r, Tot cfg (fun E => do
    let s1 ← square E (.sym s)
    let s2 ← square E (.sym s)
    let r ← E.sumCreate [s1, s2]
    E.sqrt r) (r : Expr D) := by
  have hq : EP (.prod [num (.rat 2), sq s] : Expr D) := by
    have := EP.mono (D := D) (m := (2, Key.facs [(s, 2)])) (by norm_num) (key_sq hs)
    have e : em (2, Key.facs [(s, 2)]) = (.prod [num (.rat 2), sq s] : Expr D) := by
      simp [em, mexpr, rl, prodOf, Key.facs, fac, Expr.int]
    rwa [e] at this
  obtain ⟨r, r1, r2, r3⟩ := tot_sum_ep hc (cfg := cfg) (es := [sq s, sq s]) (by simp) (by simp [ep_sq hs])
  have : r = .prod [num (.rat 2), sq s] := r2.unique hq (by
    have := poly_prodOf (D := D) [num (.rat 2), sq s]
    simp only [prodOf] at this
    rw [r3, this]
    simp only [List.map_cons, List.map_nil, List.sum_cons, List.sum_nil, poly_sq, List.prod_cons, List.prod_nil, poly_ratE, add_zero, mul_one]
    rw [show (MvPolynomial.C 2 : MvPolynomial Sym ℚ) = 2 from map_ofNat _ 2]; ring)
  subst this
  -- the root of the square
  have h2p : Tot cfg (fun E => isPos E (num (.rat 2) : Expr D)) true := by
    simp only [isPos]
    rw [show Number.lt 0 (Number.rat 2 : Number D) = true by rw [Number.zero_def, lt_rat]; decide +kernel]
    exact tot_pure _
  have hsp : Tot cfg (fun E => isPos E (sq s : Expr D)) true := by
    simp only [isPos]
    refine tot_bind (tot_whenTrue (tot_isPos (tot_pure s.positive))) ?_
    cases s.positive
    · simp only [Bool.false_eq_true, if_false, numEval_rat]
      refine tot_bind (tot_lift rfl) ?_
      have : ((Number.rat 2 : Number D).isRational && (Number.rat 2 : Number D).numerator % 2 == 0) = true := by
        simp only [Number.numerator]
        rw [show ((2 : ℚ)).num = 2 by decide +kernel]
        rfl
      simp only [this]
      exact tot_pure _
    · exact tot_pure _
  have hir : Tower.Irred s [2] := ⟨by norm_num, by norm_num⟩
  obtain ⟨x, hx, fx, n1, n2, n3, ne1, ne2⟩ : ∃ x, Tot cfg (fun E => powCreate E (sq s : Expr D) (num (.rat (1 / 2)))) x ∧ Fc x ∧ x.isNumeric = false ∧
      x.isNumericPower = false ∧ x.isSum = false ∧ isEqual (num (.rat 2) : Expr D) x.base = false ∧ isEqual x.base (num (.rat 2)) = false := by
    have := Tower.tot_pow_expr (cfg := cfg) (D := D) s hir (q := 1 / 2) (by norm_num)
    refine ⟨_, this, ?_⟩
    simp only [Tower.raise]
    split_ifs with h1 h2 h3
    all_goals simp only [Tower.expr]
    all_goals first
      | exact ⟨fc_sym s, rfl, rfl, rfl, rfl, rfl⟩
      | exact ⟨⟨rfl, rfl, rfl, rfl, by simp [Expr.isConst], rfl⟩, rfl, rfl, rfl, rfl, rfl⟩
  obtain ⟨r, hr⟩ := tot_three hc (cfg := cfg) (c := .pow (num (.rat 2)) (num (.rat (1 / 2)))) rfl rfl rfl fx n1 n2 n3 ne1 ne2
  have hone : ∃ w, Tot cfg (fun E => powCreate E (.prod [num (.rat 2), sq s] : Expr D) (num (.rat (1 / 2)))) w := by
    have e2 : (num (.rat (1 / 2)) : Expr D).isZero = false := by rw [isZero_ratE]; decide +kernel
    have e3 : (num (.rat (1 / 2)) : Expr D).isOne = false := by rw [isOne_ratE]; decide +kernel
    have hsim : Tot cfg (fun E => simplPow E (.prod [num (.rat 2), sq s] : Expr D) (num (.rat (1 / 2)))) (r, one) := by
      unfold Tsym.simplPow
      have hng : Tot cfg (fun E => isNeg E (.prod [num (.rat 2), sq s] : Expr D)) false := by
        simp only [isNeg, signOfProduct]
        refine tot_bind (a := 1) (tot_bind (tot_whenTrue (tot_isPos h2p)) ?_) (tot_pure _)
        simp only [if_true]
        refine tot_bind (tot_whenTrue (tot_isPos hsp)) ?_
        simp only [if_true]; exact tot_pure _
      refine tot_bind (Qf.tot_noComplex hng (.inr rfl)) ?_
      simp only [Bool.false_eq_true, if_false, simplifyProductBase]
      refine tot_bind (tot_lift (Qf.isInteger_rat _)) ?_
      rw [show decide ((1 / 2 : ℚ).den = 1) = false by decide +kernel]
      refine tot_bind (a := ([num (.rat 2), sq s], [.pow (num (.rat 2)) (num (.rat (1 / 2))), x], [])) ?_ ?_
      · simp only [splitFactors, Bool.false_eq_true, if_false]
        refine tot_bind (tot_whenTrue (tot_isPos h2p)) ?_
        simp only [if_true]
        refine tot_bind (tot_pow tot_root_two) (tot_bind (a := ([sq s], [x], [])) (tot_bind (tot_whenTrue (tot_isPos hsp)) ?_) (tot_pure _))
        simp only [if_true]
        exact tot_bind (tot_pow hx) (tot_bind (tot_pure _) (tot_pure _))
      · simp only [List.isEmpty_cons, List.isEmpty_nil, Bool.or_true, Bool.not_true, Bool.false_eq_true, if_false]
        exact tot_bind (tot_logIf rfl) (tot_bind (tot_prod (prod_nil hc)) (tot_bind (tot_pow (Tower.tot_one_pow _)) (tot_bind (tot_prod hr) (tot_pure _))))
    refine ⟨r, ?_⟩
    simp only [powCreate, rat_isUndefined, show (Expr.prod [num (.rat 2), sq s] : Expr D).isUndefined = false from rfl, Bool.or_self, Bool.false_eq_true, if_false, e2,
      show (Expr.prod [num (.rat 2), sq s] : Expr D).isOne = false from rfl, show (Expr.prod [num (.rat 2), sq s] : Expr D).isZero = false from rfl, e3, powCreateNonTrivial]
    refine tot_bind (tot_simplPow hsim) ?_
    simp only [show (one : Expr D).isOne = true from isOne_one, if_true]
    exact tot_pure _
  obtain ⟨w, hw⟩ := hone
  refine ⟨w, tot_bind (tot_square s) (tot_bind (tot_square s) (tot_bind (tot_sum r1) ?_))⟩
  unfold Eng.sqrt
  rw [half_rat]
  exact tot_pow hw

/-! ## The results -/

/-- What a function of an arc function of a symbol becomes. -/
theorem rs_noInverse (hc : cfg.Ok) {s : Sym} (hs : s.id.Ok) {f g : Fn} {r : Expr D} (hr :
    f = .sin ∧ g = .acos ∧ r = rt (Wm s) (1 / 2) ∨ f = .cos ∧ g = .asin ∧ r = rt (Wm s) (1 / 2) ∨
    f = .sin ∧ g = .atan ∧ r = .prod (ordered (.sym s) (rt (Wp s) (-1 / 2))) ∨
    f = .cos ∧ g = .atan ∧ r = rt (Wp s) (-1 / 2) ∨
    f = .tan ∧ g = .asin ∧ r = .prod (ordered (.sym s) (rt (Wm s) (-1 / 2))) ∨
    f = .tan ∧ g = .acos ∧ r = .prod (ordered (rt (Wm s) (1 / 2)) (.pow (.sym s) (.num (.rat (-1)))))) :
    Rs cfg Tt (fun E => createFromTrigoNoInverse E f (some g) (.fn g (.sym s)) (.sym s) (.sym s)) r := by
  obtain ⟨w, hw⟩ := tot_aux3 hc (cfg := cfg) (D := D) hs
  unfold createFromTrigoNoInverse
  refine rs_bind (tot_capture (tot_aux1 hc hs)).rs (rs_bind (tot_capture (tot_aux2 hc hs)).rs (rs_bind (tot_capture hw).rs ?_))
  rcases hr with ⟨rfl, rfl, rfl⟩ | ⟨rfl, rfl, rfl⟩ | ⟨rfl, rfl, rfl⟩ | ⟨rfl, rfl, rfl⟩ | ⟨rfl, rfl, rfl⟩ | ⟨rfl, rfl, rfl⟩
  · exact rs_bind tot_emit.rs (tot_pure _).rs
  · exact rs_bind tot_emit.rs (tot_pure _).rs
  · exact rs_bind tot_emit.rs ((gw_Wp hc hs).over hc hs)
  · exact rs_bind tot_emit.rs ((gw_Wp hc hs).oneOver hc).rs
  · exact rs_bind tot_emit.rs ((gw_Wm hc hs).over hc hs)
  · exact rs_bind tot_emit.rs ((gw_Wm hc hs).under hc hs)

theorem perm_sq (s : Sym) : doPermute (sq s : Expr D) (.sym s) = true := by
  rw [doPermute_eq]
  have h1 : isEqual (.sym s : Expr D) (.sym s) = true := by simp [isEqual]
  simp only [permStep, permSame, permDiff, h1, Bool.not_true, Bool.false_eq_true, if_false]
  rw [doPermute_eq, one_eq]
  simp only [permStep, permSame]
  rw [lt_rat]; decide +kernel

theorem perm_Wp (s : Sym) : doPermute (Wp s : Expr D) (.sym s) = true := by
  rw [doPermute_eq]
  simp only [Wp, permStep, permSame, permDiff, permLast, List.getLast?_cons_cons, List.getLast?_singleton, show isEqual (sq s : Expr D) (.sym s) = false from rfl,
    Bool.false_eq_true, if_false, perm_sq]

theorem perm_Wm (s : Sym) : doPermute (Wm s : Expr D) (.sym s) = true := by
  rw [doPermute_eq]
  simp only [Wm, permStep, permSame, permDiff, permLast, List.getLast?_cons_cons, List.getLast?_singleton, show isEqual (.prod [mOne, sq s] : Expr D) (.sym s) = false from rfl,
    Bool.false_eq_true, if_false]
  rw [doPermute_eq]
  simp only [permStep, permSame, permDiff, permLast, List.getLast?_cons_cons, List.getLast?_singleton, show isEqual (sq s : Expr D) (.sym s) = false from rfl,
    Bool.false_eq_true, if_false, perm_sq]

theorem ordered_over {W : Expr D} {s : Sym} (hs : ∃ l, W = .sum l) (h : doPermute W (.sym s) = true) (q : ℚ) : ordered (.sym s) (rt W q) = [.sym s, rt W q] := by
  obtain ⟨l, rfl⟩ := hs
  have : doPermute (.sym s) (rt (.sum l) q) = false := by
    rw [doPermute_eq]
    simp only [permStep, permSame, permDiff, show isEqual (.sum l : Expr D) (.sym s) = false from rfl, Bool.not_false, if_true, h, Bool.not_true]
  simp only [ordered, this, Bool.false_eq_true, if_false]

theorem ordered_under {W : Expr D} {s : Sym} (hs : ∃ l, W = .sum l) (h : doPermute W (.sym s) = true) (q p : ℚ) :
    ordered (rt W q) (.pow (.sym s) (.num (.rat p))) = [.pow (.sym s) (.num (.rat p)), rt W q] := by
  obtain ⟨l, rfl⟩ := hs
  have : doPermute (rt (.sum l) q) (.pow (.sym s) (.num (.rat p))) = true := by
    rw [doPermute_eq]
    simp only [permStep, permSame, show isEqual (.sum l : Expr D) (.sym s) = false from rfl, Bool.not_false, if_true, h]
  simp only [ordered, this, if_true]

end Arc

end Tsym
