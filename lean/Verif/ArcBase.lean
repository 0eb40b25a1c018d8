import Verif.TrigAll
import Verif.NormalPoly
import Verif.PolySign
import Verif.SubstPoly

set_option autoImplicit false
set_option linter.unusedSectionVars false
set_option linter.unusedSimpArgs false
set_option linter.unusedVariables false

/-!
# Roots of polynomials as factors, helpers for C78
-/

namespace Tsym

namespace Arc

open Expr TrigProd

variable {D : Type} [Flt D] [LawfulFlt D] {cfg : Cfg D}

/-- An expanded polynomial of several terms with integer coefficients that is not known to be negative. -/
structure GW (cfg : Cfg D) (W : Expr D) (p : Bool) : Prop where
  ep : EP W
  sum : ∃ l, W = .sum l
  dv : Dv 1 (poly W)
  nc : W.isConst = false
  neg : Tot cfg (fun E => isNeg E W) false
  pos : Tot cfg (fun E => isPos E W) p
  subst : ∀ (k : ℕ) (b : Bool) (r : Expr D), k ∉ W.tmpIds → Tot cfg (fun E => subst E (.sym ⟨.tmp k, b⟩) r W) W

/-- A power of the polynomial. -/
abbrev rt (W : Expr D) (q : ℚ) : Expr D := .pow W (.num (.rat q))

variable {W : Expr D} {p : Bool}

theorem rat_isUndefined (q : ℚ) : (num (.rat q) : Expr D).isUndefined = false := rfl

theorem GW.simplPow (h : GW cfg W p) (q : ℚ) : Tot cfg (fun E => simplPow E W (num (.rat q))) (W, num (.rat q)) := by
  obtain ⟨l, hl⟩ := h.sum
  have hn := h.neg
  subst hl
  unfold Tsym.simplPow
  refine tot_bind (Qf.tot_noComplex hn (.inr rfl)) ?_
  simp only [Bool.false_eq_true, if_false]; exact tot_pure _

theorem GW.pow (h : GW cfg W p) {q : ℚ} (h0 : q ≠ 0) (h1 : q ≠ 1) : Tot cfg (fun E => powCreate E W (num (.rat q))) (rt W q) := by
  obtain ⟨l, hl⟩ := h.sum
  have hs := h.simplPow q
  subst hl
  have e2 : (num (.rat q) : Expr D).isZero = false := by rw [isZero_ratE]; simpa using h0
  have e3 : (num (.rat q) : Expr D).isOne = false := by rw [isOne_ratE]; simpa using h1
  simp only [powCreate, rat_isUndefined, show (Expr.sum l).isUndefined = false from rfl, Bool.or_self, Bool.false_eq_true, if_false, e2,
    show (Expr.sum l).isOne = false from rfl, show (Expr.sum l).isZero = false from rfl, e3, powCreateNonTrivial]
  refine tot_bind (tot_simplPow hs) ?_
  simp only [e3, show (Expr.sum l).isOne = false from rfl, Bool.false_eq_true, if_false]
  exact tot_pure _

/-- The inverse of the root. -/
theorem GW.inv (h : GW cfg W p) (hc : cfg.Ok) : Tot cfg (fun E => powCreate E (rt W (1 / 2)) (num (.rat (-1)))) (rt W (-1 / 2)) := by
  have e2 : (num (.rat (-1)) : Expr D).isZero = false := by rw [isZero_ratE]; decide
  have e3 : (num (.rat (-1)) : Expr D).isOne = false := by rw [isOne_ratE]; decide
  have e4 : (num (.rat (-1 / 2)) : Expr D).isOne = false := by rw [isOne_ratE]; decide +kernel
  have e5 : (num (.rat (-1 / 2)) : Expr D).isZero = false := by rw [isZero_ratE]; decide +kernel
  have e6 : W.isOne = false := by obtain ⟨l, rfl⟩ := h.sum; rfl
  simp only [powCreate, rat_isUndefined, show (rt W (1 / 2)).isUndefined = false from rfl, Bool.or_self, Bool.false_eq_true, if_false, e2,
    show (rt W (1 / 2)).isOne = false from rfl, show (rt W (1 / 2)).isZero = false from rfl, e3, powCreateNonTrivial]
  refine tot_bind (a := (W, num (.rat (-1 / 2)))) (tot_simplPow ?_) ?_
  · unfold Tsym.simplPow
    refine tot_bind (Qf.tot_noComplex (by simp only [isNeg]; exact tot_pure _) (.inr rfl)) ?_
    simp only [Bool.false_eq_true, if_false, simplifyPowerBase]
    refine tot_bind (a := some W) ?_ ?_
    · have := Tower.tot_newPowerBase h.pos h.neg (1 / 2) (-1)
      have hm : Merges p (1 / 2) (-1) := .inr (.inr (.inr (.inr (.inr ⟨by decide +kernel, by decide +kernel⟩))))
      rwa [if_pos hm] at this
    · dsimp only
      have := tot_prod_nums hc (cfg := cfg) (D := D) (1 / 2) (-1)
      rw [show (1 / 2 : ℚ) * (-1) = -1 / 2 by norm_num] at this
      refine tot_bind this ?_
      simp only [e5, Bool.false_eq_true, if_false]
      exact tot_simplPow (h.simplPow _)
  · simp only [e4, e6, Bool.false_eq_true, if_false]
    exact tot_pure _

/-! ## Products of two factors -/

/-- A factor without functions, numbers and products. -/
structure Fc (a : Expr D) : Prop where
  undef : a.isUndefined = false
  zero : a.isZero = false
  one : a.isOne = false
  prod : a.isProduct = false
  const : a.isConst = false
  fn : a.base.isFunction = false

theorem Fc.check {a : Expr D} (h : Fc a) (b : Expr D) : areContractableTrigFctPowers a b = pure false := by
  unfold areContractableTrigFctPowers isContractableTrigFctPower
  rw [h.fn]; rfl

theorem tot_two {a b : Expr D} (ha : Fc a) (hb : Fc b) (hne : isEqual a.base b.base = false) (hr : isEqual b.base a.base = false) :
    Tot cfg (fun E => prodCreate E [a, b]) (.prod (ordered a b)) := by
  have h1 : [a, b].any isUndefined = false := by simp [ha.undef, hb.undef]
  have h2 : [a, b].any Expr.isZero = false := by simp [ha.zero, hb.zero]
  simp only [prodCreate, h1, h2, Bool.false_eq_true, if_false]
  refine tot_bind (a := ordered a b) (tot_prodSimplify ?_) ?_
  · unfold simplProd
    refine tot_bind (tot_extract_two ha.prod hb.prod) (tot_bind (a := [a, b]) (tot_contract ?_) ?_)
    · intro x hx y hy
      simp only [List.mem_cons, List.not_mem_nil, or_false] at hx
      rcases hx with rfl | rfl
      exacts [ha.check _, hb.check _]
    · simp only [simplTwoFactors, ha.prod, hb.prod, Bool.or_self, Bool.false_eq_true, if_false, simplTwoFactorsWithoutProduct, ha.one, hb.one,
        ha.const, Bool.false_and, haveEqualBases, hne]
      exact tot_pure _
  · have hn : needsExpansion (ordered a b) = false := by
      unfold ordered needsExpansion constElements
      split <;> simp [ha.const, hb.const]
    have : ∃ x y, ordered a b = [x, y] := by unfold ordered; split <;> exact ⟨_, _, rfl⟩
    obtain ⟨x, y, e⟩ := this
    rw [e] at hn ⊢
    simp only [hn, Bool.false_eq_true, if_false]
    exact tot_pure _

theorem fc_sym (s : Sym) : Fc (.sym s : Expr D) := ⟨rfl, rfl, rfl, rfl, by simp [Expr.isConst], rfl⟩
theorem fc_symInv (s : Sym) : Fc (.pow (.sym s) (.num (.rat (-1))) : Expr D) := ⟨rfl, rfl, rfl, rfl, by simp [Expr.isConst], rfl⟩
theorem GW.fc (h : GW cfg W p) (q : ℚ) : Fc (rt W q) := by
  refine ⟨rfl, rfl, rfl, rfl, ?_, ?_⟩
  · have := h.nc
    simp [Expr.isConst, this]
  · obtain ⟨l, rfl⟩ := h.sum; rfl

theorem tot_one {a b r : Expr D} (h : a = one ∧ b = r ∨ a = r ∧ b = one) (hr : Fc r) : Tot cfg (fun E => prodCreate E [a, b]) r := by
  have o1 : (one : Expr D).isOne = true := isOne_one
  have o2 : (one : Expr D).isZero = false := by rw [one_eq, isZero_ratE]; decide
  have o3 : (one : Expr D).isProduct = false := rfl
  have o4 : ∀ b, areContractableTrigFctPowers (one : Expr D) b = pure false := fun b => by
    unfold areContractableTrigFctPowers isContractableTrigFctPower; rfl
  have h1 : [a, b].any isUndefined = false := by
    rcases h with ⟨rfl, rfl⟩ | ⟨rfl, rfl⟩ <;> simp only [List.any_cons, List.any_nil, hr.undef] <;> rfl
  have h2 : [a, b].any Expr.isZero = false := by
    rcases h with ⟨rfl, rfl⟩ | ⟨rfl, rfl⟩ <;> simp only [List.any_cons, List.any_nil, hr.zero, o2] <;> rfl
  have h3 : a.isProduct = false ∧ b.isProduct = false := by
    rcases h with ⟨rfl, rfl⟩ | ⟨rfl, rfl⟩ <;> exact ⟨by first | rfl | exact hr.prod, by first | rfl | exact hr.prod⟩
  simp only [prodCreate, h1, h2, Bool.false_eq_true, if_false]
  refine tot_bind (a := [r]) (tot_prodSimplify ?_) (tot_pure _)
  unfold simplProd
  refine tot_bind (tot_extract_two h3.1 h3.2) (tot_bind (a := [a, b]) (tot_contract ?_) ?_)
  · intro x hx y hy
    simp only [List.mem_cons, List.not_mem_nil, or_false] at hx
    have : x = one ∨ x = r := by rcases h with ⟨rfl, rfl⟩ | ⟨rfl, rfl⟩ <;> tauto
    rcases this with rfl | rfl
    exacts [o4 _, hr.check _]
  · simp only [simplTwoFactors, h3.1, h3.2, Bool.or_self, Bool.false_eq_true, if_false, simplTwoFactorsWithoutProduct]
    rcases h with ⟨rfl, rfl⟩ | ⟨rfl, rfl⟩
    · simp only [o1, if_true]; exact tot_pure _
    · simp only [hr.one, o1, if_true, Bool.false_eq_true, if_false]; exact tot_pure _

/-! ## Substitution of a symbol that does not occur -/

theorem subst_em (hc : cfg.Ok) {m : Mono D} {K : Key} (hm : m.1 ≠ 0) (hk : IsKey m.2 K) {t : Sym} (ht : ∀ x ∈ K, x.1 ≠ t) (r : Expr D) :
    Tot cfg (fun E => Tsym.subst E (.sym t) r (em m)) (em m) := by
  obtain ⟨q, P⟩ := m
  have hP := hk.2.2
  simp only at hP hm
  subst hP
  have hsf : ∀ x ∈ K, Tot cfg (fun E => Tsym.subst E (.sym t) r (symFac x)) (symFac x) := by
    intro x hx
    have e1 : (Tsym.symFac x : Expr D) = Tower.power x.1 x.2 := by
      have h1 := (hk.1 x hx).2
      unfold Tsym.symFac fac Tower.power
      have h0 : ((x.2 : ℕ) : ℚ) ≠ 0 := by exact_mod_cast (by omega)
      by_cases hx1 : x.2 = 1
      · simp [hx1]
      · have : ((x.2 : ℕ) : ℚ) ≠ 1 := by exact_mod_cast hx1
        simp only [hx1, h0, this, if_false, Expr.int]; simp
    rw [e1]
    exact subst_power_other (by simpa using ht x hx) r _
  rcases mexpr_cases (D := D) q K.facs with ⟨h, e⟩ | ⟨f, h, hq, e⟩ | ⟨h, h2, e⟩
  · rw [em, e]; exact subst_num _ _ _
  · rw [em, e]
    obtain ⟨x, rfl, rfl⟩ := facs_single h
    exact hsf x (by simp)
  · have hne : isEqual (.prod (rl q K.facs) : Expr D) (.sym t) = false := rfl
    have hmem : ∀ e ∈ (rl q K.facs : List (Expr D)), EM e ∧ Tot cfg (fun E => E.subst (.sym t) r e) e := by
      intro e h
      unfold rl at h
      rcases List.mem_append.1 h with h | h
      · split at h
        · simp at h
        · rw [List.mem_singleton.1 h]; exact ⟨EM.num _, tot_subst (subst_num _ _ _)⟩
      · rw [Key.facs_map] at h
        obtain ⟨x, hx, rfl⟩ := List.mem_map.1 h
        exact ⟨EM.symFac (hk.1 x hx), tot_subst (hsf x hx)⟩
    rw [em, e]
    simp only [Tsym.subst, hne, Bool.false_eq_true, if_false, substList]
    have hml := tot_mapL (cfg := cfg) (f := fun E => E.subst (.sym t) r) (g := id) (l := (rl q K.facs : List (Expr D))) fun e he => (hmem e he).2
    rw [List.map_id] at hml
    refine tot_bind hml (tot_prod ?_)
    obtain ⟨x, r1, r2, r3⟩ := tot_prod_em hc (cfg := cfg) (A := rl q K.facs) (by intro h0; rw [h0] at h2; simp at h2) fun e he => (hmem e he).1
    have : x = em (q, K.facs) := r2.1.unique (EP.mono hm hk) (by rw [r3, em, mexpr, poly_prodOf])
    rw [this, em, e] at r1
    exact r1

theorem occurs_em {m : Mono D} {K : Key} (hk : IsKey m.2 K) {x : Sym × ℕ} (hx : x ∈ K) : Occurs (.sym x.1) (em m) := by
  obtain ⟨q, P⟩ := m
  have hP := hk.2.2
  simp only at hP
  subst hP
  refine occurs_mexpr (f := ((.sym x.1 : Expr D), x.2)) ?_ .refl
  exact List.mem_map.2 ⟨x, hx, rfl⟩

theorem subst_ep (hc : cfg.Ok) {e : Expr D} (he : EP e) {t : Sym} (ht : ¬ Occurs (.sym t) e) (r : Expr D) :
    Tot cfg (fun E => Tsym.subst E (.sym t) r e) e := by
  rcases he.cases with rfl | ⟨m, K, hm, hK, rfl⟩ | ⟨L, hL, h2, rfl⟩
  · rw [zero_eq]; exact subst_num _ _ _
  · exact subst_em hc hm hK (fun x hx h => ht (by subst h; exact occurs_em hK hx)) r
  · have hne : isEqual (.sum (L.map em) : Expr D) (.sym t) = false := rfl
    have hmem : ∀ e ∈ (L.map em : List (Expr D)), EP e ∧ Tot cfg (fun E => E.subst (.sym t) r e) e := by
      intro e h
      obtain ⟨m, hm, rfl⟩ := List.mem_map.1 h
      obtain ⟨K, hK⟩ := hL.ks.key m hm
      exact ⟨EP.mono (hL.ne m hm) hK, tot_subst (subst_em hc (hL.ne m hm) hK (fun x hx hxt => ht (by
        subst hxt
        exact .op (o := em m) (show em m ∈ L.map em from List.mem_map.2 ⟨m, hm, rfl⟩) (occurs_em hK hx))) r)⟩
    simp only [Tsym.subst, hne, Bool.false_eq_true, if_false, substList]
    have hml := tot_mapL (cfg := cfg) (f := fun E => E.subst (.sym t) r) (g := id) (l := (L.map em : List (Expr D))) fun e he => (hmem e he).2
    rw [List.map_id] at hml
    refine tot_bind hml (tot_sum ?_)
    obtain ⟨x, r1, r2, r3⟩ := tot_sum_ep hc (cfg := cfg) (es := L.map em) (by intro h0; rw [List.map_eq_nil_iff.1 h0] at h2; simp at h2) fun e he => (hmem e he).1
    have : x = .sum (L.map em) := r2.unique he (by rw [r3, poly_sum])
    rwa [this] at r1

end Arc

end Tsym
