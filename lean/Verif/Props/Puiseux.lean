import Verif.QDom

set_option autoImplicit false
set_option linter.unusedSectionVars false
set_option linter.unusedSimpArgs false
set_option linter.unusedVariables false

/-!
# C74: rational powers of positive symbols
-/

namespace Tsym

open Expr

section

open Qf

variable {D : Type} [Flt D] [LawfulFlt D] {cfg : Cfg D} {σ τ : Asg}

/-! ## C74 -/

/-- C74. A product of rational powers of positive symbols has a result without conditions, which is one or a
product of powers; it has the value of the product wherever this has one. -/
theorem C74_product (hc : cfg.Ok) (t : RootTree) (ht : t.PosMon) :
    ∃ r : Expr D, Gives cfg (fun E => t.run E) r ∧ PuiseuxMonomial r ∧ ∀ σ y, σ.Respects → t.val σ = some y → den σ r = some y := by
  obtain ⟨P, cP, bP, _, tP⟩ := ht.live (D := D) hc
  exact ⟨_, tP.gives t.run_mono, puiseuxMonomial (m := (1, P)) cP bP.sb, fun σ y h hy => RootTree.val_run hc h tP hy⟩

/-- C74. Two products of rational powers of positive symbols have the same result if and only if every symbol
has the same exponent in both. -/
theorem C74_exponents (hc : cfg.Ok) (t u : RootTree) (ht : t.PosMon) (hu : u.PosMon) (r s : Expr D)
    (hr : Gives cfg (fun E => t.run E) r) (hs : Gives cfg (fun E => u.run E) s) :
    isEqual r s = true ↔ t.exponents = u.exponents := by
  obtain ⟨P, cP, bP, eP, tP⟩ := ht.live (D := D) hc
  obtain ⟨Q, cQ, bQ, eQ, tQ⟩ := hu.live (D := D) hc
  have e1 := tP.unique hr.1
  have e2 := tQ.unique hs.1
  subst e1 e2
  rw [Good.eq_iff (Qf.mexpr_good cP.facs) (Qf.mexpr_good cQ.facs), ← eP, ← eQ]
  constructor
  · intro h; rw [(Qf.mexpr_inj cP.facs cQ.facs h).2]
  · intro h
    rw [cP.ext cQ (by rw [cnt_cs bP.sb, cnt_cs bQ.sb, h])]

/-- C74. The power of a power of a positive symbol: the exponents are multiplied. -/
theorem C74_power (hc : cfg.Ok) (s : Sym) (hs : s.id.Ok) (hp : s.positive = true) (p q : ℚ) :
    Gives cfg (fun E => (RootTree.pow (.pow (.var s) p) q).run E)
      (if p * q = 0 then .num (.rat 1) else if p * q = 1 then .sym s else .pow (.sym s) (.num (.rat (p * q))) : Expr D) := by
  have hv := RootTree.PosMon.var s hs hp
  obtain ⟨P, cP, bP, eP, tP⟩ := (RootTree.PosMon.pow (.pow hv p) q).live (D := D) hc
  obtain ⟨Q, cQ, bQ, eQ, tQ⟩ := (RootTree.PosMon.pow hv (p * q)).live (D := D) hc
  have hPQ : P = Q := cP.ext cQ (by
    rw [cnt_cs bP.sb, cnt_cs bQ.sb, eP, eQ]
    simp [RootTree.exponents, mul_comm])
  have hT : Tot cfg (fun E : Eng D => (RootTree.pow (.var s) (p * q)).run E) (Qf.fac0 (.sym s, p * q)) :=
    tot_bind (tot_pure _) (tot_pow (Qf.tot_powCreate (qb_sym hs) (.inr (ps_sym hp))))
  rw [hPQ, tQ.unique hT] at tP
  have := tP.gives (RootTree.run_mono (.pow (.pow (.var s) p) q))
  simpa only [Qf.fac0, Qf.fac, one_eq] using this

/-- C74. The expansion of a Puiseux polynomial that has a value somewhere is returned, without conditions; it
is a sum of monomials, and has the value of the Puiseux polynomial wherever this has one. -/
theorem C74_expanded (hc : cfg.Ok) (hp : cfg.maxPrime < 324) (hσ : σ.Respects) (t : RootTree) (ht : t.Puiseux) {x : ℝ}
    (hx : t.val σ = some x) :
    ∃ r : Expr D, Gives cfg (fun E => t.expanded E) r ∧ PuiseuxExpanded r ∧
      ∀ σ' y, σ'.Respects → t.val σ' = some y → den σ' r = some y := by
  obtain ⟨L, hL, hT, hv⟩ := ht.expanded (D := D) hc hp hσ hx
  exact ⟨_, hT.gives t.expanded_mono, puiseuxExpanded hL, hv⟩

/-- C74. The expansions of two Puiseux polynomials are equal if and only if the Puiseux polynomials have the
same values wherever both have values. -/
theorem C74_identity (hc : cfg.Ok) (hp : cfg.maxPrime < 324) (hσ : σ.Respects) (hτ : τ.Respects) (t u : RootTree) (ht : t.Puiseux)
    (hu : u.Puiseux) {x y : ℝ} (hx : t.val σ = some x) (hy : u.val τ = some y) (r s : Expr D)
    (hr : Gives cfg (fun E => t.expanded E) r) (hs : Gives cfg (fun E => u.expanded E) s) :
    isEqual r s = true ↔ ∀ (σ' : Asg) (x y : ℝ), σ'.Respects → t.val σ' = some x → u.val σ' = some y → x = y := by
  obtain ⟨L, hL, hT, hv⟩ := ht.expanded (D := D) hc hp hσ hx
  obtain ⟨M, hM, hT', hv'⟩ := hu.expanded (D := D) hc hp hτ hy
  have e1 : sumOf (L.map Qf.em) = r := hT.unique hr.1
  have e2 : sumOf (M.map Qf.em) = s := hT'.unique hs.1
  subst e1 e2
  rw [Good.eq_iff (EP.good ⟨L, hL, rfl⟩) (EP.good ⟨M, hM, rfl⟩)]
  constructor
  · intro e σ' x y h' hx hy
    have h1 := hv σ' x h' hx
    rw [e, hv' σ' y h' hy] at h1
    cases h1; rfl
  · intro h
    refine hL.qv_inj hM ?_
    obtain ⟨d, d0, hd⟩ := ht.dom hc hp hσ hx
    obtain ⟨d', d0', hd'⟩ := hu.dom hc hp hτ hy
    have : (Qf.qv L - Qf.qv M) * (d * d') = 0 := ev_inj fun g => by
      rw [map_mul, map_mul, map_sub, map_zero]
      by_cases h1 : ev g d = 0
      · rw [h1]; simp
      by_cases h2 : ev g d' = 0
      · rw [h2]; simp
      obtain ⟨x, hx⟩ := hd g h1
      obtain ⟨y, hy⟩ := hd' g h2
      have hxv := hv _ _ g.respects hx
      have hyv := hv' _ _ g.respects hy
      rw [den_qv g hL.sb] at hxv
      rw [den_qv g hM.sb] at hyv
      cases hxv; cases hyv
      rw [h g.asg _ _ g.respects hx hy, sub_self, zero_mul]
    rcases mul_eq_zero.1 this with h | h
    · exact sub_eq_zero.1 h
    · exact absurd h (mul_ne_zero d0 d0')

/-- C74. The expansion does not change if it is expanded again. -/
theorem C74_idempotent (hc : cfg.Ok) (hp : cfg.maxPrime < 324) (hσ : σ.Respects) (t : RootTree) (ht : t.Puiseux) {x : ℝ}
    (hx : t.val σ = some x) (r : Expr D) (hr : Gives cfg (fun E => t.expanded E) r) : Gives cfg (fun E => Api.expand E r) r := by
  obtain ⟨L, hL, hT, hv⟩ := ht.expanded (D := D) hc hp hσ hx
  have e1 : sumOf (L.map Qf.em) = r := hT.unique hr.1
  subst e1
  exact Tot.gives (tot_expand (Qf.tot_expand_ep hc ⟨L, hL, rfl⟩)) (apiExpand_mono _)

/-- C74. The expansion of the difference is zero if and only if the Puiseux polynomials have the same values
wherever both have values. -/
theorem C74_difference (hc : cfg.Ok) (hp : cfg.maxPrime < 324) (hσ : σ.Respects) (t u : RootTree) (ht : t.Puiseux)
    (hu : u.Puiseux) {x y : ℝ} (hx : t.val σ = some x) (hy : u.val σ = some y) (r : Expr D)
    (hr : Gives cfg (fun E => (RootTree.sub t u).expanded E) r) :
    isEqual r (.num (.rat 0)) = true ↔ ∀ (σ' : Asg) (x y : ℝ), σ'.Respects → t.val σ' = some x → u.val σ' = some y → x = y := by
  have h0 : Gives cfg (fun E => (RootTree.rat 0).expanded E) (.num (.rat 0) : Expr D) :=
    Tot.gives (tot_bind (tot_pure _) (tot_expand (by simp only [expand]; exact tot_pure _))) (RootTree.expanded_mono _)
  rw [C74_identity hc hp hσ hσ (.sub t u) (.rat 0) (.sub ht hu) (.mon (.rat 0)) (x := x - y) (by simp [RootTree.val, hx, hy]) rfl r _ hr h0]
  constructor
  · intro h σ' x y h' hx hy
    exact sub_eq_zero.1 (by simpa using h σ' (x - y) 0 h' (by simp [RootTree.val, hx, hy]) (by simp [RootTree.val]))
  · intro h σ' x y h' hx hy
    simp only [RootTree.val, Option.bind_eq_some_iff, Option.map_eq_some_iff] at hx
    obtain ⟨x1, hx1, y1, hy1, rfl⟩ := hx
    rw [h σ' x1 y1 h' hx1 hy1, sub_self]
    simp only [RootTree.val, Rat.cast_zero, Option.some.injEq] at hy
    exact hy

end

/-! ## Examples -/

namespace PuiseuxEx

open ExprEx SymEx ValueEx RootTree RationalEx

/-- A positive symbol. -/
def sx : Sym := ⟨.named ⟨['x'], [], []⟩, true⟩
/-- Another one. -/
def sy : Sym := ⟨.named ⟨['y'], [], []⟩, true⟩

def x : Expr Hyb := .sym sx
def y : Expr Hyb := .sym sy

theorem okx : sx.id.Ok := by simp only [sx, SymId.Ok, Name.value]; decide
theorem oky : sy.id.Ok := by simp only [sy, SymId.Ok, Name.value]; decide

/-- sqrt(x)*(x*y)^(1/3)/y. -/
def m1 : RootTree := .div (.mul (.pow (.var sx) (1 / 2)) (.pow (.mul (.var sx) (.var sy)) (1 / 3))) (.var sy)
/-- (x^5/y^4)^(1/6). -/
def m2 : RootTree := .pow (.div (.pow (.var sx) 5) (.pow (.var sy) 4)) (1 / 6)

theorem m1_pos : m1.PosMon :=
  .div (.mul (.pow (.var sx okx rfl) _) (.pow (.mul (.var sx okx rfl) (.var sy oky rfl)) _)) (.var sy oky rfl)
theorem m2_pos : m2.PosMon := .pow (.div (.pow (.var sx okx rfl) _) (.pow (.var sy oky rfl) _)) _

theorem m12 : m1.exponents = m2.exponents := by
  ext s
  simp only [m1, m2, exponents, Finsupp.coe_smul, Finsupp.coe_sub, Finsupp.coe_add, Pi.smul_apply, Pi.sub_apply, Pi.add_apply, smul_eq_mul]
  ring

/-- The hypotheses of C74 for products are met; the exponents of the two are the same. -/
example : m1.PosMon ∧ m2.PosMon ∧ m1.exponents = m2.exponents ∧ (Cfg.std 323 : Cfg Hyb).Ok := ⟨m1_pos, m2_pos, m12, Cfg.std_ok 323⟩

/-- x^(5/6)*y^(-2/3). -/
example : m1.run lib60 = .ok (prod [pow x (num (.rat (5 / 6))), pow y (num (.rat (-2 / 3)))], []) ∧
    m2.run lib60 = .ok (prod [pow x (num (.rat (5 / 6))), pow y (num (.rat (-2 / 3)))], []) := ⟨by krfl, by krfl⟩

/-- (sqrt(x) + 1/a)*(sqrt(x) - 1/a), where `a` may have any value. -/
def p1 : RootTree := .mul (.add (.pow (.var sx) (1 / 2)) (.div (.rat 1) (.var sa))) (.sub (.pow (.var sx) (1 / 2)) (.div (.rat 1) (.var sa)))
/-- x - a^(-2). -/
def p2 : RootTree := .sub (.var sx) (.pow (.var sa) ((-2 : ℤ) : ℚ))

theorem p1_pui : p1.Puiseux :=
  have h1 : Puiseux (.pow (.var sx) (1 / 2)) := .mon (.pos (.pow (.var sx okx rfl) _))
  have h2 : Puiseux (.div (.rat 1) (.var sa)) := .div (.mon (.rat 1)) (.var sa sa_ok)
  .mul (.add h1 h2) (.sub h1 h2)
theorem p2_pui : p2.Puiseux := .sub (.mon (.var sx okx)) (.mon (.pow (.var sa sa_ok) (-2) (by simp only [ExpOk]; decide)))

/-- The hypotheses of C74 for sums are met. -/
example : p1.Puiseux ∧ p2.Puiseux ∧ p1.val (all 1) = some 0 ∧ p2.val (all 1) = some 0 ∧ (all 1).Respects := by
  refine ⟨p1_pui, p2_pui, ?_, ?_, fun s _ => by simp [all]⟩ <;>
    simp [p1, p2, RootTree.val, all, Spec.pow_pos' (one_pos : (0 : ℝ) < 1)]

/-- The expansions are equal. -/
example : p1.expanded lib60 = .ok (sum [prod [int (-1), pow a (int (-2))], x], []) ∧
    p2.expanded lib60 = .ok (sum [prod [int (-1), pow a (int (-2))], x], []) := ⟨by krfl, by krfl⟩

/-- A symbol that may be negative: the root of the square is kept. -/
example : (RootTree.pow (.pow (.var sa) 2) (1 / 2)).run lib60 = .ok (pow (pow a (int 2)) (num (.rat (1 / 2))), []) ∧
    (RootTree.pow (.pow (.var sx) 2) (1 / 2)).run lib60 = .ok (x, []) := ⟨by krfl, by krfl⟩

end PuiseuxEx

end Tsym
