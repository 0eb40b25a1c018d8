import Verif.Props.Rational
import Verif.Props.Polynomials
import Verif.ZTop
import Verif.Krfl
import Verif.Hyb

set_option autoImplicit false
set_option linter.unusedSectionVars false
set_option linter.unusedSimpArgs false
set_option linter.unusedVariables false

/-!
# C58: rational functions for which a result is returned
-/

namespace Tsym

open Expr

/-! ## Specification -/

namespace RTree

/-- An exponent the powers of numbers are computed for. -/
def ExpOk (k : ℤ) : Prop := 8 * (k.natAbs : ℤ) < 4294967295

/-- Monomials: products and quotients of numbers and symbols. -/
inductive Mon : RTree → Prop
  | rat (q : ℚ) : Mon (rat q)
  | var (s : Sym) (h : s.id.Ok) : Mon (var s)
  | neg {t : RTree} (h : Mon t) : Mon (neg t)
  | mul {t u : RTree} (h : Mon t) (h' : Mon u) : Mon (mul t u)
  | div {t u : RTree} (h : Mon t) (h' : Mon u) : Mon (div t u)
  | pow {t : RTree} (h : Mon t) (k : ℤ) (hk : ExpOk k) : Mon (pow t k)

/-- Laurent polynomials: sums and products, divided by monomials. -/
inductive Laurent : RTree → Prop
  | mon {t : RTree} (h : Mon t) : Laurent t
  | neg {t : RTree} (h : Laurent t) : Laurent (neg t)
  | add {t u : RTree} (h : Laurent t) (h' : Laurent u) : Laurent (add t u)
  | sub {t u : RTree} (h : Laurent t) (h' : Laurent u) : Laurent (sub t u)
  | mul {t u : RTree} (h : Laurent t) (h' : Laurent u) : Laurent (mul t u)
  | div {t u : RTree} (h : Laurent t) (h' : Mon u) : Laurent (div t u)
  | pow {t : RTree} (h : Laurent t) (k : ℤ) (hk : ExpOk k) (h0 : 0 ≤ k) : Laurent (pow t k)

/-- Fractions: products and quotients of Laurent polynomials. -/
inductive Fraction : RTree → Prop
  | lau {t : RTree} (h : Laurent t) : Fraction t
  | neg {t : RTree} (h : Fraction t) : Fraction (neg t)
  | mul {t u : RTree} (h : Fraction t) (h' : Fraction u) : Fraction (mul t u)
  | div {t u : RTree} (h : Fraction t) (h' : Fraction u) : Fraction (div t u)
  | pow {t : RTree} (h : Fraction t) (k : ℤ) (hk : ExpOk k) : Fraction (pow t k)

/-- Fractions with monomials as numerators. -/
inductive Recip : RTree → Prop
  | mon {t : RTree} (h : Mon t) : Recip t
  | neg {t : RTree} (h : Recip t) : Recip (neg t)
  | mul {t u : RTree} (h : Recip t) (h' : Recip u) : Recip (mul t u)
  | div {t u : RTree} (h : Recip t) (h' : Laurent u) : Recip (div t u)

/-- Sums of fractions, also multiplied by monomials and divided by Laurent polynomials. What is left out
are products of sums of fractions with sums, and their reciprocals. -/
inductive SumOfFractions : RTree → Prop
  | frac {t : RTree} (h : Fraction t) : SumOfFractions t
  | neg {t : RTree} (h : SumOfFractions t) : SumOfFractions (neg t)
  | add {t u : RTree} (h : SumOfFractions t) (h' : SumOfFractions u) : SumOfFractions (add t u)
  | sub {t u : RTree} (h : SumOfFractions t) (h' : SumOfFractions u) : SumOfFractions (sub t u)
  | mul {t u : RTree} (h : SumOfFractions t) (h' : Recip u) : SumOfFractions (mul t u)
  | lmul {t u : RTree} (h : Recip t) (h' : SumOfFractions u) : SumOfFractions (mul t u)
  | div {t u : RTree} (h : SumOfFractions t) (h' : Laurent u) : SumOfFractions (div t u)

end RTree

/-! ## Proofs -/

section

open Zf

variable {D : Type} [Flt D] [LawfulFlt D] {cfg : Cfg D} {σ : Asg} {F G : Expr D × ℤ → Prop}

theorem RTree.val_run (hc : cfg.Ok) (hσ : σ.Respects) {t : RTree} {r : Expr D} {x : ℝ} (h : Tot cfg (fun E => t.run E) r)
    (hx : t.val σ = some x) : den σ r = some x := tv h fun n => t.run_vl hc n hσ hx

theorem tot_neg_cl (hc : cfg.Ok) (hF : Cl cfg F) {t : RTree} {r : Expr D} (h : Tot cfg (fun E => t.run E) r) (hr : Tm cfg F r) :
    ∃ s, Tot cfg (fun E => (RTree.neg t).run E) s ∧ Tm cfg F s := by
  obtain ⟨s, hs, ts⟩ := hF.tot_prod hc (es := [mOne, r]) (by
    intro e he
    simp only [List.mem_cons, List.not_mem_nil, or_false] at he
    rcases he with rfl | rfl
    · rw [mOne_rat]; exact Tm.num _
    · exact hr)
  exact ⟨s, tot_bind h (tot_prod hs), ts⟩

theorem tot_mul_cl (hc : cfg.Ok) (hF : Cl cfg F) {t u : RTree} {a b : Expr D} (h : Tot cfg (fun E => t.run E) a) (ha : Tm cfg F a)
    (h' : Tot cfg (fun E => u.run E) b) (hb : Tm cfg F b) : ∃ s, Tot cfg (fun E => (RTree.mul t u).run E) s ∧ Tm cfg F s := by
  obtain ⟨s, hs, ts⟩ := hF.tot_prod hc (es := [a, b]) (by
    intro e he
    simp only [List.mem_cons, List.not_mem_nil, or_false] at he
    rcases he with rfl | rfl
    exacts [ha, hb])
  exact ⟨s, tot_bind h (tot_bind h' (tot_prod hs)), ts⟩

theorem tot_inv_cl (hc : cfg.Ok) (hp : cfg.maxPrime < 324) (hG : Cl cfg G) (hFG : ∀ f, f.2 ≠ 0 → F f → G (f.1, f.2 * -1)) {b : Expr D}
    (hb : Tm cfg F b) (h0 : b ≠ zero) : ∃ s, Tot cfg (fun E => E.oneOver b) s ∧ Tm cfg G s := by
  obtain ⟨s, hs, ts⟩ := hG.tot_pow hc hp hb (k := -1) (.inl h0) (by decide) fun _ => hFG
  exact ⟨s, by simp only [oneOver_eq]; exact tot_pow hs, ts⟩

theorem tot_div_cl (hc : cfg.Ok) (hp : cfg.maxPrime < 324) (hG : Cl cfg G) (hFG : ∀ f, f.2 ≠ 0 → F f → G (f.1, f.2 * -1)) {t u : RTree}
    {a b : Expr D} (h : Tot cfg (fun E => t.run E) a) (ha : Tm cfg G a) (h' : Tot cfg (fun E => u.run E) b) (hb : Tm cfg F b)
    (h0 : b ≠ zero) : ∃ s, Tot cfg (fun E => (RTree.div t u).run E) s ∧ Tm cfg G s := by
  obtain ⟨i, hi, ti⟩ := tot_inv_cl hc hp hG hFG hb h0
  obtain ⟨s, hs, ts⟩ := hG.tot_prod hc (es := [a, i]) (by
    intro e he
    simp only [List.mem_cons, List.not_mem_nil, or_false] at he
    rcases he with rfl | rfl
    exacts [ha, ti])
  exact ⟨s, tot_bind h (tot_bind h' (tot_bind hi (tot_prod hs))), ts⟩

theorem tot_pow_cl (hc : cfg.Ok) (hp : cfg.maxPrime < 324) (hF : Cl cfg F) {t : RTree} {a : Expr D} {k : ℤ}
    (hFk : k ≠ 0 → ∀ f, f.2 ≠ 0 → F f → F (f.1, f.2 * k)) (h : Tot cfg (fun E => t.run E) a) (ha : Tm cfg F a) (hz : a ≠ zero ∨ 0 < k)
    (hk : RTree.ExpOk k) : ∃ s, Tot cfg (fun E => (RTree.pow t k).run E) s ∧ Tm cfg F s := by
  obtain ⟨s, hs, ts⟩ := hF.tot_pow hc hp ha hz hk hFk
  exact ⟨s, tot_bind h (tot_pow hs), ts⟩

theorem val_ne_zero {e : Expr D} {x : ℝ} (h : den σ e = some x) (h0 : x ≠ 0) : e ≠ zero := by
  rintro rfl
  rw [den_zero] at h
  cases h; exact h0 rfl

theorem val_mul {t u : RTree} {x : ℝ} (h : (RTree.mul t u).val σ = some x) : (∃ y, t.val σ = some y) ∧ ∃ z, u.val σ = some z := by
  simp only [RTree.val, Option.bind_eq_some_iff, Option.map_eq_some_iff] at h
  obtain ⟨y, h1, z, h2, _⟩ := h
  exact ⟨⟨y, h1⟩, z, h2⟩

theorem val_add {t u : RTree} {x : ℝ} (h : (RTree.add t u).val σ = some x) : (∃ y, t.val σ = some y) ∧ ∃ z, u.val σ = some z := by
  simp only [RTree.val, Option.bind_eq_some_iff, Option.map_eq_some_iff] at h
  obtain ⟨y, h1, z, h2, _⟩ := h
  exact ⟨⟨y, h1⟩, z, h2⟩

theorem val_sub {t u : RTree} {x : ℝ} (h : (RTree.sub t u).val σ = some x) : (∃ y, t.val σ = some y) ∧ ∃ z, u.val σ = some z := by
  simp only [RTree.val, Option.bind_eq_some_iff, Option.map_eq_some_iff] at h
  obtain ⟨y, h1, z, h2, _⟩ := h
  exact ⟨⟨y, h1⟩, z, h2⟩

theorem val_div {t u : RTree} {x : ℝ} (h : (RTree.div t u).val σ = some x) : (∃ y, t.val σ = some y) ∧ ∃ z, u.val σ = some z ∧ z ≠ 0 := by
  simp only [RTree.val, Option.bind_eq_some_iff] at h
  obtain ⟨y, h1, z, h2, h3⟩ := h
  split at h3
  · cases h3
  · exact ⟨⟨y, h1⟩, z, h2, by assumption⟩

theorem val_neg {t : RTree} {x : ℝ} (h : (RTree.neg t).val σ = some x) : ∃ y, t.val σ = some y := by
  simp only [RTree.val, Option.map_eq_some_iff] at h
  obtain ⟨y, h1, _⟩ := h
  exact ⟨y, h1⟩

theorem val_pow {t : RTree} {k : ℤ} {x : ℝ} (h : (RTree.pow t k).val σ = some x) : ∃ y, t.val σ = some y ∧ (y ≠ 0 ∨ 0 < k) := by
  simp only [RTree.val, Option.bind_eq_some_iff] at h
  obtain ⟨y, h1, h3⟩ := h
  split at h3
  · cases h3
  · rename_i hz
    refine ⟨y, h1, ?_⟩
    by_contra hn
    simp only [not_or, not_not, not_lt] at hn
    exact hz hn

theorem RTree.Mon.live (hc : cfg.Ok) (hp : cfg.maxPrime < 324) (hσ : σ.Respects) {t : RTree} (h : t.Mon) :
    ∀ {x : ℝ}, t.val σ = some x → ∃ r, Tot cfg (fun E : Eng D => t.run E) r ∧ Tm cfg MF r := by
  induction h with
  | rat q => exact fun _ => ⟨_, tot_pure _, Tm.num q⟩
  | var s hs => exact fun _ => ⟨_, tot_pure _, cl_mf.tm_sym hs⟩
  | neg _ ih =>
    intro x hx
    obtain ⟨y, hy⟩ := val_neg hx
    obtain ⟨r, hr, tr⟩ := ih hy
    exact tot_neg_cl hc cl_mf hr tr
  | mul _ _ ih ih' =>
    intro x hx
    obtain ⟨⟨y, hy⟩, z, hz⟩ := val_mul hx
    obtain ⟨r, hr, tr⟩ := ih hy
    obtain ⟨s, hs, ts⟩ := ih' hz
    exact tot_mul_cl hc cl_mf hr tr hs ts
  | div _ _ ih ih' =>
    intro x hx
    obtain ⟨⟨y, hy⟩, z, hz, h0⟩ := val_div hx
    obtain ⟨r, hr, tr⟩ := ih hy
    obtain ⟨s, hs, ts⟩ := ih' hz
    exact tot_div_cl hc hp cl_mf (fun f _ h => h) hr tr hs ts (val_ne_zero (RTree.val_run hc hσ hs hz) h0)
  | pow _ k hk ih =>
    intro x hx
    obtain ⟨y, hy, h0⟩ := val_pow hx
    obtain ⟨r, hr, tr⟩ := ih hy
    exact tot_pow_cl hc hp cl_mf (fun _ f _ h => h) hr tr (h0.imp_left fun h => val_ne_zero (RTree.val_run hc hσ hr hy) h) hk

theorem Zf.MF.lf {f : Expr D × ℤ} (hz : Zf.ZF cfg f) (h : MF f) : LF cfg f := by
  obtain ⟨b, k⟩ := f
  obtain ⟨s, hs⟩ := h
  simp only at hs; subst hs
  exact ⟨.sym s hz.base.sym_ok, .inr ⟨s, rfl⟩⟩

theorem Zf.Tm.imp {e : Expr D} (h : Tm cfg F e) (hG : ∀ f, ZF cfg f → F f → G f) : Tm cfg G e := by
  rcases h with rfl | ⟨m, h1, h2, h3, h4, rfl⟩
  · exact .inl rfl
  · exact .inr ⟨m, h1, h2, h3, fun f hf => hG f (h2.facs f hf) (h4 f hf), rfl⟩

/-- The reciprocal of a monomial as a Laurent polynomial. -/
theorem tot_div_mon (hc : cfg.Ok) (hp : cfg.maxPrime < 324) {t u : RTree} {a b : Expr D} (h : Tot cfg (fun E => t.run E) a)
    (ha : Tm cfg (LF cfg) a) (h' : Tot cfg (fun E => u.run E) b) (hb : Tm cfg MF b) (h0 : b ≠ zero) :
    ∃ s, Tot cfg (fun E => (RTree.div t u).run E) s ∧ Tm cfg (LF cfg) s := by
  obtain ⟨i, hi, ti⟩ := tot_inv_cl hc hp cl_mf (fun f _ h => h) hb h0
  obtain ⟨s, hs, ts⟩ := cl_lf.tot_prod hc (es := [a, i]) (by
    intro e he
    simp only [List.mem_cons, List.not_mem_nil, or_false] at he
    rcases he with rfl | rfl
    exacts [ha, ti.imp fun f hz h => h.lf hz])
  exact ⟨s, tot_bind h (tot_bind h' (tot_bind hi (tot_prod hs))), ts⟩

theorem RTree.Laurent.live (hc : cfg.Ok) (hp : cfg.maxPrime < 324) (hσ : σ.Respects) {t : RTree} (h : t.Laurent) :
    ∀ {x : ℝ}, t.val σ = some x → ∃ r, Tot cfg (fun E : Eng D => t.run E) r ∧ Tm cfg (LF cfg) r := by
  induction h with
  | mon h =>
    intro x hx
    obtain ⟨r, hr, tr⟩ := h.live (D := D) hc hp hσ hx
    exact ⟨r, hr, tr.imp fun f hz h => h.lf hz⟩
  | neg _ ih =>
    intro x hx
    obtain ⟨y, hy⟩ := val_neg hx
    obtain ⟨r, hr, tr⟩ := ih hy
    exact tot_neg_cl hc cl_lf hr tr
  | add _ _ ih ih' =>
    intro x hx
    obtain ⟨⟨y, hy⟩, z, hz⟩ := val_add hx
    obtain ⟨r, hr, tr⟩ := ih hy
    obtain ⟨s, hs, ts⟩ := ih' hz
    obtain ⟨w, hw, tw⟩ := tot_sum_lf hc (es := [r, s]) (by simp) (by
      intro e he
      simp only [List.mem_cons, List.not_mem_nil, or_false] at he
      rcases he with rfl | rfl
      exacts [tr, ts])
    exact ⟨w, tot_bind hr (tot_bind hs (tot_sum hw)), tw⟩
  | @sub t u _ _ ih ih' =>
    intro x hx
    obtain ⟨⟨y, hy⟩, z, hz⟩ := val_sub hx
    obtain ⟨r, hr, tr⟩ := ih hy
    obtain ⟨s, hs, ts⟩ := ih' hz
    obtain ⟨m, hm, tm⟩ := cl_lf.tot_prod hc (es := [mOne, s]) (by
      intro e he
      simp only [List.mem_cons, List.not_mem_nil, or_false] at he
      rcases he with rfl | rfl
      · rw [mOne_rat]; exact Tm.num _
      · exact ts)
    obtain ⟨w, hw, tw⟩ := tot_sum_lf hc (es := [r, m]) (by simp) (by
      intro e he
      simp only [List.mem_cons, List.not_mem_nil, or_false] at he
      rcases he with rfl | rfl
      exacts [tr, tm])
    exact ⟨w, tot_bind hr (tot_bind hs (tot_bind (tot_prod hm) (tot_sum hw))), tw⟩
  | mul _ _ ih ih' =>
    intro x hx
    obtain ⟨⟨y, hy⟩, z, hz⟩ := val_mul hx
    obtain ⟨r, hr, tr⟩ := ih hy
    obtain ⟨s, hs, ts⟩ := ih' hz
    exact tot_mul_cl hc cl_lf hr tr hs ts
  | div _ h' ih =>
    intro x hx
    obtain ⟨⟨y, hy⟩, z, hz, h0⟩ := val_div hx
    obtain ⟨r, hr, tr⟩ := ih hy
    obtain ⟨s, hs, ts⟩ := h'.live (D := D) hc hp hσ hz
    exact tot_div_mon hc hp hr tr hs ts (val_ne_zero (RTree.val_run hc hσ hs hz) h0)
  | pow _ k hk h0 ih =>
    intro x hx
    obtain ⟨y, hy, hy0⟩ := val_pow hx
    obtain ⟨r, hr, tr⟩ := ih hy
    refine tot_pow_cl hc hp cl_lf (fun hk0 f _ h => ⟨h.1, h.2.imp_left fun h => ?_⟩) hr tr
      (hy0.imp_left fun h => val_ne_zero (RTree.val_run hc hσ hr hy) h) hk
    have : 0 < k := by omega
    exact mul_pos h this

theorem Zf.LF.inv {f : Expr D × ℤ} (h : LF cfg f) : UF cfg (f.1, f.2 * -1) := ⟨h.1, h.2.imp_left fun h => by simpa using h⟩

theorem RTree.Fraction.live (hc : cfg.Ok) (hp : cfg.maxPrime < 324) (hσ : σ.Respects) {t : RTree} (h : t.Fraction) :
    ∀ {x : ℝ}, t.val σ = some x → ∃ r, Tot cfg (fun E : Eng D => t.run E) r ∧ Tm cfg (QF cfg) r := by
  induction h with
  | lau h =>
    intro x hx
    obtain ⟨r, hr, tr⟩ := h.live (D := D) hc hp hσ hx
    exact ⟨r, hr, tr.imp fun f hz h => h.1⟩
  | neg _ ih =>
    intro x hx
    obtain ⟨y, hy⟩ := val_neg hx
    obtain ⟨r, hr, tr⟩ := ih hy
    exact tot_neg_cl hc cl_qf hr tr
  | mul _ _ ih ih' =>
    intro x hx
    obtain ⟨⟨y, hy⟩, z, hz⟩ := val_mul hx
    obtain ⟨r, hr, tr⟩ := ih hy
    obtain ⟨s, hs, ts⟩ := ih' hz
    exact tot_mul_cl hc cl_qf hr tr hs ts
  | div _ _ ih ih' =>
    intro x hx
    obtain ⟨⟨y, hy⟩, z, hz, h0⟩ := val_div hx
    obtain ⟨r, hr, tr⟩ := ih hy
    obtain ⟨s, hs, ts⟩ := ih' hz
    exact tot_div_cl hc hp cl_qf (fun f _ h => h) hr tr hs ts (val_ne_zero (RTree.val_run hc hσ hs hz) h0)
  | pow _ k hk ih =>
    intro x hx
    obtain ⟨y, hy, h0⟩ := val_pow hx
    obtain ⟨r, hr, tr⟩ := ih hy
    exact tot_pow_cl hc hp cl_qf (fun _ f _ h => h) hr tr (h0.imp_left fun h => val_ne_zero (RTree.val_run hc hσ hr hy) h) hk

theorem RTree.Recip.live (hc : cfg.Ok) (hp : cfg.maxPrime < 324) (hσ : σ.Respects) {t : RTree} (h : t.Recip) :
    ∀ {x : ℝ}, t.val σ = some x → ∃ r, Tot cfg (fun E : Eng D => t.run E) r ∧ Tm cfg (UF cfg) r := by
  induction h with
  | mon h =>
    intro x hx
    obtain ⟨r, hr, tr⟩ := h.live (D := D) hc hp hσ hx
    exact ⟨r, hr, tr.imp fun f hz h => ⟨(h.lf hz).1, .inr h⟩⟩
  | neg _ ih =>
    intro x hx
    obtain ⟨y, hy⟩ := val_neg hx
    obtain ⟨r, hr, tr⟩ := ih hy
    exact tot_neg_cl hc cl_uf hr tr
  | mul _ _ ih ih' =>
    intro x hx
    obtain ⟨⟨y, hy⟩, z, hz⟩ := val_mul hx
    obtain ⟨r, hr, tr⟩ := ih hy
    obtain ⟨s, hs, ts⟩ := ih' hz
    exact tot_mul_cl hc cl_uf hr tr hs ts
  | div _ h' ih =>
    intro x hx
    obtain ⟨⟨y, hy⟩, z, hz, h0⟩ := val_div hx
    obtain ⟨r, hr, tr⟩ := ih hy
    obtain ⟨s, hs, ts⟩ := h'.live (D := D) hc hp hσ hz
    exact tot_div_cl hc hp cl_uf (fun f _ h => h.inv) hr tr hs ts (val_ne_zero (RTree.val_run hc hσ hs hz) h0)

theorem RTree.SumOfFractions.live (hc : cfg.Ok) (hp : cfg.maxPrime < 324) (hσ : σ.Respects) {t : RTree} (h : t.SumOfFractions) :
    ∀ {x : ℝ}, t.val σ = some x → ∃ r, Tot cfg (fun E : Eng D => t.run E) r ∧ TE cfg r := by
  have two : ∀ {a b : Expr D}, TE cfg a → TE cfg b → ∀ e ∈ [a, b], TE cfg e := by
    intro a b ha hb e he
    simp only [List.mem_cons, List.not_mem_nil, or_false] at he
    rcases he with rfl | rfl
    exacts [ha, hb]
  induction h with
  | frac h =>
    intro x hx
    obtain ⟨r, hr, tr⟩ := h.live (D := D) hc hp hσ hx
    exact ⟨r, hr, tr.te⟩
  | neg _ ih =>
    intro x hx
    obtain ⟨y, hy⟩ := val_neg hx
    obtain ⟨r, hr, tr⟩ := ih hy
    obtain ⟨s, hs, ts⟩ := tot_mul_te hc hp hσ tr (Tm.num (-1)) ⟨_, RTree.val_run hc hσ hr hy⟩ ⟨_, rfl⟩ (.inr rfl)
    rw [← mOne_rat] at hs
    exact ⟨s, tot_bind hr (tot_prod hs), ts⟩
  | add _ _ ih ih' =>
    intro x hx
    obtain ⟨⟨y, hy⟩, z, hz⟩ := val_add hx
    obtain ⟨r, hr, tr⟩ := ih hy
    obtain ⟨s, hs, ts⟩ := ih' hz
    obtain ⟨w, hw, tw⟩ := tot_sum_te hc (es := [r, s]) (by simp) (two tr ts)
    exact ⟨w, tot_bind hr (tot_bind hs (tot_sum hw)), tw⟩
  | sub _ _ ih ih' =>
    intro x hx
    obtain ⟨⟨y, hy⟩, z, hz⟩ := val_sub hx
    obtain ⟨r, hr, tr⟩ := ih hy
    obtain ⟨s, hs, ts⟩ := ih' hz
    obtain ⟨m, hm, tm⟩ := tot_mul_te hc hp hσ ts (Tm.num (-1)) ⟨_, RTree.val_run hc hσ hs hz⟩ ⟨_, rfl⟩ (.inr rfl)
    rw [← mOne_rat] at hm
    obtain ⟨w, hw, tw⟩ := tot_sum_te hc (es := [r, m]) (by simp) (two tr tm)
    exact ⟨w, tot_bind hr (tot_bind hs (tot_bind (tot_prod hm) (tot_sum hw))), tw⟩
  | mul _ h' ih =>
    intro x hx
    obtain ⟨⟨y, hy⟩, z, hz⟩ := val_mul hx
    obtain ⟨r, hr, tr⟩ := ih hy
    obtain ⟨s, hs, ts⟩ := h'.live (D := D) hc hp hσ hz
    obtain ⟨w, hw, tw⟩ := tot_mul_te hc hp hσ tr ts ⟨_, RTree.val_run hc hσ hr hy⟩ ⟨_, RTree.val_run hc hσ hs hz⟩ (.inl rfl)
    exact ⟨w, tot_bind hr (tot_bind hs (tot_prod hw)), tw⟩
  | lmul h _ ih =>
    intro x hx
    obtain ⟨⟨y, hy⟩, z, hz⟩ := val_mul hx
    obtain ⟨r, hr, tr⟩ := h.live (D := D) hc hp hσ hy
    obtain ⟨s, hs, ts⟩ := ih hz
    obtain ⟨w, hw, tw⟩ := tot_mul_te hc hp hσ ts tr ⟨_, RTree.val_run hc hσ hs hz⟩ ⟨_, RTree.val_run hc hσ hr hy⟩ (.inr rfl)
    exact ⟨w, tot_bind hr (tot_bind hs (tot_prod hw)), tw⟩
  | @div t u _ h' ih =>
    intro x hx
    obtain ⟨⟨y, hy⟩, z, hz, h0⟩ := val_div hx
    obtain ⟨r, hr, tr⟩ := ih hy
    obtain ⟨s, hs, ts⟩ := h'.live (D := D) hc hp hσ hz
    have hsv := RTree.val_run hc hσ hs hz
    obtain ⟨i, hi, ti⟩ := tot_inv_cl hc hp cl_uf (fun f _ h => h.inv) ts (val_ne_zero hsv h0)
    have hiv : den σ i = some z⁻¹ := tv hi fun n => oneOver_vl (sound_eng hc n) hσ hsv h0
    obtain ⟨w, hw, tw⟩ := tot_mul_te hc hp hσ tr ti ⟨_, RTree.val_run hc hσ hr hy⟩ ⟨_, hiv⟩ (.inl rfl)
    exact ⟨w, tot_bind hr (tot_bind hs (tot_bind hi (tot_prod hw))), tw⟩

/-! ## C58 -/

open Lean.Order in
theorem RTree.run_mono (t : RTree) : monotone fun E : Eng D => t.run E := by
  induction t with
  | rat q => simp only [RTree.run]; monotonicity
  | var s => simp only [RTree.run]; monotonicity
  | neg t h =>
    simp only [RTree.run, Api.neg]
    refine monotone_bind (m := M D) _ _ h (monotone_of_monotone_apply _ fun a => ?_)
    repeat' monotonicity
  | add t u h1 h2 =>
    simp only [RTree.run, Api.add]
    refine monotone_bind (m := M D) _ _ h1 (monotone_of_monotone_apply _ fun a => ?_)
    refine monotone_bind (m := M D) _ _ h2 (monotone_of_monotone_apply _ fun b => ?_)
    repeat' monotonicity
  | sub t u h1 h2 =>
    simp only [RTree.run, Api.sub]
    refine monotone_bind (m := M D) _ _ h1 (monotone_of_monotone_apply _ fun a => ?_)
    refine monotone_bind (m := M D) _ _ h2 (monotone_of_monotone_apply _ fun b => ?_)
    repeat' monotonicity
  | mul t u h1 h2 =>
    simp only [RTree.run, Api.mul]
    refine monotone_bind (m := M D) _ _ h1 (monotone_of_monotone_apply _ fun a => ?_)
    refine monotone_bind (m := M D) _ _ h2 (monotone_of_monotone_apply _ fun b => ?_)
    repeat' monotonicity
  | div t u h1 h2 =>
    simp only [RTree.run, Api.div]
    refine monotone_bind (m := M D) _ _ h1 (monotone_of_monotone_apply _ fun a => ?_)
    refine monotone_bind (m := M D) _ _ h2 (monotone_of_monotone_apply _ fun b => ?_)
    repeat' monotonicity
  | pow t k h =>
    simp only [RTree.run, Api.pow]
    refine monotone_bind (m := M D) _ _ h (monotone_of_monotone_apply _ fun a => ?_)
    repeat' monotonicity

/-- C58 for sums of fractions, with a limit for the factors of numbers in powers that is less than 324 (it is
1000 by default): there is a result, with no conditions, and it has the value of the tree wherever the tree
has one. Left out are products of sums of fractions with sums, for which the claim is false
(`C58_false`). -/
theorem C58_live_partial (hc : cfg.Ok) (hp : cfg.maxPrime < 324) (hσ : σ.Respects) (t : RTree) (ht : t.SumOfFractions) {x : ℝ}
    (hx : t.val σ = some x) :
    ∃ r : Expr D, Gives cfg (fun E => t.run E) r ∧
      ∀ (σ' : Asg) (y : ℝ), σ'.Respects → t.val σ' = some y → den σ' r = some y := by
  obtain ⟨r, hr, _⟩ := ht.live (D := D) hc hp hσ hx
  exact ⟨r, hr.gives t.run_mono, fun σ' y h' hy => RTree.val_run hc h' hr hy⟩

/-! ## C59 -/

theorem Zf.TE.add {a b : Expr D} {La Lb : List (Mo D)} (hc : cfg.Ok) (ha : SL cfg La) (hb : SL cfg Lb) (ea : a = sumOf (La.map em))
    (eb : b = sumOf (Lb.map em)) :
    ∃ R, Tot cfg (fun E => sumCreate E [a, b]) (sumOf (R.map em)) ∧ SL cfg R ∧ co R = co La + co Lb := by
  obtain ⟨R, hT, hR⟩ := tot_sumCreate hc (Ls := [La, Lb]) (by simp) (by
    intro L hL
    simp only [List.mem_cons, List.not_mem_nil, or_false] at hL
    rcases hL with rfl | rfl
    exacts [ha, hb])
  refine ⟨R, ?_, hR.sl, by rw [hR.co]; simp⟩
  rw [ea, eb]
  exact hT

/-- C59. Sums of fractions: the order of the operands does not matter, ... -/
theorem C59_add_comm (hc : cfg.Ok) (hp : cfg.maxPrime < 324) (hσ : σ.Respects) (t u : RTree) (ht : t.SumOfFractions)
    (hu : u.SumOfFractions) {x y : ℝ} (hx : t.val σ = some x) (hy : u.val σ = some y) :
    ∃ r : Expr D, Gives cfg (fun E => (RTree.add t u).run E) r ∧ Gives cfg (fun E => (RTree.add u t).run E) r := by
  obtain ⟨a, ha, La, sa, _, ea⟩ := ht.live (D := D) hc hp hσ hx
  obtain ⟨b, hb, Lb, sb, _, eb⟩ := hu.live (D := D) hc hp hσ hy
  obtain ⟨R, hT, sR, cR⟩ := TE.add hc sa sb ea eb
  obtain ⟨R', hT', sR', cR'⟩ := TE.add hc sb sa eb ea
  have : R' = R := sR'.ext sR (by rw [cR, cR', add_comm])
  subst this
  exact ⟨_, Tot.gives (tot_bind ha (tot_bind hb (tot_sum hT))) (RTree.run_mono (.add t u)),
    Tot.gives (tot_bind hb (tot_bind ha (tot_sum hT'))) (RTree.run_mono (.add u t))⟩

/-- ... nor do the parentheses, ... -/
theorem C59_add_assoc (hc : cfg.Ok) (hp : cfg.maxPrime < 324) (hσ : σ.Respects) (t u v : RTree) (ht : t.SumOfFractions)
    (hu : u.SumOfFractions) (hv : v.SumOfFractions) {x y z : ℝ} (hx : t.val σ = some x) (hy : u.val σ = some y) (hz : v.val σ = some z) :
    ∃ r : Expr D, Gives cfg (fun E => (RTree.add (.add t u) v).run E) r ∧ Gives cfg (fun E => (RTree.add t (.add u v)).run E) r := by
  obtain ⟨a, ha, La, sa, _, ea⟩ := ht.live (D := D) hc hp hσ hx
  obtain ⟨b, hb, Lb, sb, _, eb⟩ := hu.live (D := D) hc hp hσ hy
  obtain ⟨c, hcr, Lc, scn, _, ec⟩ := hv.live (D := D) hc hp hσ hz
  obtain ⟨R1, hT1, sR1, cR1⟩ := TE.add hc sa sb ea eb
  obtain ⟨R2, hT2, sR2, cR2⟩ := TE.add hc sR1 scn rfl ec
  obtain ⟨R3, hT3, sR3, cR3⟩ := TE.add hc sb scn eb ec
  obtain ⟨R4, hT4, sR4, cR4⟩ := TE.add hc sa sR3 ea rfl
  have : R4 = R2 := sR4.ext sR2 (by rw [cR4, cR3, cR2, cR1, add_assoc])
  subst this
  exact ⟨_, Tot.gives (tot_bind (tot_bind ha (tot_bind hb (tot_sum hT1))) (tot_bind hcr (tot_sum hT2))) (RTree.run_mono (.add (.add t u) v)),
    Tot.gives (tot_bind ha (tot_bind (tot_bind hb (tot_bind hcr (tot_sum hT3))) (tot_sum hT4))) (RTree.run_mono (.add t (.add u v)))⟩

/-- ... and zero changes nothing. -/
theorem C59_add_zero (hc : cfg.Ok) (hp : cfg.maxPrime < 324) (hσ : σ.Respects) (t : RTree) (ht : t.SumOfFractions) {x : ℝ}
    (hx : t.val σ = some x) :
    ∃ r : Expr D, Gives cfg (fun E => t.run E) r ∧ Gives cfg (fun E => (RTree.add t (.rat 0)).run E) r := by
  obtain ⟨a, ha, La, sa, _, ea⟩ := ht.live (D := D) hc hp hσ hx
  obtain ⟨R, hT, sR, cR⟩ := TE.add hc sa Zf.SL.nil ea (b := .num (.rat 0)) zero_eq.symm
  have : R = La := sR.ext sa (by rw [cR]; simp)
  subst this
  rw [← ea] at hT
  exact ⟨a, ha.gives t.run_mono, Tot.gives (tot_bind ha (tot_bind (tot_pure _) (tot_sum hT))) (RTree.run_mono (.add t (.rat 0)))⟩

/-- C59. The order of the factors does not matter in products of fractions. -/
theorem C59_mul_comm (hc : cfg.Ok) (hp : cfg.maxPrime < 324) (hσ : σ.Respects) (t u : RTree) (ht : t.Fraction)
    (hu : u.Fraction) {x y : ℝ} (hx : t.val σ = some x) (hy : u.val σ = some y) :
    ∃ r : Expr D, Gives cfg (fun E => (RTree.mul t u).run E) r ∧ Gives cfg (fun E => (RTree.mul u t).run E) r := by
  obtain ⟨a, ha, ta⟩ := ht.live (D := D) hc hp hσ hx
  obtain ⟨b, hb, tb⟩ := hu.live (D := D) hc hp hσ hy
  have hab : ∃ r, Tot cfg (fun E => prodCreate E [a, b]) r ∧ Tot cfg (fun E => prodCreate E [b, a]) r := by
    have hU : [a, b].any Expr.isUndefined = false := by simp [ta.isUndefined, tb.isUndefined]
    have hU' : [b, a].any Expr.isUndefined = false := by simp [ta.isUndefined, tb.isUndefined]
    have hz : a = zero ∨ b = zero → ∃ r, Tot cfg (fun E => prodCreate E [a, b]) r ∧ Tot cfg (fun E => prodCreate E [b, a]) r := by
      intro h
      have hz : (Expr.zero : Expr D).isZero = true := by rw [zero_eq, isZero_ratE]; simp
      have h1 : [a, b].any Expr.isZero = true := by rcases h with rfl | rfl <;> simp [hz]
      have h2 : [b, a].any Expr.isZero = true := by rcases h with rfl | rfl <;> simp [hz]
      refine ⟨Expr.zero, ?_, ?_⟩ <;> unfold prodCreate
      · simp only [hU, h1, Bool.false_eq_true, if_false, if_true]; exact tot_pure _
      · simp only [hU', h2, Bool.false_eq_true, if_false, if_true]; exact tot_pure _
    rcases ta with h0 | ⟨m, h1, h2, h3, h4, rfl⟩
    · exact hz (.inl h0)
    rcases tb with h0 | ⟨n, k1, k2, k3, k4, rfl⟩
    · exact hz (.inr h0)
    obtain ⟨R, hR, t1, t2⟩ := Zf.tot_prodCreate hc (Ms := [m, n]) (by
      simp only [List.mem_cons, List.not_mem_nil, or_false, forall_eq_or_imp, forall_eq]
      exact ⟨⟨h1, h2.facs⟩, k1, k2.facs⟩) (by simp)
    obtain ⟨R', hR', t1', t2'⟩ := Zf.tot_prodCreate hc (Ms := [n, m]) (by
      simp only [List.mem_cons, List.not_mem_nil, or_false, forall_eq_or_imp, forall_eq]
      exact ⟨⟨k1, k2.facs⟩, h1, h2.facs⟩) (by simp)
    have : R' = R := hR'.can.ext hR.can (by rw [hR.cnt, hR'.cnt]; simp [cnt_append, add_comm])
    subst this
    simp only [List.map_cons, List.map_nil, List.prod_cons, List.prod_nil, mul_one] at t1 t2 t1' t2'
    rw [mul_comm] at t1' t2'
    by_cases hn : Zf.Nx (m.1 * n.1) R'
    · obtain ⟨r, hr, _⟩ := cl_qf.tot_nx hc (cl_qf.app hR (by
        intro f hf
        simp only [List.flatMap_cons, List.flatMap_nil, List.append_nil, List.mem_append] at hf
        rcases hf with hf | hf
        exacts [h4 f hf, k4 f hf])) hn
      exact ⟨r, t2 hn r hr, t2' hn r hr⟩
    · exact ⟨_, t1 hn, t1' hn⟩
  obtain ⟨r, h1, h2⟩ := hab
  exact ⟨r, Tot.gives (tot_bind ha (tot_bind hb (tot_prod h1))) (RTree.run_mono (.mul t u)),
    Tot.gives (tot_bind hb (tot_bind ha (tot_prod h2))) (RTree.run_mono (.mul u t))⟩

end

/-! ## Examples -/

namespace RationalEx

open ExprEx SymEx ValueEx RTree

/-- (a - b^2)^2/(a + b). -/
def f1 : RTree := .div (.pow (.sub (.var sa) (.pow (.var sb) 2)) 2) ab
/-- 1/a - b*f1/3, a sum of fractions. -/
def f2 : RTree := .sub (.pow (.var sa) (-1)) (.div (.mul (.var sb) f1) (.rat 3))
/-- f2/(a - 2*b) + 5. -/
def f3 : RTree := .add (.div f2 (.sub (.var sa) (.mul (.rat 2) (.var sb)))) (.rat 5)

theorem sa_ok : sa.id.Ok := by simp only [sa, SymId.Ok, Name.value]; decide
theorem sb_ok : sb.id.Ok := by simp only [sb, SymId.Ok, Name.value]; decide

theorem mon_a : (RTree.var sa).Mon := .var _ sa_ok
theorem mon_b : (RTree.var sb).Mon := .var _ sb_ok
theorem lau_ab : ab.Laurent := .add (.mon mon_a) (.mon mon_b)

theorem f1_frac : f1.Fraction :=
  .div (.lau (.pow (.sub (.mon mon_a) (.mon (.pow mon_b 2 (by simp only [ExpOk]; decide)))) 2 (by simp only [ExpOk]; decide) (by decide)))
    (.lau lau_ab)

theorem f2_sum : f2.SumOfFractions :=
  .sub (.frac (.lau (.mon (.pow mon_a (-1) (by simp only [ExpOk]; decide)))))
    (.frac (.div (.mul (.lau (.mon mon_b)) f1_frac) (.lau (.mon (.rat 3)))))

theorem f3_sum : f3.SumOfFractions :=
  .add (.div f2_sum (.sub (.mon mon_a) (.mon (.mul (.rat 2) mon_b)))) (.frac (.lau (.mon (.rat 5))))

/-- The hypotheses of C58_live_partial and C59 are met. -/
example : f3.val (all 1) = some 4 := by
  simp only [f3, f2, f1, ab, RTree.val, all, Option.bind_some, Option.map_some]
  norm_num
example : (Cfg.std 100 : Cfg Hyb).Ok ∧ (Cfg.std 100 : Cfg Hyb).maxPrime < 324 ∧ (all 1).Respects :=
  ⟨Cfg.std_ok _, by decide, all_respects (by norm_num)⟩

/-- The hypotheses of `C59_mul_comm` are met. -/
example : f1.Fraction ∧ ab.Fraction ∧ f1.val (all 1) = some 0 ∧ ab.val (all 1) = some 2 := by
  refine ⟨f1_frac, .lau lau_ab, ?_, ?_⟩ <;> simp only [f1, ab, RTree.val, all, Option.bind_some, Option.map_some] <;> norm_num

/-- Both orders of f2 + f1, run: 1/a + (a - b^2)^2/(a + b) - b*(a - b^2)^2/(3*(a + b)). -/
def f12 : Expr Hyb :=
  let s := sum [a, prod [int (-1), pow b (int 2)]]
  sum [pow a (int (-1)), prod [pow (sum [a, b]) (int (-1)), pow s (int 2)],
    prod [.num (.rat (-1/3)), b, pow (sum [a, b]) (int (-1)), pow s (int 2)]]
example : (RTree.add f2 f1).run lib60 = .ok (f12, []) ∧ (RTree.add f1 f2).run lib60 = .ok (f12, []) :=
  ⟨by krfl, by krfl⟩

/-- 1 + 1/(a + b)^2. -/
def t1 : RTree := .add (.rat 1) (.pow ab (-2))

/-- A difference of equal sums need not be zero: the subtraction expands the second operand. -/
theorem C59_false_sub : (RTree.sub t1 t1).run lib60 =
    .ok (sum [pow (sum [a, b]) (int (-2)),
      prod [int (-1), pow (sum [pow a (int 2), prod [int 2, a, b], pow b (int 2)]) (int (-1))]], []) := by krfl

/-- Products are not associative: (2*(a + b))*(a + b) and 2*((a + b)*(a + b)) differ. -/
theorem C59_false_mul_assoc :
    (RTree.mul (.mul (.rat 2) ab) ab).run lib60 = .ok (prod [sum [a, b], sum [prod [int 2, a], prod [int 2, b]]], []) ∧
      (RTree.mul (.rat 2) (.mul ab ab)).run lib60 = .ok (prod [int 2, pow (sum [a, b]) (int 2)], []) :=
  ⟨by krfl, by krfl⟩

end RationalEx

end Tsym
