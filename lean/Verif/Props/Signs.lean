import Verif.SignThm
import Verif.Props.Polynomials

/-!
# C17, C18: sign queries under all assignments
-/

set_option autoImplicit false
set_option linter.unusedSectionVars false

namespace Tsym

open Expr

variable {D : Type} [Flt D] [LawfulFlt D] {cfg : Cfg D}

/-- A result of the library for a polynomial expression. -/
def IsPTree (cfg : Cfg D) (a : Expr D) : Prop := ∃ t : PTree, t.Ok ∧ Gives cfg (fun E => t.run E) a

mutual
theorem NoLog.poly {P : Expr D → Prop} (e : Expr D) (h : isPolyE e = true) : NoLog P e := by
  match e, h with
  | .num (.rat q), _ => exact .num _
  | .sym s, _ => exact .sym s
  | .sum l, h => exact .sum l (NoLog.polyL l (by simpa [isPolyE] using h))
  | .prod l, h => exact .prod l (NoLog.polyL l (by simpa [isPolyE] using h))
  | .pow b (.num (.rat q)), h =>
    simp only [isPolyE, Bool.and_eq_true] at h
    exact .pow b _ (NoLog.poly b h.1)
theorem NoLog.polyL {P : Expr D → Prop} (l : List (Expr D)) (h : isPolyL l = true) : ∀ a ∈ l, NoLog P a := by
  match l, h with
  | [], _ => simp
  | a :: l, h =>
    simp only [isPolyL, Bool.and_eq_true] at h
    exact List.forall_mem_cons.2 ⟨NoLog.poly a h.1, NoLog.polyL l h.2⟩
end

theorem Gives.tot_unique {f : Eng D → M D (Expr D)} {a b : Expr D} (h : Gives cfg f a) (h' : Tot cfg f b) : a = b :=
  Tot.unique (cfg := cfg) (f := f) h.1 h'

theorem IsPTree.less_one (hc : cfg.Ok) {σ : Asg} (n : ℕ) {a : Expr D} {v : ℝ} (ha : IsPTree cfg a) (hv : den σ a = some v) :
    wp (fun _ => True) (sumCreate (eng cfg n) [a, mOne]) fun r => NoLog (IsPTree cfg) r ∧ den σ r = some (v - 1) := by
  obtain ⟨t, ht, h⟩ := ha
  obtain ⟨b, hb, pb, qb⟩ := t.tot hc ht
  have hab : a = b := Gives.tot_unique h hb
  subst hab
  obtain ⟨r, h1, h2, h3⟩ := tot_sum_pol hc (es := [a, mOne]) (by simp) (by
    simpa using ⟨pb, Pol.rat (-1)⟩)
  have hg := Tot.gives h1 (fun E F hEF => sumCreate_mono _ id Lean.Order.monotone_id E F hEF)
  intro s cs hs _
  rcases hg.2 n with h | h
  · cases h.symm.trans hs
  · cases h.symm.trans hs
    refine ⟨NoLog.poly r h2.polyE, ?_⟩
    rw [den_poly r h2.polyE, h3]
    rw [den_poly a pb.polyE] at hv
    have h4 : pval σ (poly (mOne : Expr D)) = -1 := by
      have : poly (mOne : Expr D) = MvPolynomial.C (-1) := poly_ratE (-1)
      rw [this]; simp [pval]
    have h5 : pval σ (poly a + poly (mOne : Expr D)) = pval σ (poly a) + pval σ (poly (mOne : Expr D)) := by
      simp [pval]
    simp only [List.map_cons, List.map_nil, List.sum_cons, List.sum_nil, add_zero]
    rw [h5, h4, Option.some.inj hv, sub_eq_add_neg]

/-- C17 for isPositive, under all assignments and whatever conditions were recorded. Missing: logarithms of
other arguments than polynomials (see `C17_isPositive_partial`). -/
theorem C17_isPositive_plain_partial (hc : cfg.Ok) (n : ℕ) {σ : Asg} (hσ : σ.Respects) (a : Expr D) (x : ℝ)
    (hl : NoLog (IsPTree cfg) a) (ha : den σ a = some x) (cs : List (Cond D))
    (hr : Api.isPositive (eng cfg n) a = .ok (true, cs)) : 0 ≤ x :=
  (signsOk_eng cfg (k := false) hσ (IsPTree.less_one hc) n).pos hl (by simp) ha true cs hr (by simp) rfl

/-- C17 for isNegative. -/
theorem C17_isNegative_plain_partial (hc : cfg.Ok) (n : ℕ) {σ : Asg} (hσ : σ.Respects) (a : Expr D) (x : ℝ)
    (hl : NoLog (IsPTree cfg) a) (ha : den σ a = some x) (cs : List (Cond D))
    (hr : Api.isNegative (eng cfg n) a = .ok (true, cs)) : x ≤ 0 := by
  have : 0 ≤ -x := (signsOk_eng cfg (k := false) hσ (IsPTree.less_one hc) n).neg hl (by simp) ha true cs hr (by simp) rfl
  linarith

/-- C17: both answers together only for the value zero. -/
theorem C17_both_plain_partial (hc : cfg.Ok) (n m : ℕ) {σ : Asg} (hσ : σ.Respects) (a : Expr D) (x : ℝ)
    (hl : NoLog (IsPTree cfg) a) (ha : den σ a = some x) (cs ds : List (Cond D))
    (h1 : Api.isPositive (eng cfg n) a = .ok (true, cs)) (h2 : Api.isNegative (eng cfg m) a = .ok (true, ds)) : x = 0 :=
  le_antisymm (C17_isNegative_plain_partial hc m hσ a x hl ha ds h2) (C17_isPositive_plain_partial hc n hσ a x hl ha cs h1)

/-- C18 where it is true: no base of a power met by the query is zero, and no logarithm is met. Missing: the
powers that are zero, for which it is false (`ValueEx.C18_false`), and logarithms. -/
theorem C18_strict_partial (n : ℕ) {σ : Asg} (hσ : ∀ s : Sym, s.positive = true → 0 < σ s) (a : Expr D) (x : ℝ)
    (hl : NoLog (fun _ => False) a) (hz : BasesNZ σ a) (ha : den σ a = some x) (cs : List (Cond D)) :
    (Api.isPositive (eng cfg n) a = .ok (true, cs) → 0 < x) ∧
    (Api.isNegative (eng cfg n) a = .ok (true, cs) → x < 0) := by
  have := signsOk_eng (P := fun _ => False) cfg (k := true) hσ (by simp) n
  refine ⟨fun h => this.pos hl (fun _ => hz) ha true cs h (by simp) rfl, fun h => ?_⟩
  have : 0 < -x := this.neg hl (fun _ => hz) ha true cs h (by simp) rfl
  linarith

theorem Pol.signs {e : Expr D} (h : Pol cfg e) : Signs cfg e := by
  obtain ⟨L, hL, rfl⟩ := h
  match L, hL with
  | [], _ => exact signs_rat 0
  | [m], h => exact signs_mexpr (h.sm m (by simp)).facs
  | m :: m' :: L, h =>
    have := pbase_sum h (by simp)
    exact ⟨this.pos, this.neg⟩

/-- The sign queries of polynomial expressions always return, without conditions. -/
theorem C17_returns_polynomial (hc : cfg.Ok) (t : PTree) (h : t.Ok) (a : Expr D) (ha : Gives cfg (fun E => t.run E) a) :
    ∃ p q : Bool, ∃ N, ∀ n, N ≤ n →
      Api.isPositive (eng cfg n) a = .ok (p, []) ∧ Api.isNegative (eng cfg n) a = .ok (q, []) := by
  obtain ⟨b, hb, pb, qb⟩ := t.tot hc h
  have hab : a = b := Gives.tot_unique ha hb
  subst hab
  obtain ⟨⟨p, hp⟩, q, hq⟩ := pb.signs
  obtain ⟨N, hN⟩ := tot_isPos hp
  obtain ⟨K, hK⟩ := tot_isNeg hq
  exact ⟨p, q, max N K, fun n hn => ⟨hN n (by omega), hK n (by omega)⟩⟩

section examples
open ExprEx SymEx ValueEx

/-- 2 + a^2 -/
def signTree : PTree := .add (.rat 2) (.pow PolyEx2.sa 2)

theorem signTree_gives : Gives (Cfg.std 1000) (fun E : Eng Hyb => signTree.run E) (sum [int 2, pow a (int 2)]) := by
  obtain ⟨e, he, _⟩ := C47_value (D := Hyb) (Cfg.std_ok 1000) signTree
    (by simp only [signTree, PTree.Ok, PolyEx2.sa, SymId.Ok]; decide)
  have h : signTree.run (eng (Cfg.std 1000) 30) = .ok (sum [int 2, pow a (int 2)], []) := by krfl
  rcases he.2 30 with h1 | h1
  · cases h.symm.trans h1
  · cases h.symm.trans h1; exact he

/-- (1 + a)^4 * atan(2) * log(2 + a^2) -/
def signEx : Expr Hyb := prod [pow (sum [int 1, a]) (int 4), fn .atan (int 2), fn .log (sum [int 2, pow a (int 2)])]

/-- The hypotheses of C17. -/
example : NoLog (IsPTree (Cfg.std 1000)) signEx ∧ Api.isPositive lib signEx = .ok (true, []) := by
  refine ⟨.prod _ fun x hx => ?_, by krfl⟩
  simp only [List.mem_cons, List.not_mem_nil, or_false] at hx
  rcases hx with rfl | rfl | rfl
  · refine .pow _ _ (.sum _ fun x hx => ?_)
    simp only [List.mem_cons, List.not_mem_nil, or_false] at hx
    rcases hx with rfl | rfl
    · exact .num _
    · exact .sym _
  · exact .atan _ (.num _)
  · exact .log _ ⟨signTree, by simp only [signTree, PTree.Ok, PolyEx2.sa, SymId.Ok]; decide, signTree_gives⟩

/-- The hypotheses of C18, here with 2 for all symbols: the value of -3*a^4 is negative. -/
example : NoLog (fun _ => False) (prod [int (-3), pow a (int 4)] : Expr Hyb) ∧
    BasesNZ (all 2) (prod [int (-3), pow a (int 4)] : Expr Hyb) ∧
    Api.isNegative lib (prod [int (-3), pow a (int 4)]) = .ok (true, []) := by
  refine ⟨.prod _ fun x hx => ?_, .prod _ fun x hx => ?_, by krfl⟩
  · simp only [List.mem_cons, List.not_mem_nil, or_false] at hx
    rcases hx with rfl | rfl
    · exact .num _
    · exact .pow _ _ (.sym _)
  · simp only [List.mem_cons, List.not_mem_nil, or_false] at hx
    rcases hx with rfl | rfl
    · exact .num _
    · exact .pow _ _ (.sym _) (by simp [a, all])

end examples

end Tsym
