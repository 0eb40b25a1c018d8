import Verif.TrigKey
import Verif.QuotNormal

/-!
# atan2 of numbers
-/

set_option autoImplicit false
set_option linter.unusedSectionVars false
set_option linter.unusedSimpArgs false
set_option linter.unusedVariables false

namespace Tsym

open Expr NumTrigo

variable {D : Type} [Flt D] [LawfulFlt D] {cfg : Cfg D}

/-- From some depth on the call returns `a`, with some conditions. -/
abbrev Gets {α : Type} (cfg : Cfg D) (f : Eng D → M D α) (a : α) : Prop := Rs cfg (fun _ => False) f a

theorem gets_logIf (b : Bool) (c : Cond D) : Gets cfg (fun _ => M.logIf b c) () := by
  cases b with
  | false => exact (tot_logIf rfl).rs
  | true => exact rs_log (fun _ h => h.elim)

theorem gets_log (c : Cond D) : Gets cfg (fun _ => M.log c) () := rs_log (fun _ h => h.elim)

theorem gets_atan2 {y x r : Expr D} (h : Gets cfg (fun E => atan2Create E y x) r) : Gets cfg (fun E => E.atan2Create y x) r :=
  rs_succ (fun _ => rfl) h

theorem tot_atan2 {y x r : Expr D} (h : Tot cfg (fun E => atan2Create E y x) r) : Tot cfg (fun E => E.atan2Create y x) r := by
  obtain ⟨N, hN⟩ := h
  refine ⟨N + 1, fun n hn => ?_⟩
  obtain ⟨m, rfl⟩ : ∃ m, n = m + 1 := ⟨n - 1, by omega⟩
  exact hN m (by omega)

theorem tot_shiftDown (hc : cfg.Ok) {q : ℚ} (hq : 0 ≤ q) : Tot cfg (fun E => shiftAtanDown E (piM 2) (piM q)) (piM (rem2 q)) := by
  unfold shiftAtanDown
  set F : Eng D → Expr D → M D (Expr D ⊕ Expr D) := fun (E : Eng D) a => do
    let n ← NumTrigo.evalE a
    let t ← NumTrigo.evalE (piM 2 : Expr D)
    if !n.lt t then do
      let m ← E.minus (piM 2)
      let s ← E.sumCreate [a, m]
      pure (.inl s)
    else pure (.inr a) with hF
  refine tot_loop (f := F) ?_
  suffices key : ∀ (n : ℕ) (q : ℚ), 0 ≤ q → q < 2 * n → Rounds cfg F (piM (rem2 q)) (piM q) by
    obtain ⟨n, hn⟩ := exists_nat_gt q
    exact key n q hq (by have : (0 : ℚ) ≤ n := Nat.cast_nonneg n; linarith)
  intro n
  induction n with
  | zero => intro q h1 h2; simp at h2; linarith
  | succ n ih =>
    intro q h1 h2
    obtain ⟨x, hx, vx⟩ := piM_eval (D := D) q
    obtain ⟨y, hy, vy⟩ := piM_eval (D := D) 2
    have hge : (!x.lt y) = decide (2 ≤ q) := optGe_piM vx vy
    by_cases h3 : 2 ≤ q
    · have e : rem2 (q + -2) = rem2 q := by have := rem2_add q (-1); simpa using this
      refine .next _ (piM (q + -2)) ?_ ?_
      · rw [hF]
        refine tot_bind (tot_evalE hx) (tot_bind (tot_evalE hy) ?_)
        simp only [hge, h3, decide_true, if_true]
        exact tot_bind (tot_minus_piM hc 2) (tot_bind (tot_sum (tot_sum_piM q (-2))) (tot_pure _))
      · rw [← e]
        exact ih _ (by linarith) (by push_cast at h2; linarith)
    · rw [rem2_self h1 (not_le.1 h3)]
      refine .done _ ?_
      rw [hF]
      refine tot_bind (tot_evalE hx) (tot_bind (tot_evalE hy) ?_)
      simp only [hge, h3, decide_false, Bool.false_eq_true, if_false]
      exact tot_pure _

/-- The angle is shifted into [0, 2π), without conditions. -/
theorem tot_shiftAtan (hc : cfg.Ok) (p s : ℚ) : Tot cfg (fun E => shiftAtanResultIntoRange E (piM p) (piM s)) (piM (rem2 (p + s))) := by
  unfold shiftAtanResultIntoRange
  obtain ⟨x, hx, -⟩ := piM_eval (D := D) p
  refine tot_bind (tot_timesPi 2) (tot_bind (a := x) ?_ ?_)
  · unfold assertEval
    exact tot_bind (tot_lift hx) (tot_pure _)
  have hn : ((piM p : Expr D).isNumeric && !(piM p : Expr D).isZero) = false := by
    rw [piM_isZero]
    unfold piM
    split_ifs <;> simp_all [Expr.isNumeric]
  simp only [hn, Bool.false_eq_true, if_false]
  refine tot_bind (tot_pure _) (tot_bind (tot_pure _) (tot_bind (tot_sum (tot_sum_piM p s)) ?_))
  have hup : Tot cfg (fun E => shiftAtanUp E (piM 2) (piM (p + s))) _ := tot_adjustUp (D := D) (cfg := cfg) (q := p + s)
  refine tot_bind hup ?_
  have hd : Tot cfg (fun E => shiftAtanDown E (piM 2) (if p + s < 0 then piM (rem2 (p + s)) else piM (p + s))) (piM (rem2 (p + s))) := by
    by_cases h : p + s < 0
    · rw [if_pos h]
      have := tot_shiftDown (D := D) hc (rem2_nonneg (p + s))
      rwa [rem2_self (rem2_nonneg _) (rem2_lt _)] at this
    · rw [if_neg h]
      exact tot_shiftDown hc (not_lt.1 h)
  refine tot_bind hd ?_
  obtain ⟨z, hz, vz⟩ := piM_eval (D := D) (rem2 (p + s))
  refine tot_bind (tot_evalE hz) (tot_bind (a := ()) (tot_logIf ?_) (tot_pure _))
  rw [← Bool.not_eq_true, Number.lt_iff, vz, not_lt]
  have : (0 : ℝ) ≤ rem2 (p + s) := by exact_mod_cast rem2_nonneg (p + s)
  simpa using mul_nonneg this Real.pi_pos.le

/-- The quotient of two numbers. -/
theorem tot_atan2Arg (hc : cfg.Ok) {y x : ℚ} (hx : x ≠ 0) (hok : NumOk cfg.maxPrime x) :
    Tot cfg (fun E => atan2ArgEval E (num (.rat y)) (num (.rat x))) (num (.rat (y / x)) : Expr D) := by
  unfold atan2ArgEval
  have h := tot_powNum (cfg := cfg) hc (q := x) (n := -1) (.inl hx) (by norm_num [Number.unsignedMax]) (fun _ => hok)
  rw [zpow_neg_one] at h
  have h2 : (int (-1) : Expr D) = mOne := by rw [mOne_rat]; simp [int]
  rw [h2] at h
  refine tot_bind (a := num (.rat x⁻¹)) (tot_pow h) ?_
  rw [div_eq_mul_inv]
  refine tot_prod ?_
  by_cases hy : y = 0
  · subst hy
    have z1 : (num (.rat 0) : Expr D).isZero = true := by rw [isZero_ratE]; simp
    simp only [prodCreate, List.any_cons, List.any_nil, show ∀ p, (Expr.num (.rat p) : Expr D).isUndefined = false from fun _ => rfl, z1, Bool.or_self, Bool.false_eq_true,
      if_false, Bool.true_or, if_true, zero_mul]
    exact zero_eq (D := D) ▸ tot_pure _
  · exact tot_num_num hy (inv_ne_zero hx)

section

variable (hc : cfg.Ok) (h6 : 6 ≤ cfg.maxPrime) {y x : ℚ} (hx : x ≠ 0) (hok : NumOk cfg.maxPrime x) (yN xN : Number D)
include hc h6

/-- The arctangent of the quotient in the numerical simplification. -/
theorem tot_simplAtan_num (r : ℚ) : Tot cfg (fun E => NumTrigo.simplAtan E (num (.rat r) : Expr D))
    ((if r = 0 then some 0 else if r = 1 then some (1 / 4) else if r = -1 then some (-(1 / 4)) else none : Option ℚ).map fun a => (piM a, false)) := by
  have d : ∀ r : ℚ, (num (.rat r) : Expr D).isDoubleNumeric = false := fun _ => rfl
  rcases lt_or_ge r 0 with h | h
  · have nv := nv_num (D := D) (cfg := cfg) (neg_pos.2 h)
    rw [neg_neg] at nv
    have := tot_atan_core hc tan_tabOk (tot_tanTable hc h6) (d r) nv.cv (-1) nv.tot_prepare
    rw [if_neg h.ne, if_neg (by linarith)]
    by_cases h1 : r = -1
    · rw [if_pos h1]
      subst h1
      have hm : ((1 / 4 : ℚ), (num (.rat 1) : Expr D)) ∈ (tanTab 1 : List (ℚ × Expr D)) := by
        simp only [tanTab, List.mem_cons, one_eq, Prod.mk.injEq]; norm_num
      have hk := tan_key hm (by norm_num)
      have e : (((-(-1 : ℚ)) : ℚ) : ℝ) = Real.tan ((1 / 4 : ℚ) * Real.pi) := by
        rw [show (((1 / 4 : ℚ) : ℝ)) * Real.pi = Real.pi / 4 by push_cast; ring, Real.tan_pi_div_four]; norm_num
      rw [e, hk] at this
      simpa using this
    · rw [if_neg h1]
      rwa [tan_key_none (by linarith) ⟨by linarith, fun e => h1 (by linarith)⟩] at this
  · have cv := cv_num (D := D) (cfg := cfg) h
    have := tot_atan_core hc tan_tabOk (tot_tanTable hc h6) (d r) cv 1 cv.tot_prepare
    by_cases h0 : r = 0
    · rw [if_pos h0]
      subst h0
      have hm : ((0 : ℚ), (num (.rat 0) : Expr D)) ∈ (tanTab 1 : List (ℚ × Expr D)) := by
        simp only [tanTab, List.mem_cons, zero_eq, Prod.mk.injEq]; norm_num
      have hk := tan_key hm (by norm_num)
      have e : ((0 : ℚ) : ℝ) = Real.tan ((0 : ℚ) * Real.pi) := by simp
      rw [e, hk] at this
      simpa using this
    · rw [if_neg h0]
      by_cases h1 : r = 1
      · rw [if_pos h1]
        subst h1
        have hm : ((1 / 4 : ℚ), (num (.rat 1) : Expr D)) ∈ (tanTab 1 : List (ℚ × Expr D)) := by
          simp only [tanTab, List.mem_cons, one_eq, Prod.mk.injEq]; norm_num
        have hk := tan_key hm (by norm_num)
        have e : ((1 : ℚ) : ℝ) = Real.tan ((1 / 4 : ℚ) * Real.pi) := by
          rw [show (((1 / 4 : ℚ) : ℝ)) * Real.pi = Real.pi / 4 by push_cast; ring, Real.tan_pi_div_four]; norm_num
        rw [e, hk] at this
        simpa using this
      · rw [if_neg h1, if_neg (by linarith)]
        rwa [tan_key_none h ⟨h0, h1⟩] at this

include hx hok

/-- The quotient is the tangent of `a` times π. -/
theorem simplAtan2_some {a : ℚ} (s : ℚ) (ha : (if y / x = 0 then some 0 else if y / x = 1 then some (1 / 4) else if y / x = -1 then some (-(1 / 4)) else none : Option ℚ) = some a) :
    Gets cfg (fun E => simplAtan2 E (num (.rat y)) (num (.rat x)) yN xN (piM s)) (piM (rem2 (a + s))) ∧
    (yN.lt 0 = false → Tot cfg (fun E => simplAtan2 E (num (.rat y)) (num (.rat x)) yN xN (piM s)) (piM (rem2 (a + s)))) := by
  have harg := tot_atan2Arg (D := D) hc (y := y) hx hok
  have hs := tot_simplAtan_num (D := D) hc h6 (y / x)
  rw [ha, Option.map_some] at hs
  unfold simplAtan2
  refine ⟨rs_bind harg.rs (rs_bind harg.rs (rs_bind hs.rs (rs_bind (gets_logIf _ _) (tot_shiftAtan hc a s).rs))), fun hl => ?_⟩
  exact tot_bind harg (tot_bind harg (tot_bind hs (tot_bind (a := ()) (tot_logIf hl) (tot_shiftAtan hc a s))))

/-- The quotient is not. -/
theorem simplAtan2_none (s : ℚ) (h0 : y / x ≠ 0) (h1 : y / x ≠ 1) (h2 : y / x ≠ -1) {r : Expr D}
    (hr : r = if 0 < y / x then .fn .atan (num (.rat (y / x))) else .prod [mOne, .fn .atan (num (.rat (-(y / x))))]) :
    Gets cfg (fun E => simplAtan2 E (num (.rat y)) (num (.rat x)) yN xN (piM s)) r ∧
    (xN.lt 0 = false → Tot cfg (fun E => simplAtan2 E (num (.rat y)) (num (.rat x)) yN xN (piM s)) r) := by
  have harg := tot_atan2Arg (D := D) hc (y := y) hx hok
  have hs := tot_simplAtan_num (D := D) hc h6 (y / x)
  rw [if_neg h0, if_neg h1, if_neg h2, Option.map_none] at hs
  have hn := tot_silent (tot_isNeg_num (D := D) (cfg := cfg) (y / x))
  have fin : Tot cfg (fun E => if (decide (y / x < 0)) = true then createBySymmetry E .atan (num (.rat (y / x)) : Expr D) else pure (.fn .atan (num (.rat (y / x))))) r := by
    by_cases h : y / x < 0
    · rw [if_neg (not_lt.2 h.le)] at hr
      simp only [h, decide_true, if_true]
      unfold createBySymmetry
      have nv := nv_num (D := D) (cfg := cfg) (neg_pos.2 h)
      rw [neg_neg] at nv
      have hp := nv.cv.tot_atan hc tan_tabOk (tot_tanTable hc h6)
      rw [tan_key_none (by linarith) ⟨by linarith, fun e => h2 (by linarith)⟩, Option.map_none, Option.getD_none] at hp
      subst hr
      exact tot_bind nv.minus (tot_bind (tot_trig hp) (tot_minus_fn nv.cv.exact))
    · rw [if_pos (lt_of_le_of_ne (not_lt.1 h) h0.symm)] at hr
      simp only [h, decide_false, Bool.false_eq_true, if_false]
      subst hr
      exact tot_pure _
  unfold simplAtan2
  refine ⟨rs_bind harg.rs (rs_bind harg.rs (rs_bind hs.rs (rs_bind (gets_logIf _ _) (rs_bind hn.rs fin.rs)))), fun hl => ?_⟩
  exact tot_bind harg (tot_bind harg (tot_bind hs (tot_bind (a := ()) (tot_logIf hl) (tot_bind hn fin))))

end

end Tsym
