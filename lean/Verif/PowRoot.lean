import Verif.QPow
import Verif.RootPow

set_option autoImplicit false
set_option linter.unusedSectionVars false
set_option linter.unusedSimpArgs false
set_option linter.unusedVariables false

/-!
# Powers of powers of rational numbers
-/

namespace Tsym

open Expr NumPowerSimpl

section

variable {D : Type} [Flt D] [LawfulFlt D] {cfg : Cfg D}

theorem M.ok_bind {α β : Type} {m : M D α} {a : α} (h : m = .ok (a, [])) (f : α → M D β) : (m >>= f) = f a := by
  subst h
  change M.bind (Except.ok (a, [])) f = f a
  simp only [M.bind]
  cases f a with
  | error e => rfl
  | ok p => simp; rfl

/-- The exponents are multiplied. -/
theorem ev_simplPow {b x k : ℚ} (hb : 0 < b) (hx : x ≠ 0) (hk : k ≠ 0) :
    ∃ N, ∀ n, N ≤ n → simplPow (eng cfg n) (.pow (num (.rat b)) (num (.rat x)) : Expr D) (num (.rat k)) = (eng cfg n).simplPow (num (.rat b)) (num (.rat (x * k))) := by
  have hn : Tot cfg (fun E => isNeg E (.pow (num (.rat b)) (num (.rat x)) : Expr D)) false := by simp only [isNeg]; exact tot_pure _
  obtain ⟨N1, h1⟩ := Qf.tot_noComplex (k := k) hn (.inr rfl)
  obtain ⟨N2, h2⟩ : Tot cfg (fun E => newPowerBase E (num (.rat b)) (num (.rat x)) (num (.rat k))) (some (num (.rat b)) : Option (Expr D)) := by
    unfold newPowerBase doContractExpFirst
    refine tot_bind (a := true) (tot_bind (tot_lift (Qf.isInteger_rat x)) ?_) ?_
    · refine tot_bind (a := decide (x.den = 1) && decide (k.den = 1)) ?_ ?_
      · cases decide (x.den = 1)
        · simp only [Bool.false_eq_true, if_false, Bool.false_and]; exact tot_pure _
        · simp only [if_true, Bool.true_and]; exact tot_lift (Qf.isInteger_rat k)
      · cases decide (x.den = 1) && decide (k.den = 1)
        · simp only [Bool.false_eq_true, if_false]
          cases areTwoFractionExpWithOddDenom (num (.rat x) : Expr D) (num (.rat k))
          · simp only [Bool.false_eq_true, if_false]
            exact tot_whenTrue (tot_isPos (Qf.ps_rat hb).1)
          · simp only [if_true]; exact tot_pure _
        · simp only [if_true]; exact tot_pure _
    · simp only [if_true]
      exact tot_pure _
  obtain ⟨N3, h3⟩ := tot_prod (tot_num_num (D := D) (cfg := cfg) hx hk)
  have e4 : (num (.rat (x * k)) : Expr D).isZero = false := by rw [isZero_ratE]; simpa using ⟨hx, hk⟩
  refine ⟨max N1 (max N2 N3), fun n hn => ?_⟩
  have h1 := h1 n (by omega)
  have h2 := h2 n (by omega)
  have h3 := h3 n (by omega)
  dsimp only at h1 h2 h3
  unfold simplPow
  rw [M.ok_bind h1]
  simp only [Bool.false_eq_true, if_false]
  unfold simplifyPowerBase
  rw [M.ok_bind h2]
  simp only
  rw [M.ok_bind h3]
  simp only [e4, Bool.false_eq_true, if_false]

theorem ev_powCreate {b x k : ℚ} (hb : 0 < b) (hx : x ≠ 0) (hk : k ≠ 0) (hk1 : k ≠ 1) :
    ∃ N, ∀ n, N ≤ n → powCreate (eng cfg (n + 1)) (.pow (num (.rat b)) (num (.rat x)) : Expr D) (num (.rat k)) =
      powCreateNonTrivial (eng cfg n) (num (.rat b)) (num (.rat (x * k))) := by
  obtain ⟨N, hN⟩ := ev_simplPow (D := D) (cfg := cfg) hb hx hk
  refine ⟨N, fun n hn => ?_⟩
  have u : (Expr.pow (num (.rat b)) (num (.rat x)) : Expr D).isUndefined = false := rfl
  have o : (Expr.pow (num (.rat b)) (num (.rat x)) : Expr D).isOne = false := rfl
  have z : (Expr.pow (num (.rat b)) (num (.rat x)) : Expr D).isZero = false := rfl
  have u2 : (num (.rat k) : Expr D).isUndefined = false := rfl
  simp only [powCreate, u, o, z, u2, isZero_ratE, isOne_ratE, hk, hk1, decide_false, Bool.or_self, Bool.false_eq_true, if_false]
  unfold powCreateNonTrivial
  rw [show (eng cfg (n + 1)).simplPow (.pow (num (.rat b)) (num (.rat x)) : Expr D) (num (.rat k)) =
    simplPow (eng cfg n) (.pow (num (.rat b)) (num (.rat x))) (num (.rat k)) from rfl, hN n hn]

theorem totC_pow_power {b x k : ℚ} (hb : 0 < b) (hx : x ≠ 0) (hk : k ≠ 0) (hk1 : k ≠ 1) {cs : List (Cond D)} {v : Expr D}
    (h : TotC cfg cs (fun E => powCreateNonTrivial E (num (.rat b)) (num (.rat (x * k)))) v) :
    TotC cfg cs (fun E => powCreate E (.pow (num (.rat b)) (num (.rat x)) : Expr D) (num (.rat k))) v := by
  obtain ⟨N, hN⟩ := ev_powCreate (D := D) (cfg := cfg) hb hx hk hk1
  obtain ⟨K, hK⟩ := h
  refine ⟨max N K + 1, fun n hn => ?_⟩
  obtain ⟨m, rfl⟩ : ∃ m, n = m + 1 := ⟨n - 1, by omega⟩
  have := hN m (by omega)
  dsimp only
  rw [this]
  exact hK m (by omega)

theorem powNT_eq {b y : ℚ} (hb : b ≠ 0) (hb1 : b ≠ 1) (hy : y ≠ 0) (hy1 : y ≠ 1) (E : Eng D) :
    powCreate E (num (.rat b) : Expr D) (num (.rat y)) = powCreateNonTrivial E (num (.rat b)) (num (.rat y)) := by
  have u1 : (num (.rat b) : Expr D).isUndefined = false := rfl
  have u2 : (num (.rat y) : Expr D).isUndefined = false := rfl
  simp only [powCreate, u1, u2, isZero_ratE, isOne_ratE, hb, hb1, hy, hy1, Bool.or_self, Bool.false_eq_true, if_false, decide_false]

end

end Tsym
