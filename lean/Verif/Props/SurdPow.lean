import Verif.SurdSign

set_option autoImplicit false
set_option linter.unusedSectionVars false
set_option linter.unusedSimpArgs false

/-!
# C91: expanding powers of sums of square roots

Natural powers of sums of at least two integer multiples of square roots (C90) expand to the sum with the power of the value. That sum again has
at least two summands, so the expansion never meets a product of sums that is no sum.
-/

namespace Tsym

section

open Expr Surds

variable {D : Type} [Flt D] [LawfulFlt D] {cfg : Cfg D}

/-! ## C91 -/

/-- C91. A natural power of a sum of at least two summands expands to a sum of at least two summands with the power of the value. All numbers below
the roots divide `P`, and the products of `P` with these numbers are within the limit for primes. -/
theorem C91_expand (hc : cfg.Ok) (hub : cfg.strictUb = false) (h1 : 1 ≤ cfg.maxPrime) (L : List (ℚ × ℕ)) (hL : Surds.Int L) (h2 : 2 ≤ L.length)
    (P : ℕ) (hP0 : 0 < P) (hP : ∀ m ∈ L, m.2 ∣ P) (hmax : ∀ m ∈ L, ((P * m.2 : ℕ) : ℤ) ≤ cfg.maxPrime) (n : ℕ) (hn : 1 ≤ n) :
    ∃ R, Surds.Int R ∧ 2 ≤ R.length ∧ (∀ m ∈ R, m.2 ∣ P) ∧ value R = value L ^ n ∧
      Gives cfg (fun E => Api.expand E (.pow (expr L : Expr D) (.num (.rat n)))) (expr R) := by
  obtain ⟨j, rfl⟩ : ∃ j, n = j + 1 := ⟨n - 1, by omega⟩
  have ls := hL.ok.sl
  obtain ⟨R, hR, hp⟩ := Sd.tot_expand_power (D := D) hc hub h1 ls h2 hL.zm hP hP0 hmax j
  have hR2 := hp.two ls h2
  refine ⟨R, ⟨ok_of (hp.sl ls), fun m hm => (hp.zm hL.zm m hm).int⟩, hR2, hp.dvd hP, hp.value ls, ?_⟩
  rw [expr_eq, expr_eq, Sd.sumOf_two h2, Sd.sumOf_two hR2]
  exact hR.gives (Api.expand_mono _ id Lean.Order.monotone_id)

/-- C91. Two expanded powers are the same expression exactly if the powers have the same value. -/
theorem C91_equal (hc : cfg.Ok) (hub : cfg.strictUb = false) (h1 : 1 ≤ cfg.maxPrime) (L M : List (ℚ × ℕ)) (hL : Surds.Int L) (hM : Surds.Int M)
    (h2 : 2 ≤ L.length) (h2' : 2 ≤ M.length) (P : ℕ) (hP0 : 0 < P) (hP : ∀ m ∈ L ++ M, m.2 ∣ P)
    (hmax : ∀ m ∈ L ++ M, ((P * m.2 : ℕ) : ℤ) ≤ cfg.maxPrime) (n k : ℕ) (hn : 1 ≤ n) (hk : 1 ≤ k) :
    ∃ r s : Expr D, Gives cfg (fun E => Api.expand E (.pow (expr L : Expr D) (.num (.rat n)))) r ∧
      Gives cfg (fun E => Api.expand E (.pow (expr M : Expr D) (.num (.rat k)))) s ∧ (r = s ↔ value L ^ n = value M ^ k) := by
  obtain ⟨R, hR, _, _, v, g⟩ := C91_expand (D := D) hc hub h1 L hL h2 P hP0 (fun m hm => hP m (by simp [hm])) (fun m hm => hmax m (by simp [hm])) n hn
  obtain ⟨S, hS, _, _, w, g'⟩ := C91_expand (D := D) hc hub h1 M hM h2' P hP0 (fun m hm => hP m (by simp [hm])) (fun m hm => hmax m (by simp [hm])) k hk
  exact ⟨_, _, g, g', by rw [(C89_equal (D := D) R S hR.ok hS.ok).1, v, w]⟩

/-- C91. Expanding in two steps: the product of the expanded powers is the expanded power with the sum of the exponents, unless the two
powers have the same value. -/
theorem C91_mul (hc : cfg.Ok) (hub : cfg.strictUb = false) (h1 : 1 ≤ cfg.maxPrime) (L : List (ℚ × ℕ)) (hL : Surds.Int L) (h2 : 2 ≤ L.length)
    (P : ℕ) (hP0 : 0 < P) (hP : ∀ m ∈ L, m.2 ∣ P) (hmax : ((P * P : ℕ) : ℤ) ≤ cfg.maxPrime) (n k : ℕ) (hn : 1 ≤ n) (hk : 1 ≤ k)
    (hv : value L ^ n ≠ value L ^ k) :
    ∃ r s t : Expr D, Gives cfg (fun E => Api.expand E (.pow (expr L : Expr D) (.num (.rat n)))) r ∧
      Gives cfg (fun E => Api.expand E (.pow (expr L : Expr D) (.num (.rat k)))) s ∧
      Gives cfg (fun E => Api.expand E (.pow (expr L : Expr D) (.num (.rat (n + k : ℕ))))) t ∧ Gives cfg (fun E => Api.mul E r s) t := by
  have le : ∀ {a b : ℕ}, a ∣ P → b ∣ P → ((a * b : ℕ) : ℤ) ≤ cfg.maxPrime := fun {a b} ha hb => by
    refine le_trans ?_ hmax
    exact_mod_cast Nat.mul_le_mul (Nat.le_of_dvd hP0 ha) (Nat.le_of_dvd hP0 hb)
  have hm : ∀ m ∈ L, ((P * m.2 : ℕ) : ℤ) ≤ cfg.maxPrime := fun m h => le (dvd_refl P) (hP m h)
  obtain ⟨R, hR, _, dR, v, g⟩ := C91_expand (D := D) hc hub h1 L hL h2 P hP0 hP hm n hn
  obtain ⟨S, hS, _, dS, w, g'⟩ := C91_expand (D := D) hc hub h1 L hL h2 P hP0 hP hm k hk
  obtain ⟨T, hT, _, _, x, g''⟩ := C91_expand (D := D) hc hub h1 L hL h2 P hP0 hP hm (n + k) (by omega)
  obtain ⟨U, hU, y, g3⟩ := C90_mul (D := D) hc hub h1 R S hR hS (fun a ha b hb => le (dR a ha) (dS b hb)) (fun e => by
    exfalso; apply hv; rw [← v, ← w, e])
  have e := ((C89_equal (D := D) U T hU.ok hT.ok).1).2 (by rw [y, x, v, w, pow_add])
  exact ⟨_, _, _, g, g', g'', e ▸ g3⟩

end

/-! ## Examples -/

/-- `C91_expand`: 1 + √2 + √3, all numbers below the roots divide 6. -/
example : Surds.Int [(1, 1), (1, 2), (1, 3)] ∧ (∀ m ∈ [((1 : ℚ), 1), (1, 2), (1, 3)], m.2 ∣ 6) ∧
    (∀ m ∈ [((1 : ℚ), 1), (1, 2), (1, 3)], ((6 * m.2 : ℕ) : ℤ) ≤ (Cfg.std (D := Hyb) 1000).maxPrime) := by
  have h2 : Squarefree 2 := Nat.prime_two.squarefree
  have h3 : Squarefree 3 := Nat.prime_three.squarefree
  refine ⟨⟨⟨?_, ?_, ?_, ?_⟩, ?_⟩, ?_, ?_⟩ <;> simp [h2, h3, Cfg.std]

example : Api.expand (eng (Cfg.std 1000) 60 : Eng Hyb) (.pow (Surds.expr [(1, 1), (1, 2), (1, 3)]) (.num (.rat 2))) =
    .ok (Surds.expr [(6, 1), (2, 2), (2, 3), (2, 6)], []) := by krfl

example : Api.expand (eng (Cfg.std 1000) 80 : Eng Hyb) (.pow (Surds.expr [(1, 1), (1, 2)]) (.num (.rat 5))) =
    .ok (Surds.expr [(41, 1), (29, 2)], []) := by krfl

/-- `C91_mul`: the values of different powers of 1 + √2 are different. -/
example : Surds.value [(1, 1), (1, 2)] ^ 1 ≠ Surds.value [(1, 1), (1, 2)] ^ 2 := by
  have h : Surds.value [(1, 1), (1, 2)] = 1 + √2 := by simp [Surds.value]
  have hs : 0 < √(2 : ℝ) := Real.sqrt_pos.2 (by norm_num)
  rw [h]; nlinarith

end Tsym
