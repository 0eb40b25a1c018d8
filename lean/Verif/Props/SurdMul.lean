import Verif.SurdSums
import Verif.Props.Surds

set_option autoImplicit false
set_option linter.unusedSectionVars false
set_option linter.unusedSimpArgs false

/-!
# C90: products of sums of multiples of square roots

Products of sums of integer multiples of square roots of squarefree natural numbers (C89), as long as the products of the numbers below
the roots stay within the limit for primes. The product of two different sums is the sum with the product of the values; a sum times itself
is a power instead, which is not that sum.
-/

namespace Tsym

/-! ## Specification -/

namespace Surds

/-- A sum as in C89 with integers before the roots. -/
structure Int (L : List (ℚ × ℕ)) : Prop where
  ok : Ok L
  int : ∀ m ∈ L, m.1.den = 1

end Surds

/-! ## Proofs -/

namespace Surds

open Expr

variable {D : Type} [Flt D] [LawfulFlt D] {cfg : Cfg D}

theorem Int.zm {L : List (ℚ × ℕ)} (h : Int L) : ∀ m ∈ L, Sd.ZM m := fun m hm => ⟨h.ok.ne m hm, h.ok.free m hm, h.int m hm⟩

/-- The value as a linear function of the numbers before the roots. -/
noncomputable def val (f : ℕ →₀ ℚ) : ℝ := f.sum fun n q => (q : ℝ) * √(n : ℝ)

theorem val_add (f g : ℕ →₀ ℚ) : val (f + g) = val f + val g :=
  Finsupp.sum_add_index' (by simp) (by intro a b c; push_cast; ring)

theorem val_list (l : List (ℕ →₀ ℚ)) : val l.sum = (l.map val).sum := by
  induction l with
  | nil => simp [val]
  | cons f l ih => rw [List.sum_cons, val_add, ih, List.map_cons, List.sum_cons]

theorem val_mulM (m n : ℚ × ℕ) : val (Sd.co [Sd.mulM m n]) = (m.1 : ℝ) * √(m.2 : ℝ) * (n.1 * √(n.2 : ℝ)) := by
  rw [Sd.co_cons, Sd.co_nil, add_zero, val, Finsupp.sum_single_index (by simp)]
  have h : ((m.2 * n.2 : ℕ) : ℝ) = ((m.2.gcd n.2 : ℕ) : ℝ) ^ 2 * (Sd.below m.2 n.2 : ℕ) := by exact_mod_cast Sd.below_mul m.2 n.2
  have hs : √(m.2 : ℝ) * √(n.2 : ℝ) = (m.2.gcd n.2 : ℕ) * √((Sd.below m.2 n.2 : ℕ) : ℝ) := by
    rw [← Real.sqrt_mul (by positivity), ← Nat.cast_mul, h, Real.sqrt_mul (by positivity), Real.sqrt_sq (by positivity)]
  show ((m.1 * n.1 * (m.2.gcd n.2 : ℕ) : ℚ) : ℝ) * √((Sd.below m.2 n.2 : ℕ) : ℝ) = _
  push_cast
  linear_combination -((m.1 : ℝ) * n.1) * hs

theorem value_mul {L M R : List (ℚ × ℕ)} (hL : Ok L) (hM : Ok M) (h : Sd.Mul L M R) : value R = value L * value M := by
  rw [value_eq R]
  show val (Sd.co R) = _
  have fL := hL.free
  have fM := hM.free
  rw [h.co]
  unfold Sd.coMul
  rw [val_list, List.map_map]
  clear h hL
  induction L with
  | nil => simp [value]
  | cons m L ih =>
    rw [List.map_cons, List.sum_cons, ih fun n hn => fL n (by simp [hn])]
    have : (val ∘ fun m => (M.map fun n => Sd.co [Sd.mulM m n]).sum) m = (m.1 : ℝ) * √(m.2 : ℝ) * value M := by
      show val (M.map fun n => Sd.co [Sd.mulM m n]).sum = _
      rw [val_list, List.map_map]
      clear ih hM
      induction M with
      | nil => simp [value]
      | cons n M ihM =>
        rw [List.map_cons, List.sum_cons, ihM fun n hn => fM n (by simp [hn])]
        have := val_mulM m n
        simp only [Function.comp_apply, this, value, List.map_cons, List.sum_cons]
        ring
    rw [this]
    simp only [value, List.map_cons, List.sum_cons]
    ring

theorem mul_single {m : ℚ × ℕ} {L R : List (ℚ × ℕ)} (h : Sd.Added (L.map fun n => [Sd.mulM m n]) R) : Sd.Mul [m] L R :=
  ⟨h.sl, by rw [h.co, List.map_map]; simp [Sd.coMul, Function.comp_def]⟩

theorem tot_zero_mul {e : Expr D} (h : e.isUndefined = false) :
    Tot cfg (fun E => prodCreate E [num (.rat 0), e]) (num (.rat 0)) ∧ Tot cfg (fun E => prodCreate E [e, num (.rat 0)]) (num (.rat 0)) := by
  have z : (num (.rat 0) : Expr D).isZero = true := by rw [isZero_ratE]; simp
  have u : (num (.rat 0) : Expr D).isUndefined = false := rfl
  constructor
  all_goals
    simp only [prodCreate, List.any_cons, List.any_nil, h, u, z, Bool.or_self, Bool.or_false, Bool.or_true, Bool.true_or, Bool.false_eq_true, if_false, if_true, zero_eq]
    exact tot_pure _

theorem sumOf_undef {L : List (ℚ × ℕ)} (h : Sd.SL L) : (sumOf (L.map (Sd.em (D := D)))).isUndefined = false := by
  match L, h with
  | [], _ => rfl
  | [m], h => exact (h.sm m (by simp)).isUndefined
  | m :: m' :: L, _ => rfl

theorem mul_tot (hc : cfg.Ok) (hub : cfg.strictUb = false) (h1 : 1 ≤ cfg.maxPrime) (L M : List (ℚ × ℕ)) (hL : Surds.Int L) (hM : Surds.Int M)
    (hmax : ∀ m ∈ L, ∀ n ∈ M, ((m.2 * n.2 : ℕ) : ℤ) ≤ cfg.maxPrime) (hne : L = M → L.length ≤ 1) :
    ∃ R, Sd.Mul L M R ∧ Tot cfg (fun E => prodCreate E [(expr L : Expr D), expr M]) (expr R) := by
  have lz := hL.zm
  have mz := hM.zm
  have ls := hL.ok.sl
  have ms := hM.ok.sl
  simp only [expr_eq]
  clear hL hM
  have e0 : sumOf (([] : List (ℚ × ℕ)).map (Sd.em (D := D))) = num (.rat 0) := zero_eq
  match L, M with
  | [], M =>
    refine ⟨[], ⟨Sd.SL.nil, rfl⟩, ?_⟩
    rw [e0]; exact (tot_zero_mul (sumOf_undef ms)).1
  | L, [] =>
    refine ⟨[], ⟨Sd.SL.nil, (Sd.coMul_nil_right L).symm⟩, ?_⟩
    rw [e0]; exact (tot_zero_mul (sumOf_undef ls)).2
  | [m], [n] =>
    have hm := lz m (by simp)
    have hn := mz n (by simp)
    refine ⟨[Sd.mulM m n], ⟨Sd.SL.single (hm.mul hn).sm, by simp [Sd.coMul]⟩, ?_⟩
    exact Sd.tot_mulM hc hub h1 hm hn (hmax m (by simp) n (by simp))
  | [m], n :: n' :: M =>
    obtain ⟨R, hR, A⟩ := Sd.tot_em_sum (D := D) hc hub h1 (lz m (by simp)) ms (by simp) mz (hmax m (by simp))
    exact ⟨R, mul_single A, hR⟩
  | m :: m' :: L, [n] =>
    obtain ⟨R, hR, A⟩ := Sd.tot_sum_em (D := D) hc hub h1 (mz n (by simp)) ls (by simp) lz (fun k hk => by rw [mul_comm]; exact hmax k hk n (by simp))
    exact ⟨R, (mul_single A).comm, hR⟩
  | m :: m' :: L, n :: n' :: M =>
    obtain ⟨R, hR, A⟩ := Sd.tot_mul_sums (D := D) hc hub h1 ls ms (by simp) (by simp) lz mz hmax (fun e => by have := hne e; simp at this)
    exact ⟨R, A, hR⟩

end Surds

section

open Expr Surds

variable {D : Type} [Flt D] [LawfulFlt D] {cfg : Cfg D}

/-! ## C90 -/

/-- C90. The product of two sums, other than that of a sum of at least two summands with itself, always returns the sum with the product of
the values. The increment of the end iterator in contractConst is taken to have no effect. -/
theorem C90_mul (hc : cfg.Ok) (hub : cfg.strictUb = false) (h1 : 1 ≤ cfg.maxPrime) (L M : List (ℚ × ℕ)) (hL : Surds.Int L) (hM : Surds.Int M)
    (hmax : ∀ m ∈ L, ∀ n ∈ M, ((m.2 * n.2 : ℕ) : ℤ) ≤ cfg.maxPrime) (hne : L = M → L.length ≤ 1) :
    ∃ R, Surds.Int R ∧ value R = value L * value M ∧ Gives cfg (fun E => Api.mul E (expr L : Expr D) (expr M)) (expr R) := by
  obtain ⟨R, hR, hT⟩ := mul_tot (D := D) hc hub h1 L M hL hM hmax hne
  exact ⟨R, ⟨ok_of hR.sl, fun m hm => (Sd.zm_of hR hL.zm hM.zm m hm).int⟩, value_mul hL.ok hM.ok hR, (tot_prod hT).gives (apiMul_mono _ _)⟩

/-- C90. The order of the two factors does not matter. -/
theorem C90_comm (hc : cfg.Ok) (hub : cfg.strictUb = false) (h1 : 1 ≤ cfg.maxPrime) (L M : List (ℚ × ℕ)) (hL : Surds.Int L) (hM : Surds.Int M)
    (hmax : ∀ m ∈ L, ∀ n ∈ M, ((m.2 * n.2 : ℕ) : ℤ) ≤ cfg.maxPrime) (hne : L = M → L.length ≤ 1) :
    ∃ r : Expr D, Gives cfg (fun E => Api.mul E (expr L : Expr D) (expr M)) r ∧ Gives cfg (fun E => Api.mul E (expr M : Expr D) (expr L)) r := by
  obtain ⟨R, hR, v, g⟩ := C90_mul (D := D) hc hub h1 L M hL hM hmax hne
  obtain ⟨R', hR', v', g'⟩ := C90_mul (D := D) hc hub h1 M L hM hL (fun m hm n hn => by rw [mul_comm]; exact hmax n hn m hm) (fun e => by subst e; exact hne rfl)
  have e := ((C89_equal (D := D) R R' hR.ok hR'.ok).1).2 (by rw [v, v', mul_comm])
  exact ⟨_, g, by rw [e]; exact g'⟩

/-- C90. Zero divisors do not exist: a product is zero exactly if a factor is. -/
theorem C90_zero (hc : cfg.Ok) (hub : cfg.strictUb = false) (h1 : 1 ≤ cfg.maxPrime) (L M : List (ℚ × ℕ)) (hL : Surds.Int L) (hM : Surds.Int M)
    (hmax : ∀ m ∈ L, ∀ n ∈ M, ((m.2 * n.2 : ℕ) : ℤ) ≤ cfg.maxPrime) (hne : L = M → L.length ≤ 1) :
    Gives cfg (fun E => Api.mul E (expr L : Expr D) (expr M)) (.num (.rat 0)) ↔ (expr L : Expr D) = .num (.rat 0) ∨ (expr M : Expr D) = .num (.rat 0) := by
  obtain ⟨R, hR, v, g⟩ := C90_mul (D := D) hc hub h1 L M hL hM hmax hne
  have z : ∀ K, Ok K → ((expr K : Expr D) = .num (.rat 0) ↔ value K = 0) := fun K hK => by
    rw [show (num (.rat 0) : Expr D) = expr [] from rfl, (C89_equal (D := D) K [] hK (ok_of Sd.SL.nil)).1]; simp [value]
  rw [z L hL.ok, z M hM.ok, ← mul_eq_zero, ← v, ← z R hR.ok]
  constructor
  · intro g'; exact g.unique g'
  · intro e; rw [← e]; exact g

end

/-! ## Examples -/

/-- `C90_mul`: 1 + √2 and -3*√2 + 2*√15, with products of the numbers below the roots up to 30. -/
example : Surds.Int [(1, 1), (1, 2)] ∧ Surds.Int [(-3, 2), (2, 15)] ∧
    (∀ m ∈ [((1 : ℚ), 1), (1, 2)], ∀ n ∈ [((-3 : ℚ), 2), (2, 15)], ((m.2 * n.2 : ℕ) : ℤ) ≤ (Cfg.std (D := Hyb) 1000).maxPrime) ∧
    (Cfg.std (D := Hyb) 1000).strictUb = false := by
  have h2 : Squarefree 2 := Nat.prime_two.squarefree
  have h15 : Squarefree 15 := by rw [Nat.squarefree_iff_nodup_primeFactorsList (by norm_num)]; decide +kernel
  refine ⟨⟨⟨?_, ?_, ?_, ?_⟩, ?_⟩, ⟨⟨?_, ?_, ?_, ?_⟩, ?_⟩, ?_, rfl⟩ <;> simp [h2, h15, Cfg.std]

example : Api.mul (eng (Cfg.std 1000) 60 : Eng Hyb) (Surds.expr [(1, 1), (1, 2)]) (Surds.expr [(-3, 2), (2, 15)]) =
    .ok (Surds.expr [(-6, 1), (-3, 2), (2, 15), (2, 30)], []) := by krfl

/-- `C90_mul`: (1 + √2) * (-1 + √2) is a number. -/
example : Api.mul (eng (Cfg.std 1000) 60 : Eng Hyb) (Surds.expr [(1, 1), (1, 2)]) (Surds.expr [(-1, 1), (1, 2)]) = .ok (Surds.expr [(1, 1)], []) := by krfl

/-- `C90_comm`: a sum times 5*√6, and the other way round. -/
example : Api.mul (eng (Cfg.std 1000) 60 : Eng Hyb) (Surds.expr [(1, 1), (1, 2)]) (Surds.expr [(5, 6)]) = .ok (Surds.expr [(10, 3), (5, 6)], []) ∧
    Api.mul (eng (Cfg.std 1000) 60 : Eng Hyb) (Surds.expr [(5, 6)]) (Surds.expr [(1, 1), (1, 2)]) = .ok (Surds.expr [(10, 3), (5, 6)], []) :=
  ⟨by krfl, by krfl⟩

/-- C90, C16. A sum times itself is a power and stays one: (1 + √2) * (1 + √2) minus its value 3 + 2*√2 is not zero. -/
theorem C90_false_square :
    Api.mul (eng (Cfg.std 1000) 60 : Eng Hyb) (Surds.expr [(1, 1), (1, 2)]) (Surds.expr [(1, 1), (1, 2)]) =
      .ok (.pow (Surds.expr [(1, 1), (1, 2)]) (.num (.rat 2)), []) ∧
    Api.sub (eng (Cfg.std 1000) 60 : Eng Hyb) (.pow (Surds.expr [(1, 1), (1, 2)]) (.num (.rat 2))) (Surds.expr [(3, 1), (2, 2)]) =
      .ok (.sum [.num (.rat (-3)), .prod [.num (.rat (-2)), Roots.root 2], .pow (Surds.expr [(1, 1), (1, 2)]) (.num (.rat 2))], []) ∧
    Surds.value [(1, 1), (1, 2)] ^ 2 - Surds.value [(3, 1), (2, 2)] = 0 := by
  refine ⟨by krfl, by krfl, ?_⟩
  simp only [Surds.value, List.map_cons, List.map_nil, List.sum_cons, List.sum_nil]
  push_cast
  have h := Real.sq_sqrt (show (0 : ℝ) ≤ 2 by norm_num)
  rw [Real.sqrt_one]
  linear_combination h

/-- C90. Without the assumption on the end iterator: 2*√2 times 5*√3 increments it. -/
theorem C90_false_strict :
    Api.mul (eng { Cfg.std 1000 with strictUb := true } 60 : Eng Hyb) (Surds.expr [(2, 2)]) (Surds.expr [(5, 3)]) = .error .ub := by krfl

end Tsym
