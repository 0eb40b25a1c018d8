import Verif.SurdScale
import Verif.Props.Roots

set_option autoImplicit false
set_option linter.unusedSectionVars false
set_option linter.unusedSimpArgs false

/-!
# C89: sums of multiples of square roots

Sums of rational multiples of square roots of squarefree natural numbers, where no denominator has a prime in common with the number below
the root. Addition, subtraction and multiplication with numbers are total and exact on them, and two of them are the same expression
exactly if they have the same value. With roots of fractions this is not so.
-/

namespace Tsym

/-! ## Specification -/

namespace Surds

/-- `q` times the square root of `n`. -/
def term {D : Type} (q : ℚ) (n : ℕ) : Expr D :=
  if n = 1 then .num (.rat q)
  else if q = 1 then .pow (.num (.rat n)) (.num (.rat (1 / 2)))
  else .prod [.num (.rat q), .pow (.num (.rat n)) (.num (.rat (1 / 2)))]

/-- The sum of multiples of square roots; no summand is zero, one is itself. -/
def expr {D : Type} (L : List (ℚ × ℕ)) : Expr D :=
  match L.map fun m => term m.1 m.2 with
  | [] => .num (.rat 0)
  | [x] => x
  | l => .sum l

/-- The summands: numbers other than zero, with a denominator that has no prime in common with the squarefree number below the root,
and these numbers in ascending order. -/
structure Ok (L : List (ℚ × ℕ)) : Prop where
  ne : ∀ m ∈ L, m.1 ≠ 0
  free : ∀ m ∈ L, Squarefree m.2
  coprime : ∀ m ∈ L, m.1.den.Coprime m.2
  ascending : L.Pairwise fun m n => m.2 < n.2

/-- The number before the square root of `n`. -/
def coeff (L : List (ℚ × ℕ)) (n : ℕ) : ℚ := (L.map fun m => if m.2 = n then m.1 else 0).sum

/-- The real number. -/
noncomputable def value (L : List (ℚ × ℕ)) : ℝ := (L.map fun m => (m.1 : ℝ) * √(m.2 : ℝ)).sum

end Surds

/-! ## Proofs -/

namespace Surds

open Expr

variable {D : Type} [Flt D] [LawfulFlt D] {cfg : Cfg D}

theorem Ok.sl {L : List (ℚ × ℕ)} (h : Ok L) : Sd.SL L := ⟨fun m hm => ⟨h.ne m hm, h.free m hm, h.coprime m hm⟩, h.ascending⟩

theorem ok_of {L : List (ℚ × ℕ)} (h : Sd.SL L) : Ok L :=
  ⟨fun m hm => (h.sm m hm).ne, fun m hm => (h.sm m hm).sf, fun m hm => (h.sm m hm).cop, h.sorted⟩

theorem term_eq (m : ℚ × ℕ) : (term m.1 m.2 : Expr D) = Sd.em m := by
  obtain ⟨q, n⟩ := m
  unfold term
  split
  · rename_i h; simp only at h; subst h; rw [Sd.em_one]
  · rename_i h
    rw [Sd.em_root (show (q, n).2 ≠ 1 from h), Sd.rootE_nat h]

theorem expr_eq (L : List (ℚ × ℕ)) : (expr L : Expr D) = sumOf (L.map Sd.em) := by
  unfold expr sumOf
  simp only [term_eq]
  have e : (num (.rat 0) : Expr D) = zero := zero_eq.symm
  rw [e]
  rfl

theorem coeff_eq (L : List (ℚ × ℕ)) (n : ℕ) : coeff L n = Sd.co L n := by
  induction L with
  | nil => rfl
  | cons m L ih =>
    rw [Sd.co_cons, Finsupp.add_apply, ← ih, Finsupp.single_apply]
    simp [coeff]

theorem value_eq (L : List (ℚ × ℕ)) : value L = (Sd.co L).sum fun n q => (q : ℝ) * √(n : ℝ) := by
  induction L with
  | nil => simp [value]
  | cons m L ih =>
    rw [Sd.co_cons, Finsupp.sum_add_index' (by simp) (by intro a b c; push_cast; ring), Finsupp.sum_single_index (by simp), ← ih]
    simp [value]

theorem den_term (σ : Asg) (q : ℚ) (n : ℕ) (hn : n ≠ 0) : den σ (term q n : Expr D) = some ((q : ℝ) * √(n : ℝ)) := by
  have hn' : (0 : ℝ) < n := by exact_mod_cast Nat.pos_of_ne_zero hn
  have hp : den σ (.pow (.num (.rat (n : ℚ))) (.num (.rat (1 / 2))) : Expr D) = some √(n : ℝ) := by
    simp only [den, Number.val, Option.bind_some, Spec.pow, Rat.cast_natCast, hn', true_or, if_true]
    rw [Real.sqrt_eq_rpow]; norm_num
  unfold term
  split
  · rename_i h; subst h; simp [den, Number.val]
  · split
    · rename_i h; subst h; rw [hp]; simp
    · rw [den, denProd, denProd_one, hp]; simp [den, Number.val]

end Surds

section

open Expr Surds

variable {D : Type} [Flt D] [LawfulFlt D] {cfg : Cfg D}

/-! ## C89 -/

/-- C89. The value of such a sum. -/
theorem C89_value (σ : Asg) (L : List (ℚ × ℕ)) (h : Ok L) : den σ (expr L : Expr D) = some (value L) := by
  have hn : ∀ m ∈ L, m.2 ≠ 0 := fun m hm => (h.free m hm).ne_zero
  clear h
  have key : ∀ L : List (ℚ × ℕ), (∀ m ∈ L, m.2 ≠ 0) → denSum σ (L.map fun m => (term m.1 m.2 : Expr D)) = some (value L) := by
    intro L h
    induction L with
    | nil => simp [denSum, value]
    | cons m L ih =>
      simp only [List.map_cons, denSum, den_term σ m.1 m.2 (h m (by simp)), ih fun x hx => h x (by simp [hx]), Option.bind_some]
      simp [value]
  match L, hn with
  | [], _ => simp [expr, value, den, Number.val]
  | [m], hn =>
    have := key [m] hn
    rw [List.map_cons, List.map_nil, denSum_one] at this
    exact this
  | m :: m' :: L, hn =>
    have := key (m :: m' :: L) hn
    simp only [List.map_cons] at this
    simp only [expr, List.map_cons, den, this]

/-- C89. Square roots of different squarefree numbers have no rational relation: the value is zero for the empty sum only. -/
theorem C89_zero (L : List (ℚ × ℕ)) (h : Ok L) : value L = 0 ↔ L = [] := by
  constructor
  · intro hv
    rw [value_eq, Finsupp.sum] at hv
    have hco : Sd.co L = 0 := by
      ext n
      by_cases hn : n ∈ (Sd.co L).support
      · refine Indep.indep (Sd.co L).support (Sd.co L) (fun n hn => ?_) hv n hn
        have hne := Finsupp.mem_support_iff.1 hn
        have := (h.sl.mem_iff (Sd.co L n, n)).2 ⟨rfl, hne⟩
        exact h.free _ this
      · rw [Finsupp.notMem_support_iff.1 hn]; rfl
    exact Sd.SL.ext h.sl Sd.SL.nil (by rw [hco]; rfl)
  · rintro rfl; simp [value]

/-- C89. Two sums are the same expression exactly if their values are the same, and exactly if the numbers before all roots are. -/
theorem C89_equal (L M : List (ℚ × ℕ)) (hL : Ok L) (hM : Ok M) :
    ((expr L : Expr D) = expr M ↔ value L = value M) ∧ ((expr L : Expr D) = expr M ↔ ∀ n, Surds.coeff L n = Surds.coeff M n) := by
  have hco : value L = value M → Sd.co L = Sd.co M := by
    intro hv
    have hsub : ((Sd.co L - Sd.co M).sum fun n q => (q : ℝ) * √(n : ℝ)) = 0 := by
      rw [Finsupp.sum_sub_index (by intro a b c; push_cast; ring), ← value_eq, ← value_eq, hv, sub_self]
    rw [Finsupp.sum] at hsub
    have h0 : Sd.co L - Sd.co M = 0 := by
      ext n
      by_cases hn : n ∈ (Sd.co L - Sd.co M).support
      · refine Indep.indep _ (Sd.co L - Sd.co M) (fun n hn => ?_) hsub n hn
        have hne := Finsupp.mem_support_iff.1 hn
        by_cases h1 : Sd.co L n = 0
        · have h2 : Sd.co M n ≠ 0 := by
            intro h2; rw [Finsupp.sub_apply, h1, h2, sub_self] at hne; exact hne rfl
          exact hM.free _ ((hM.sl.mem_iff (Sd.co M n, n)).2 ⟨rfl, h2⟩)
        · exact hL.free _ ((hL.sl.mem_iff (Sd.co L n, n)).2 ⟨rfl, h1⟩)
      · rw [Finsupp.notMem_support_iff.1 hn]; rfl
    exact sub_eq_zero.1 h0
  have hv : (expr L : Expr D) = expr M → value L = value M := by
    intro e
    have h1 := C89_value (D := D) (fun _ => 0) L hL
    rw [e, C89_value (D := D) (fun _ => 0) M hM] at h1
    exact (Option.some.inj h1).symm
  refine ⟨⟨hv, fun h => by rw [Sd.SL.ext hL.sl hM.sl (hco h)]⟩, fun e n => ?_, fun h => ?_⟩
  · rw [coeff_eq, coeff_eq, hco (hv e)]
  · rw [Sd.SL.ext hL.sl hM.sl (Finsupp.ext fun n => by rw [← coeff_eq, ← coeff_eq, h n])]

/-- C89. Addition: the numbers before the roots are added. -/
theorem C89_add (L M : List (ℚ × ℕ)) (hL : Ok L) (hM : Ok M) :
    ∃ R, Ok R ∧ (∀ n, Surds.coeff R n = Surds.coeff L n + Surds.coeff M n) ∧ value R = value L + value M ∧
      Gives cfg (fun E => Api.add E (expr L : Expr D) (expr M)) (expr R) := by
  obtain ⟨R, hR, A⟩ := Sd.tot_sumCreate (D := D) (cfg := cfg) (Ls := [L, M]) (by simp) (by
    intro K hK; simp only [List.mem_cons, List.not_mem_nil, or_false] at hK; rcases hK with rfl | rfl; exacts [hL.sl, hM.sl])
  have hco : Sd.co R = Sd.co L + Sd.co M := by rw [A.co]; simp
  refine ⟨R, ok_of A.sl, fun n => by rw [coeff_eq, coeff_eq, coeff_eq, hco]; rfl, ?_, ?_⟩
  · rw [value_eq, value_eq, value_eq, hco, Finsupp.sum_add_index' (by simp) (by intro a b c; push_cast; ring)]
  · rw [expr_eq, expr_eq, expr_eq]
    exact (tot_sum hR).gives (apiAdd_mono _ _)

/-- C89. Any number of summands at once, for instance numbers and roots in any order. -/
theorem C89_sum (Ls : List (List (ℚ × ℕ))) (hne : Ls ≠ []) (h : ∀ L ∈ Ls, Ok L) :
    ∃ R, Ok R ∧ (∀ n, Surds.coeff R n = (Ls.map fun L => Surds.coeff L n).sum) ∧ Tot cfg (fun E => sumCreate E (Ls.map expr)) (expr R : Expr D) := by
  obtain ⟨R, hR, A⟩ := Sd.tot_sumCreate (D := D) (cfg := cfg) hne fun L hL => (h L hL).sl
  refine ⟨R, ok_of A.sl, fun n => ?_, ?_⟩
  · rw [coeff_eq, A.co]
    clear A hR h hne
    induction Ls with
    | nil => rfl
    | cons L Ls ih => simp only [List.map_cons, List.sum_cons, Finsupp.add_apply, ih, coeff_eq]
  · rw [expr_eq, show (Ls.map expr : List (Expr D)) = Ls.map fun L => sumOf (L.map Sd.em) from List.map_congr_left fun L _ => expr_eq L]
    exact hR

/-- C89. Multiplication with a number, whose denominator has no prime in common with the numbers below the roots. -/
theorem C89_scale (hc : cfg.Ok) (p : ℚ) (L : List (ℚ × ℕ)) (hL : Ok L) (hp : p ≠ 0) (hp1 : p ≠ 1) (hd : ∀ m ∈ L, p.den.Coprime m.2) :
    Ok (L.map fun m => (p * m.1, m.2)) ∧ value (L.map fun m => (p * m.1, m.2)) = p * value L ∧
      Gives cfg (fun E => Api.mul E (.num (.rat p) : Expr D) (expr L)) (expr (L.map fun m => (p * m.1, m.2))) := by
  refine ⟨ok_of (hL.sl.scale hp hd), ?_, ?_⟩
  · clear hL hd
    induction L with
    | nil => simp [value]
    | cons m L ih =>
      simp only [value, List.map_cons, List.sum_cons] at ih ⊢
      rw [ih]; push_cast; ring
  · rw [expr_eq, expr_eq]
    exact (tot_prod (Sd.tot_scale hc hL.sl hp hp1 hd)).gives (apiMul_mono _ _)

/-- C89. Subtraction always returns, and the difference is zero exactly if the two real numbers are the same. -/
theorem C89_sub (hc : cfg.Ok) (L M : List (ℚ × ℕ)) (hL : Ok L) (hM : Ok M) :
    ∃ R, Ok R ∧ value R = value L - value M ∧ Gives cfg (fun E => Api.sub E (expr L : Expr D) (expr M)) (expr R) ∧
      ((expr R : Expr D) = .num (.rat 0) ↔ value L = value M) := by
  have hm1 : (-1 : ℚ) ≠ 0 := by norm_num
  have hd : ∀ m ∈ M, (-1 : ℚ).den.Coprime m.2 := fun m _ => by simp
  have hS := hM.sl.scale hm1 hd
  obtain ⟨R, hR, A⟩ := Sd.tot_sumCreate (D := D) (cfg := cfg) (Ls := [L, Sd.scale (-1) M]) (by simp) (by
    intro K hK; simp only [List.mem_cons, List.not_mem_nil, or_false] at hK; rcases hK with rfl | rfl; exacts [hL.sl, hS])
  have hco : Sd.co R = Sd.co L + Sd.co (Sd.scale (-1) M) := by rw [A.co]; simp
  have hsv : value (Sd.scale (-1) M) = -value M := by
    have := (C89_scale (D := D) hc (-1) M hM hm1 (by norm_num) hd).2.1
    rw [show Sd.scale (-1) M = M.map fun m => (-1 * m.1, m.2) from rfl, this]; push_cast; ring
  have hv : value R = value L - value M := by
    rw [value_eq R, hco, Finsupp.sum_add_index' (by simp) (by intro a b c; push_cast; ring), ← value_eq, ← value_eq, hsv]; ring
  refine ⟨R, ok_of A.sl, hv, ?_, ?_⟩
  · refine Tot.gives ?_ (Api.sub_mono _ _ _ fun _ _ h => h)
    rw [expr_eq, expr_eq, expr_eq]
    unfold Api.sub Eng.minus
    refine tot_bind (a := sumOf ((Sd.scale (-1) M).map Sd.em)) ?_ (tot_sum hR)
    have := Sd.tot_scale (D := D) hc hM.sl hm1 (by norm_num) hd
    rw [show (mOne : Expr D) = num (.rat (-1)) from rfl]
    exact tot_prod this
  · have h0 : (num (.rat 0) : Expr D) = expr [] := rfl
    have e0 := (C89_equal (D := D) R [] (ok_of A.sl) (ok_of Sd.SL.nil)).1
    rw [h0, e0, hv]
    simp [value, sub_eq_zero]

end

/-! ## Examples -/

/-- `C89_add`, `C89_sub`: 1 + 2*√6 - 1/5*√7 and 3*√6. -/
example : Surds.Ok [(1, 1), (2, 6), (-1 / 5, 7)] ∧ Surds.Ok [(3, 6)] := by
  have h6 : Squarefree 6 := by rw [Nat.squarefree_iff_nodup_primeFactorsList (by norm_num)]; decide +kernel
  have h7 : Squarefree 7 := by rw [Nat.squarefree_iff_nodup_primeFactorsList (by norm_num)]; decide +kernel
  have hd : (-1 / 5 : ℚ).den = 5 := by decide +kernel
  constructor <;> constructor <;> simp [h6, h7, hd]; decide +kernel

example : Api.add (eng (Cfg.std 1000) 30 : Eng Hyb) (Surds.expr [(1, 1), (2, 6), (-1 / 5, 7)]) (Surds.expr [(3, 6)]) =
    .ok (Surds.expr [(1, 1), (5, 6), (-1 / 5, 7)], []) := by krfl

example : Api.sub (eng (Cfg.std 1000) 30 : Eng Hyb) (Surds.expr [(1, 1), (2, 6), (-1 / 5, 7)]) (Surds.expr [(1, 1), (2, 6), (-1 / 5, 7)]) =
    .ok (.num (.rat 0), []) := by krfl

/-- `C89_scale`: minus 15 times the same. -/
example : Api.mul (eng (Cfg.std 1000) 30 : Eng Hyb) (.num (.rat (-15))) (Surds.expr [(1, 1), (2, 6), (-1 / 5, 7)]) =
    .ok (Surds.expr [(-15, 1), (-30, 6), (3, 7)], []) := by krfl

/-- C89, C16. With roots of fractions the sum of equal and opposite summands is left: the square root of two thirds plus that of six, minus four
times that of two thirds, is a sum of minus the square root of six and the square root of six. -/
theorem C89_false_fraction :
    (∃ cs, (do
      let s ← Api.add (eng (Cfg.std 1000) 40) (Roots.root (2 / 3) : Expr Hyb) (Roots.root 6)
      let f ← Api.mul (eng (Cfg.std 1000) 40) (.num (.rat 4)) (Roots.root (2 / 3))
      Api.sub (eng (Cfg.std 1000) 40) s f : M Hyb (Expr Hyb)) = .ok (.sum [.prod [.num (.rat (-1)), Roots.root 6], Roots.root 6], cs)) ∧
    √(2 / 3 : ℝ) + √6 - 4 * √(2 / 3) = 0 := by
  refine ⟨M.val_some (by krfl), ?_⟩
  have h : √(6 : ℝ) = 3 * √(2 / 3) := by
    rw [show (6 : ℝ) = 3 ^ 2 * (2 / 3) by norm_num, Real.sqrt_mul (by norm_num), Real.sqrt_sq (by norm_num)]
  rw [h]; ring

end Tsym
