import Verif.Tower
import Verif.QLive

set_option autoImplicit false
set_option linter.unusedSectionVars false
set_option linter.unusedSimpArgs false
set_option linter.unusedVariables false

/-!
# C75: powers of powers of symbols of any sign
-/

namespace Tsym

open Expr

section

variable {D : Type} [Flt D] [LawfulFlt D] {cfg : Cfg D} {σ : Asg}

/-! ## C75 -/

/-- C75. `((s^p)^q)^…` has a result without conditions. Its exponents are those of the specification, and it has the
value of the tree wherever this has one. -/
theorem C75_towers (hc : cfg.Ok) (s : Sym) (qs : List ℚ) (hq : ∀ q ∈ qs, q ≠ 0) :
    Gives cfg (fun E => (Tower.tree s qs).run E) (Tower.expr s (Tower.stack s qs) : Expr D) ∧
      ∀ σ y, σ.Respects → (Tower.tree s qs).val σ = some y → den σ (Tower.expr s (Tower.stack s qs) : Expr D) = some y :=
  ⟨(Tower.tot_run s qs hq).gives (Tower.tree s qs).run_mono, fun σ y h hy => RootTree.val_run hc h (Tower.tot_run s qs hq) hy⟩

/-- C75. The result is one if one of the exponents is zero. -/
theorem C75_zero (s : Sym) (qs : List ℚ) (hq : 0 ∈ qs) :
    Gives cfg (fun E => (Tower.tree s qs).run E) (.num (.rat 1) : Expr D) :=
  (Tower.tot_run_zero s qs hq).gives (Tower.tree s qs).run_mono

/-- C75. The power of a power: the exponents are multiplied if and only if they merge; otherwise the result is the
power of a power. -/
theorem C75_power (s : Sym) (p q : ℚ) (hp : p ≠ 0) (hp1 : p ≠ 1) (hq : q ≠ 0) (hq1 : q ≠ 1) :
    Gives cfg (fun E => (RootTree.pow (.pow (.var s) p) q).run E)
      (if Merges s.positive p q then
        if p * q = 1 then .sym s else .pow (.sym s) (.num (.rat (p * q)))
      else .pow (.pow (.sym s) (.num (.rat p))) (.num (.rat q)) : Expr D) := by
  have h := (Tower.tot_run (D := D) (cfg := cfg) s [p, q] (by simp [hp, hq])).gives (Tower.tree s [p, q]).run_mono
  have e : Tower.stack s [p, q] = if Merges s.positive p q then if p * q = 1 then [] else [p * q] else [q, p] := by
    simp only [Tower.stack, List.foldl_cons, List.foldl_nil, Tower.raise, hp1, hq1, if_false, Tower.positive]
    rfl
  rw [e] at h
  split_ifs at h ⊢ <;> exact h

/-- The exponents 3, 1/3, 3, 1/3, … -/
def Tower.zigzag : ℕ → List ℚ
  | 0 => []
  | n + 1 => Tower.zigzag n ++ [if n % 2 = 0 then 3 else 1 / 3]

/-- C75. There is no bound on the number of nested powers of a symbol that is not positive: for the exponents
3, 1/3, 3, 1/3, … no two of them merge. -/
theorem C75_unbounded (s : Sym) (hs : s.positive = false) (n : ℕ) :
    Gives cfg (fun E => (Tower.tree s (Tower.zigzag n)).run E) (Tower.expr s (Tower.zigzag n).reverse : Expr D) := by
  have nz : ∀ n, ∀ q ∈ Tower.zigzag n, q ≠ 0 := by
    intro n
    induction n with
    | zero => simp [Tower.zigzag]
    | succ n ih =>
      intro q hq
      simp only [Tower.zigzag, List.mem_append, List.mem_singleton] at hq
      rcases hq with hq | rfl
      · exact ih q hq
      · split_ifs <;> norm_num
  have n3 : ((3 : ℚ).isInt = true ∧ Odd (3 : ℚ).num ∧ ((1 / 3 : ℚ)).isInt = false ∧ Odd (1 / 3 : ℚ).num ∧ (1 : ℚ).isInt = true) := by decide +kernel
  have pos : ∀ n, Tower.positive s (Tower.zigzag n).reverse = false := by
    intro n
    induction n with
    | zero => exact hs
    | succ n ih =>
      simp only [Tower.zigzag, List.reverse_append, List.reverse_cons, List.reverse_nil, List.nil_append, List.singleton_append,
        Tower.positive, ih, Bool.false_or, decide_eq_false_iff_not, Int.not_even_iff_odd]
      split_ifs
      · exact n3.2.1
      · exact n3.2.2.2.1
  have m1 : ¬ Merges false 3 (1 / 3) := by
    have e : (3 : ℚ) * (1 / 3) = 1 := by norm_num
    have o : ¬ Even (3 : ℚ).num := Int.not_even_iff_odd.mpr n3.2.1
    simp [Merges, e, n3.1, n3.2.2.1, o]
    simpa using n3.2.2.1
  have m2 : ¬ Merges false (1 / 3) 3 := by
    have e : (1 / 3 : ℚ) * 3 = 1 := by norm_num
    unfold Merges
    rw [e, n3.1, n3.2.2.1, n3.2.2.2.2]
    simp
  have st : ∀ n, Tower.stack s (Tower.zigzag n) = (Tower.zigzag n).reverse := by
    intro n
    induction n with
    | zero => rfl
    | succ n ih =>
      have ih' := ih
      unfold Tower.stack at ih'
      simp only [Tower.stack, Tower.zigzag, List.foldl_append, List.foldl_cons, List.foldl_nil, ih', List.reverse_append, List.reverse_cons,
        List.reverse_nil, List.nil_append, List.singleton_append]
      cases n with
      | zero => simp [Tower.zigzag, Tower.raise]
      | succ n =>
        simp only [Tower.zigzag, List.reverse_append, List.reverse_cons, List.reverse_nil, List.nil_append, List.singleton_append, Tower.raise, pos n]
        rcases Nat.mod_two_eq_zero_or_one n with h | h
        · have h' : ¬ (n + 1) % 2 = 0 := by omega
          simp only [h, h', if_true, if_false, m1]
          norm_num
        · have h' : (n + 1) % 2 = 0 := by omega
          simp only [h, h', if_true, one_ne_zero, if_false, m2]
          norm_num
  have := (Tower.tot_run (D := D) (cfg := cfg) s (Tower.zigzag n) (nz n)).gives (Tower.tree s (Tower.zigzag n)).run_mono
  rwa [st] at this

theorem Tower.tot_mul (s : Sym) {p q : ℚ} (hp : p ≠ 0) (hq : q ≠ 0) :
    Tot cfg (fun E => (RootTree.mul (.pow (.var s) p) (.pow (.var s) q)).run E)
      (if Tower.Kept s p q then .prod [Tower.power s p, Tower.power s q] else Tower.power s (p + q) : Expr D) :=
  tot_bind (tot_bind (tot_pure _) (tot_pow (Tower.tot_power s p))) (tot_bind (tot_bind (tot_pure _) (tot_pow (Tower.tot_power s q)))
    (tot_prod (l := [_, _]) (Tower.tot_mul_powers s hp hq)))

/-- C75. The product of two powers of a symbol: the exponents are added, unless the symbol is not positive, the
exponents are no integers, and their sum is one. -/
theorem C75_product (s : Sym) (p q : ℚ) (hp : p ≠ 0) (hq : q ≠ 0) :
    Gives cfg (fun E => (RootTree.mul (.pow (.var s) p) (.pow (.var s) q)).run E)
      (if Tower.Kept s p q then .prod [Tower.power s p, Tower.power s q] else Tower.power s (p + q) : Expr D) :=
  (Tower.tot_mul s hp hq).gives (RootTree.run_mono _)

theorem Tower.den_power (s : Sym) (p : ℚ) (h : σ s ≠ 0) : den σ (Tower.power s p : Expr D) = Spec.pow (σ s) p := by
  unfold Tower.power
  have one : ∀ x : ℝ, x ≠ 0 → Spec.pow x 1 = some x := fun x hx => Spec.pow_one x
  have zero : ∀ x : ℝ, x ≠ 0 → Spec.pow x 0 = some 1 := fun x hx => by simpa using Spec.pow_int (x := x) 0 hx
  split_ifs with h0 h1
  · subst h0; simp [den, zero _ h]
  · subst h1; simp [den, one _ h]
  · simp [den]

/-- C75. The addition of the exponents does not hide anything: for every value of the symbol other than zero, the
result has a value if and only if the product has, and the same. -/
theorem C75_product_value (s : Sym) (p q : ℚ) (hp : p ≠ 0) (hq : q ≠ 0) (r : Expr D)
    (hr : Gives cfg (fun E => (RootTree.mul (.pow (.var s) p) (.pow (.var s) q)).run E) r) (hσ : σ.Respects) (h0 : σ s ≠ 0) :
    den σ r = (RootTree.mul (.pow (.var s) p) (.pow (.var s) q)).val σ := by
  rw [← (Tower.tot_mul s hp hq).unique hr.1]
  simp only [RootTree.val, Option.bind_some]
  by_cases hk : Tower.Kept s p q
  · rw [if_pos hk]
    simp only [den, denProd, Tower.den_power s _ h0, mul_one]
    cases Spec.pow (σ s) p <;> cases Spec.pow (σ s) q <;> simp
  rw [if_neg hk, Tower.den_power s _ h0]
  rcases lt_or_gt_of_ne h0 with h | h
  · have hs : s.positive = false := by
      cases e : s.positive
      · rfl
      · exact absurd (hσ s e) (not_le.mpr h)
    have int : ∀ a : ℚ, a.isInt = true → Spec.pow (σ s) a = some (σ s ^ a.num) := by
      intro a ha
      have : ((a.num : ℚ) : ℝ) = (a : ℝ) := by
        rw [Rat.den_eq_one_iff a |>.mp (by simpa [Rat.isInt] using ha)]
      rw [← this, Rat.cast_intCast, Spec.pow_int _ h0]
    have non : ∀ a : ℚ, a.isInt = false → Spec.pow (σ s) a = none := by
      intro a ha
      unfold Spec.pow
      rw [if_neg]
      rintro (h' | ⟨h', _⟩ | ⟨_, n, hn⟩)
      · linarith
      · linarith
      · have : a = n := by exact_mod_cast hn
        subst this
        simp [Rat.isInt] at ha
    have num : ∀ a : ℚ, a.isInt = true → (a.num : ℚ) = a := fun a ha =>
      Rat.den_eq_one_iff a |>.mp (by simpa [Rat.isInt] using ha)
    have ofInt : ∀ n : ℤ, (n : ℚ).isInt = true := fun n => by simp [Rat.isInt]
    cases hpi : p.isInt <;> cases hqi : q.isInt
    · have : (p + q).isInt = false := by
        cases e : (p + q).isInt
        · rfl
        · exact absurd ⟨hs, hpi, hqi, e⟩ hk
      rw [non _ hpi, non _ this]; rfl
    · have : (p + q).isInt = false := by
        cases e : (p + q).isInt
        · rfl
        · have e1 := num _ e
          have e2 := num _ hqi
          have : p = (((p + q).num - q.num : ℤ) : ℚ) := by push_cast; linarith
          rw [this, ofInt] at hpi; cases hpi
      rw [non _ hpi, non _ this]; rfl
    · have : (p + q).isInt = false := by
        cases e : (p + q).isInt
        · rfl
        · have e1 := num _ e
          have e2 := num _ hpi
          have : q = (((p + q).num - p.num : ℤ) : ℚ) := by push_cast; linarith
          rw [this, ofInt] at hqi; cases hqi
      rw [non _ hqi, non _ this, int _ hpi]; rfl
    · have e : p + q = ((p.num + q.num : ℤ) : ℚ) := by push_cast; rw [num _ hpi, num _ hqi]
      rw [int _ hpi, int _ hqi, int _ (by rw [e]; exact ofInt _)]
      simp only [Option.bind_some, Option.map_some, Option.some.injEq]
      rw [e, Rat.num_intCast, zpow_add₀ h0]
  · rw [Spec.pow_pos' h, Spec.pow_pos' h, Spec.pow_pos' h]
    simp [Real.rpow_add h]

/-- C75. Multiplication is not commutative: two different powers that are kept side by side stay in their order. -/
theorem C75_not_commutative (s : Sym) (p q : ℚ) (hpq : p ≠ q) (h : Tower.Kept s p q) (r t : Expr D)
    (hr : Gives cfg (fun E => (RootTree.mul (.pow (.var s) p) (.pow (.var s) q)).run E) r)
    (ht : Gives cfg (fun E => (RootTree.mul (.pow (.var s) q) (.pow (.var s) p)).run E) t) : isEqual r t = false := by
  have h' : Tower.Kept s q p := ⟨h.1, h.2.2.1, h.2.1, by rw [add_comm]; exact h.2.2.2⟩
  have nz : ∀ a : ℚ, a.isInt = false → a ≠ 0 ∧ a ≠ 1 := fun a ha => ⟨(by rintro rfl; cases ha), (by rintro rfl; cases ha)⟩
  obtain ⟨p0, p1⟩ := nz p h.2.1
  obtain ⟨q0, q1⟩ := nz q h.2.2.1
  rw [← (Tower.tot_mul s p0 q0).unique hr.1, ← (Tower.tot_mul s q0 p0).unique ht.1, if_pos h, if_pos h']
  simp only [Tower.power, p0, p1, q0, q1, if_false]
  have ex : ∀ a : ℚ, Exact (.pow (.sym s) (.num (.rat a)) : Expr D) := fun a =>
    exact_of_op (by simp) (by simp) (by simp [operands, exact_ratE, exact_sym])
  have ep : ∀ a b : ℚ, Exact (.prod [.pow (.sym s) (.num (.rat a)), .pow (.sym s) (.num (.rat b))] : Expr D) := fun a b =>
    exact_of_op (by simp) (by simp) (by simp [operands, ex])
  rw [Bool.eq_false_iff]
  intro he
  rw [isEqual_eq _ (ep p q) _ (ep q p)] at he
  simp at he
  exact hpq he.1

/-- C75. The multiplication of exponents can hide that a power has no value: `(s^3)^(2/3)` gives `s^2`, which has a
value for negative `s`. -/
theorem C75_hides (s : Sym) (hs : s.positive = false) (h0 : σ s < 0) :
    (RootTree.pow (.pow (.var s) 3) (2 / 3)).val σ = none ∧
    ∃ r : Expr D, Gives cfg (fun E => (RootTree.pow (.pow (.var s) 3) (2 / 3)).run E) r ∧ den σ r = some (σ s ^ 2) := by
  have h3 : Spec.pow (σ s) 3 = some (σ s ^ 3) := by
    have := Spec.pow_nat (x := σ s) (n := 3) (by norm_num)
    exact_mod_cast this
  have h2 : Spec.pow (σ s) 2 = some (σ s ^ 2) := by
    have := Spec.pow_nat (x := σ s) (n := 2) (by norm_num)
    exact_mod_cast this
  constructor
  · have h3' : Spec.pow (σ s) ((3 : ℚ) : ℝ) = some (σ s ^ 3) := by exact_mod_cast h3
    have hn : σ s ^ 3 < 0 := Odd.pow_neg (by decide) h0
    simp only [RootTree.val, Option.bind_some, h3']
    unfold Spec.pow
    rw [if_neg]
    rintro (h' | ⟨h', _⟩ | ⟨_, n, hn⟩)
    · linarith
    · linarith
    · have h1 : (2 / 3 : ℚ) = n := by exact_mod_cast hn
      have h2 : (2 : ℚ) = 3 * n := by linarith
      have h3 : (2 : ℤ) = 3 * n := by exact_mod_cast h2
      omega
  · have hm : Merges s.positive 3 (2 / 3) := by
      refine .inr (.inr (.inr (.inl ⟨rfl, by decide, ?_⟩)))
      norm_num
    have h := C75_power (D := D) (cfg := cfg) s 3 (2 / 3) (by norm_num) (by norm_num) (by norm_num) (by norm_num)
    have e : (3 : ℚ) * (2 / 3) = 2 := by norm_num
    rw [if_pos hm, e, if_neg (by norm_num)] at h
    refine ⟨_, h, ?_⟩
    simp only [den, Number.val, Option.bind_some]
    exact_mod_cast h2

end

/-! ## Examples -/

namespace TowerEx

/-- A symbol of unknown sign. -/
def sa : Sym := ⟨.named ⟨['a'], [], []⟩, false⟩

/-- C75 on an example: `((a^2)^(1/2))^6` is `a^6`, and `(a^2)^(1/2)` stays. -/
example : Gives (Cfg.std 323) (fun E => (Tower.tree sa [2, 1 / 2, 6]).run E)
    (.pow (.sym sa) (.num (.rat 6)) : Expr Hyb) := by
  have h := (C75_towers (D := Hyb) (Cfg.std_ok 323) sa [2, 1 / 2, 6] (by simp)).1
  have e : Tower.stack sa [2, 1 / 2, 6] = [6] := by decide +kernel
  rwa [e] at h

example : Gives (Cfg.std 323) (fun E => (Tower.tree sa [2, 1 / 2]).run E)
    (.pow (.pow (.sym sa) (.num (.rat 2))) (.num (.rat (1 / 2))) : Expr Hyb) := by
  have h := (C75_towers (D := Hyb) (Cfg.std_ok 323) sa [2, 1 / 2] (by simp)).1
  have e : Tower.stack sa [2, 1 / 2] = [1 / 2, 2] := by decide +kernel
  rwa [e] at h

/-- C75_zero on an example. -/
example : (0 : ℚ) ∈ [2, 0, 1 / 2] := by simp

/-- C75_power on examples. -/
example : Merges false 3 (1 / 2) ∧ ¬ Merges false 2 (1 / 2) ∧ ¬ Merges false (1 / 2) 2 ∧ Merges false (1 / 3) (3 / 5) ∧
    ¬ Merges false (1 / 2) (2 / 3 * 3) ∧ Merges true (1 / 2) 2 ∧ ¬ Merges false (-3) (1 / 3) ∧ Merges false (2 / 3) (1 / 2) := by
  decide +kernel

/-- C75_unbounded on an example: three exponents. -/
example : sa.positive = false ∧ Tower.zigzag 3 = [3, 1 / 3, 3] := ⟨rfl, by norm_num [Tower.zigzag]⟩

/-- C75_product, C75_product_value and C75_not_commutative on an example: `a^(1/2)*a^(3/2)`. -/
example : Tower.Kept sa (1 / 2) (3 / 2) ∧ (1 / 2 : ℚ) ≠ 3 / 2 ∧ ¬ Tower.Kept sa (1 / 2) (1 / 3) := by decide +kernel

/-- C75_product_value and C75_hides on an example: an assignment. -/
example : Asg.Respects (fun s : Sym => if s = sa then -1 else 1) ∧ (fun s : Sym => if s = sa then (-1 : ℝ) else 1) sa < 0 := by
  constructor
  · intro s hs
    have : s ≠ sa := by rintro rfl; cases hs
    simp [this]
  · simp

end TowerEx

end Tsym
