import Verif.Props.Values

set_option autoImplicit false
set_option linter.unusedSectionVars false
set_option linter.unusedSimpArgs false
set_option linter.unusedVariables false

/-!
# C58: arithmetic of rational functions
-/

namespace Tsym

open Expr

/-! ## Specification -/

/-- What a user writes: rational numbers, symbols, the four operators and powers with integer exponents. -/
inductive RTree
  | rat (q : ℚ)
  | var (s : Sym)
  | neg (t : RTree)
  | add (t u : RTree)
  | sub (t u : RTree)
  | mul (t u : RTree)
  | div (t u : RTree)
  | pow (t : RTree) (k : ℤ)

namespace RTree

/-- The value of the tree. There is none for a division by zero, and for zero to a power that is not
positive. -/
noncomputable def val (σ : Asg) : RTree → Option ℝ
  | rat q => some q
  | var s => some (σ s)
  | neg t => (t.val σ).map fun x => - x
  | add t u => (t.val σ).bind fun x => (u.val σ).map fun y => x + y
  | sub t u => (t.val σ).bind fun x => (u.val σ).map fun y => x - y
  | mul t u => (t.val σ).bind fun x => (u.val σ).map fun y => x * y
  | div t u => (t.val σ).bind fun x => (u.val σ).bind fun y => if y = 0 then none else some (x / y)
  | pow t k => (t.val σ).bind fun x => if x = 0 ∧ k ≤ 0 then none else some (x ^ k)

variable {D : Type} [Flt D]

/-- The calls of the library. -/
def run (E : Eng D) : RTree → M D (Expr D)
  | rat q => pure (.num (.rat q))
  | var s => pure (.sym s)
  | neg t => do
    let a ← t.run E
    Api.neg E a
  | add t u => do
    let a ← t.run E
    let b ← u.run E
    Api.add E a b
  | sub t u => do
    let a ← t.run E
    let b ← u.run E
    Api.sub E a b
  | mul t u => do
    let a ← t.run E
    let b ← u.run E
    Api.mul E a b
  | div t u => do
    let a ← t.run E
    let b ← u.run E
    Api.div E a b
  | pow t k => do
    let a ← t.run E
    Api.pow E a (.int k)

end RTree

/-! ## Values -/

section

variable {D : Type} [Flt D] [LawfulFlt D]

theorem RTree.run_vl {cfg : Cfg D} (hcfg : cfg.Ok) (n : Nat) {σ : Asg} (hσ : σ.Respects) (t : RTree) :
    ∀ {x : ℝ}, t.val σ = some x → Vl σ (t.run (eng cfg n)) x := by
  have hE := sound_eng hcfg n
  induction t with
  | rat q =>
    intro x h
    simp only [RTree.val, Option.some.injEq] at h
    exact wp_pure (by simp [← h, den])
  | var s =>
    intro x h
    simp only [RTree.val, Option.some.injEq] at h
    exact wp_pure (by simp [← h, den])
  | neg t ih =>
    intro x h
    simp only [RTree.val, Option.map_eq_some_iff] at h
    obtain ⟨y, h1, rfl⟩ := h
    exact wp_bind (ih h1) fun a ha => minus_vl hE hσ ha
  | add t u iht ihu =>
    intro x h
    simp only [RTree.val, Option.bind_eq_some_iff, Option.map_eq_some_iff] at h
    obtain ⟨y, h1, z, h2, rfl⟩ := h
    exact wp_bind (iht h1) fun a ha => wp_bind (ihu h2) fun b hb => hE.sum hσ (denSum_two ha hb)
  | sub t u iht ihu =>
    intro x h
    simp only [RTree.val, Option.bind_eq_some_iff, Option.map_eq_some_iff] at h
    obtain ⟨y, h1, z, h2, rfl⟩ := h
    rw [sub_eq_add_neg]
    exact wp_bind (iht h1) fun a ha => wp_bind (ihu h2) fun b hb =>
      wp_bind (minus_vl hE hσ hb) fun m hm => hE.sum hσ (denSum_two ha hm)
  | mul t u iht ihu =>
    intro x h
    simp only [RTree.val, Option.bind_eq_some_iff, Option.map_eq_some_iff] at h
    obtain ⟨y, h1, z, h2, rfl⟩ := h
    exact wp_bind (iht h1) fun a ha => wp_bind (ihu h2) fun b hb => hE.prod hσ (denProd_two ha hb)
  | div t u iht ihu =>
    intro x h
    simp only [RTree.val, Option.bind_eq_some_iff] at h
    obtain ⟨y, h1, z, h2, h3⟩ := h
    split at h3
    · cases h3
    · rename_i hz
      cases h3
      rw [div_eq_mul_inv]
      exact wp_bind (iht h1) fun a ha => wp_bind (ihu h2) fun b hb =>
        wp_bind (oneOver_vl hE hσ hb hz) fun m hm => hE.prod hσ (denProd_two ha hm)
  | pow t k ih =>
    intro x h
    simp only [RTree.val, Option.bind_eq_some_iff] at h
    obtain ⟨y, h1, h3⟩ := h
    split at h3
    · cases h3
    · rename_i hz
      cases h3
      refine wp_bind (ih h1) fun a ha => hE.pow hσ ha (den_int k) ?_
      by_cases hy : y = 0
      · have hk : 0 < k := by
          by_contra h0; exact hz ⟨hy, not_lt.1 h0⟩
        obtain ⟨m, rfl⟩ := Int.eq_ofNat_of_zero_le hk.le
        have hm : m ≠ 0 := by rintro rfl; simp at hk
        have := Spec.pow_nat (x := y) hm
        simpa using this
      · exact Spec.pow_int k hy

/-- C58 without the claim that a result is returned, and where the conditions of the rules hold that were
used (they do not in the case of `C58_false`). -/
theorem C58_value_partial {cfg : Cfg D} (hcfg : cfg.Ok) (n : Nat) {σ : Asg} (hσ : σ.Respects) (t : RTree) {x : ℝ}
    (hx : t.val σ = some x) (r : Expr D) (cs : List (Cond D)) (hr : t.run (eng cfg n) = .ok (r, cs))
    (hc : ∀ c ∈ cs, c.holds σ) : den σ r = some x :=
  t.run_vl hcfg n hσ hx r cs hr hc

end

namespace RationalEx

open ExprEx SymEx ValueEx

def sa : Sym := ⟨.named ⟨['a'], [], []⟩, false⟩
def sb : Sym := ⟨.named ⟨['b'], [], []⟩, false⟩
def sc : Sym := ⟨.named ⟨['c'], [], []⟩, false⟩
def sd : Sym := ⟨.named ⟨['d'], [], []⟩, false⟩

/-- a + b. -/
def ab : RTree := .add (.var sa) (.var sb)

/-- The difference 1 - 2*a*b/(a + b)^2 - b^2/(a + b)^2, which is (a/(a + b))^2. -/
def w1 : RTree :=
  .sub (.sub (.rat 1) (.div (.mul (.rat 2) (.mul (.var sa) (.var sb))) (.pow ab 2)))
    (.div (.pow (.var sb) 2) (.pow ab 2))

/-- a*(a + b) + b*(a + b). -/
def w2 : RTree := .add (.mul (.var sa) ab) (.mul (.var sb) ab)

/-- d + w1*w2*(c + d). The product is a^2*(c + d). -/
def w : RTree := .add (.var sd) (.mul (.mul w1 w2) (.add (.var sc) (.var sd)))

/-- 1 - b/(a + b), which is a/(a + b). -/
def v1 : RTree := .sub (.rat 1) (.div (.var sb) ab)

/-- (1 + a)*(a + b) - a*(a + b), which is a + b. -/
def v2 : RTree := .sub (.mul (.add (.rat 1) (.var sa)) ab) (.mul (.var sa) ab)

/-- a + v1*v2*(c + d). The product is a*(c + d). -/
def v : RTree := .add (.var sa) (.mul (.mul v1 v2) (.add (.var sc) (.var sd)))

/-- The library with a depth that suffices for the examples (C46: greater depths give the same). -/
noncomputable def lib60 : Eng Hyb := eng (Cfg.std 1000) 60

/-- What the library returns for -w. -/
def minusW : Expr Hyb :=
  sum [prod [int (-2), c], prod [int (-1), a, c], prod [int (-3), .sym sd],
    prod [int (-1), a, .sym sd]]

theorem w_val (σ : Asg) (h : σ sa + σ sb ≠ 0) :
    w.val σ = some (σ sd + σ sa ^ 2 * (σ sc + σ sd)) := by
  simp only [w, w1, w2, ab, RTree.val, Option.bind_some, Option.map_some]
  have h2 : (σ sa + σ sb) ^ (2 : ℤ) ≠ 0 := zpow_ne_zero _ h
  norm_num [h, h2]
  refine Or.inl ?_
  field_simp
  ring

theorem v_val (σ : Asg) (h : σ sa + σ sb ≠ 0) :
    v.val σ = some (σ sa + σ sa * (σ sc + σ sd)) := by
  simp only [v, v1, v2, ab, RTree.val, Option.bind_some, Option.map_some]
  norm_num [h]
  refine Or.inl ?_
  field_simp
  ring

/-- C58 is false: the library returns a wrong value for -w, where w = d + w1*w2*(c + d) is made of sums,
differences, products and quotients. It expands the product, takes the product of the first two factors,
which is a^2, for a sum, and multiplies its operands a and 2 with the third factor. With a = b = c = d = 1
the value is -3, the result has the value -7. -/
theorem C58_false : (∃ cs, (RTree.neg w).run lib60 = .ok (minusW, cs)) ∧
    (RTree.neg w).val (all 1) = some (-3) ∧ den (all 1) minusW = some (-7) := by
  refine ⟨M.val_some (by krfl), ?_, ?_⟩
  · rw [RTree.val, w_val _ (by norm_num [all])]
    norm_num [all]
  · simp only [minusW, den_prod, den_sum, denProd, denSum, den, den_a, den_c, den_int, all, Option.bind_some]
    norm_num

/-- In the same way the negation of v = a + v1*v2*(c + d) has undefined behaviour: the product of the first
two factors is the symbol a, which has no operands, and the list of summands is empty. The tree has a value
wherever a + b is not zero. -/
theorem C58_false_ub : (RTree.neg v).run lib60 = .error .ub ∧
    ∀ σ : Asg, σ sa + σ sb ≠ 0 → (RTree.neg v).val σ = some (-(σ sa + σ sa * (σ sc + σ sd))) := by
  refine ⟨by krfl, fun σ h => ?_⟩
  rw [RTree.val, v_val σ h]
  rfl

/-- The quotients of w1 and v1 have values and no conditions are recorded. -/
example : v1.run lib60 = .ok (sum [one, prod [int (-1), b, pow (sum [a, b]) (int (-1))]], []) ∧
    v1.val (all 1) = some (1 / 2) := by
  refine ⟨by krfl, ?_⟩
  simp only [v1, ab, RTree.val, Option.bind_some, Option.map_some]
  norm_num [all]

end RationalEx

end Tsym
