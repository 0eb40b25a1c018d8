import Verif.SolveEngThm
import Verif.Props.Values

/-!
# Linear systems over expressions: C62

The solver of Verif/SolveEng.lean computes with the operators of the library. The theorems compare the
values of its results with Mathlib's matrices over the real numbers. `cs` are the conditions which the
rules that were used need; for the divisions by pivots these are that the values of the pivots are not
zero.
-/

set_option autoImplicit false
set_option linter.unusedSectionVars false

namespace Tsym

open Expr Lin

variable {D : Type} [Flt D] [LawfulFlt D]

section

variable (cfg : Cfg D) (hcfg : cfg.Ok) (n : ℕ) (σ : Asg) (hσ : σ.Respects) (skip : ℕ → Bool) (dim : ℕ) (algo : Algo)
  (A : ℕ → ℕ → Expr D) (α : ℕ → ℕ → ℝ) (cs : List (Cond D)) (hc : ∀ c ∈ cs, c.holds σ)
  (hA : ∀ i k, Kept skip dim i → Kept skip dim k → den σ (A i k) = some (α i k))
include hcfg hσ hc hA

/-- C62 for `solve`: the values of the result are the unique solution of the system of the values;
entries that are skipped keep their contents. -/
theorem C62_solve (b x x' : ℕ → Expr D) (β : ℕ → ℝ) (hb : ∀ i, Kept skip dim i → den σ (b i) = some (β i))
    (h : LinE.solve (eng cfg n) A b x skip dim algo = .ok (x', cs)) :
    (subMatrix skip dim α).det ≠ 0 ∧
    (∃ z, (∀ i, Kept skip dim i → den σ (x' i) = some (z i)) ∧ SolvesKept skip dim α β z ∧
      ∀ z', SolvesKept skip dim α β z' → ∀ i, Kept skip dim i → z' i = z i) ∧
    ∀ i, ¬ Kept skip dim i → x' i = x i := by
  unfold LinE.solve LinE.detailSolve at h
  simp only [length_toStdVec1] at h
  obtain ⟨r, c1, c2, h1, h2, rfl⟩ := M.bind_ok.1 h
  obtain ⟨s, c3, c4, h3, h4, rfl⟩ := M.bind_ok.1 h1
  obtain ⟨y, c5, c6, h5, h6, rfl⟩ := M.bind_ok.1 h4
  obtain ⟨rfl, rfl⟩ := LinE.pure_ok h6
  obtain ⟨d, c7, c8, h7, h8, rfl⟩ := M.bind_ok.1 h2
  obtain ⟨rfl, rfl⟩ := LinE.pure_ok h8
  obtain ⟨z, z1, z2, z3⟩ := LinE.solve_val hcfg hσ h3 h5 (fun c hcc => hc c (by
      simp only [List.mem_append] at hcc ⊢; tauto))
    (α := fun i k => α (kp skip dim i) (kp skip dim k)) (β := fun i => β (kp skip dim i))
    (fun i k hi hk => by rw [LinE.mat_toStdVec2 _ _ _ _ _ hi hk]; exact hA _ _ (kp_mem hi) (kp_mem hk))
    (fun i hi => by rw [LinE.vec_toStdVec1 _ _ _ _ hi]; exact hb _ (kp_mem hi))
  rw [det_keep] at z3
  obtain ⟨d', rest, g1, g2, g3⟩ := fromStdVec1_ok ((List.range (keep skip dim).length).map y) x skip dim (by simp)
  have := LinE.lift_ok h7
  rw [g1] at this
  cases this
  obtain ⟨w, hw⟩ := exists_of_kp skip dim 0 z
  have hsw : SolvesKept skip dim α β w := by
    rw [← solves_keep]
    intro i hi
    rw [← z2 i hi]
    apply Finset.sum_congr rfl
    intro k hk
    simp only [hw k (Finset.mem_range.1 hk)]
  refine ⟨z3, ⟨w, ?_, hsw, fun z' hz' => LinE.unique_kept z3 hsw hz'⟩, g3⟩
  rintro i ⟨hi, hi'⟩
  obtain ⟨k, hk, rfl⟩ := kp_surj hi hi'
  show den σ (d' _) = _
  rw [map_keep_eq g2 hk, hw k hk]
  exact z1 k hk

/-- C62 for `determinant`. -/
theorem C62_determinant (d : Expr D) (h : LinE.determinant (eng cfg n) A skip dim algo = .ok (d, cs)) :
    den σ d = some (subMatrix skip dim α).det := by
  unfold LinE.determinant LinE.detailDeterminant at h
  rw [countFalse_eq] at h
  obtain ⟨s, c1, c2, h1, h2, rfl⟩ := M.bind_ok.1 h
  rw [← det_keep]
  exact LinE.det_val hcfg hσ h1 h2 hc
    (fun i k hi hk => by rw [LinE.mat_toStdVec2 _ _ _ _ _ hi hk]; exact hA _ _ (kp_mem hi) (kp_mem hk))
    (β := fun _ => 0) (fun i hi => by simp)

/-- C62 for `invert`: the values of the result are the inverse of the matrix of the values; entries that
are skipped keep their contents. -/
theorem C62_invert (A' : ℕ → ℕ → Expr D) (h : LinE.invert (eng cfg n) A skip dim algo = .ok (A', cs)) :
    (∃ Z, (∀ i k, Kept skip dim i → Kept skip dim k → den σ (A' i k) = some (Z i k)) ∧
      subMatrix skip dim α * subMatrix skip dim Z = 1) ∧
    ∀ i k, ¬ (Kept skip dim i ∧ Kept skip dim k) → A' i k = A i k := by
  unfold LinE.invert LinE.detailInvert at h
  rw [countFalse_eq] at h
  obtain ⟨r, c1, c2, h1, h2, rfl⟩ := M.bind_ok.1 h
  obtain ⟨inv, c3, c4, h3, h4, rfl⟩ := M.bind_ok.1 h1
  obtain ⟨rfl, rfl⟩ := LinE.pure_ok h4
  obtain ⟨d, c7, c8, h7, h8, rfl⟩ := M.bind_ok.1 h2
  obtain ⟨rfl, rfl⟩ := LinE.pure_ok h8
  have key := LinE.loop_inv (hi := (keep skip dim).length) (f := LinE.invertColumn (eng cfg n)
      (toStdVec2 A skip dim dim) (keep skip dim).length algo) (fun j ds inv => (∀ c ∈ ds, c.holds σ) → ∀ c < j,
        ∃ z, (∀ i, i < (keep skip dim).length → den σ (inv i c) = some (z i)) ∧
          Solves (keep skip dim).length (fun i k => α (kp skip dim i) (kp skip dim k)) (fun j => if c = j then 1 else 0) z) (by
    intro j inv ds inv' es hj hP hr hds
    unfold LinE.invertColumn at hr
    obtain ⟨s, e1, e2, k1, k2, rfl⟩ := M.bind_ok.1 hr
    obtain ⟨y, e3, e4, k3, k4, rfl⟩ := M.bind_ok.1 k2
    obtain ⟨rfl, rfl⟩ := LinE.pure_ok k4
    have hl := Lin.loop_inv (lo := 0) (hi := (keep skip dim).length) (by omega) (f := fun r inv => Lin.set inv r j (y r))
      (s := inv) (fun m inv' => ∀ a b, inv' a b = if b = j ∧ a < m then y a else inv a b)
      (by intro a b; rw [if_neg (by omega)])
      (by
        intro i _ _ inv' h a b
        simp only [Lin.set]
        by_cases hab : a = i ∧ b = j
        · rw [if_pos hab, if_pos ⟨hab.2, by omega⟩, hab.1]
        · rw [if_neg hab, h]
          have : (b = j ∧ a < i) ↔ (b = j ∧ a < i + 1) := by
            constructor
            · rintro ⟨h1, h2⟩; exact ⟨h1, by omega⟩
            · rintro ⟨h1, h2⟩
              refine ⟨h1, ?_⟩
              rcases Nat.lt_or_ge a i with h3 | h3
              · exact h3
              · exact absurd ⟨by omega, h1⟩ hab
          simp only [this])
    intro c hcj
    by_cases hcj' : c = j
    · subst hcj'
      obtain ⟨z, z1, z2, -⟩ := LinE.solve_val hcfg hσ k1 k3 (fun c hcc => hds c (by
          simp only [List.mem_append] at hcc ⊢; tauto))
        (α := fun i k => α (kp skip dim i) (kp skip dim k)) (β := fun j => if c = j then 1 else 0)
        (fun i k hi hk => by rw [LinE.mat_toStdVec2 _ _ _ _ _ hi hk]; exact hA _ _ (kp_mem hi) (kp_mem hk))
        (fun i hi => by split <;> simp)
      refine ⟨z, fun i hi => ?_, z2⟩
      rw [hl i c, if_pos ⟨rfl, hi⟩]
      exact z1 i hi
    · obtain ⟨z, z1, z2⟩ := hP (fun c hcc => hds c (by simp [hcc])) c (by omega)
      refine ⟨z, fun i hi => ?_, z2⟩
      rw [hl i c, if_neg (by tauto)]
      exact z1 i hi) 0 _ [] inv c3 (by omega) (by intro _ c hc; omega) h3
  have key := key (fun c hcc => hc c (by simp only [List.nil_append] at hcc; simp [hcc]))
  obtain ⟨d', rest, g1, g2, g3⟩ := fromStdVec2_ok ((List.range (keep skip dim).length).flatMap
    (fun i => (List.range (keep skip dim).length).map (inv i))) A skip dim (by simp)
  have := LinE.lift_ok h7
  rw [g1] at this
  cases this
  refine ⟨?_, g3⟩
  have : ∃ Z : ℕ → ℕ → ℝ, ∀ c < (keep skip dim).length, (∀ i, i < (keep skip dim).length → den σ (inv i c) = some (Z c i)) ∧
      Solves (keep skip dim).length (fun i k => α (kp skip dim i) (kp skip dim k)) (fun j => if c = j then 1 else 0) (Z c) := by
    refine ⟨fun c => if h : c < (keep skip dim).length then (key c h).choose else fun _ => 0, fun c hc => ?_⟩
    simp only [hc, dif_pos]
    exact (key c hc).choose_spec
  obtain ⟨Z, hZ⟩ := this
  obtain ⟨W, hW⟩ := exists_of_kp skip dim (fun _ => 0) (fun i => (exists_of_kp skip dim 0 (fun k => Z k i)).choose)
  have hW' : ∀ i k, i < (keep skip dim).length → k < (keep skip dim).length → W (kp skip dim i) (kp skip dim k) = Z k i := by
    intro i k hi hk
    rw [hW i hi]
    exact (exists_of_kp skip dim 0 (fun k => Z k i)).choose_spec k hk
  refine ⟨W, ?_, ?_⟩
  · rintro i k ⟨hi, hi'⟩ ⟨hk, hk'⟩
    obtain ⟨a, ha, rfl⟩ := kp_surj hi hi'
    obtain ⟨c, hc', rfl⟩ := kp_surj hk hk'
    show den σ (d' _ _) = _
    rw [flatMap_keep_eq g2 ha hc', (hZ c hc').1 a ha, hW' a c ha hc']
  · have : (subMatrix skip dim α * subMatrix skip dim W).submatrix (keepEquiv skip dim) (keepEquiv skip dim) = 1 := by
      rw [← Matrix.submatrix_mul_equiv _ _ _ (keepEquiv skip dim)]
      ext i k
      have hs := (hZ k k.2).2 i i.2
      rw [Finset.sum_range] at hs
      rw [Matrix.mul_apply, Matrix.one_apply]
      have e : (if i = k then (1 : ℝ) else 0) = if (k : ℕ) = (i : ℕ) then 1 else 0 := by
        by_cases h : i = k
        · subst h; simp
        · rw [if_neg h, if_neg (fun e => h (Fin.ext e.symm))]
      rw [e]
      refine Eq.trans ?_ hs
      apply Finset.sum_congr rfl
      intro l _
      show α (kp skip dim i) (kp skip dim l) * W (kp skip dim l) (kp skip dim k) = _
      rw [hW' l k l.2 k.2]
    have h2 := congrArg (fun Q => Q.submatrix (keepEquiv skip dim).symm (keepEquiv skip dim).symm) this
    simpa using h2

end

namespace SolveEx

open ExprEx SymEx ValueEx

/-- The matrix ((a, 1), (1, b)). -/
def mtx : ℕ → ℕ → Expr Hyb := fun i k => (([[a, int 1], [int 1, b]] : List (List (Expr Hyb))).getD i []).getD k zero

/-- The right hand side (1, 0). -/
def rhs : ℕ → Expr Hyb := fun i => ([int 1, int 0] : List (Expr Hyb)).getD i zero

/-- 1 - a*b -/
def d : Expr Hyb := sum [int 1, prod [mOne, a, b]]

/-- The first entries of the result. -/
def entries (n : ℕ) (m : M Hyb (ℕ → Expr Hyb)) : M Hyb (List (Expr Hyb)) := do
  let x ← m
  pure ((List.range n).map x)

set_option maxRecDepth 100000 in
/-- C62 on an example: a*x + y = 1, x + b*y = 0 gives x = -b/(1 - a*b), y = 1/(1 - a*b), and the recorded
conditions are that the pivots 1 and 1 - a*b are not zero. -/
theorem entries_mtx : entries 2 (LinE.solve (eng (Cfg.std 1000) 60) mtx rhs (fun _ => zero) defaultSkip 2 .gaussLCPivot) =
    .ok ([prod [mOne, b, pow d mOne], pow d mOne], [.nz one, .nz d, .nz one, .within [] (.nz one), .within [] (.nz one), .within [] (.nz one)]) := by krfl

/-- C62: the hypotheses hold for this matrix, where all symbols have the value 3. -/
theorem C62_solve_example : ∃ x' cs, LinE.solve (eng (Cfg.std 1000) 60) mtx rhs (fun _ => zero) defaultSkip 2 .gaussLCPivot = .ok (x', cs) ∧
    x' 0 = prod [mOne, b, pow d mOne] ∧ x' 1 = pow d mOne ∧ ∀ c ∈ cs, c.holds (all 3) := by
  have h := entries_mtx
  unfold entries at h
  obtain ⟨x', c1, c2, h1, h2, h3⟩ := M.bind_ok.1 h
  obtain ⟨h4, rfl⟩ := LinE.pure_ok h2
  refine ⟨x', c1, h1, ?_, ?_, ?_⟩
  · exact (List.cons.inj h4).1.symm
  · exact (List.cons.inj (List.cons.inj h4).2).1.symm
  · rw [List.append_nil] at h3
    subst h3
    have h1 : (Cond.nz (one : Expr Hyb)).holds (all 3) := ⟨1, by simp, one_ne_zero⟩
    have hd : (Cond.nz d).holds (all 3) := by
      refine ⟨1 - 9, ?_, by norm_num⟩
      simp only [d, den_sum, denSum, den_prod, denProd, den_int, den_mOne, den_a, den_b, all, Option.bind_some, Option.some.injEq]
      norm_num
    intro c hc
    simp only [List.mem_cons, List.not_mem_nil, or_false] at hc
    rcases hc with rfl | rfl | rfl | rfl | rfl | rfl <;> first | exact h1 | exact hd

/-- C62 for the determinant of the same matrix. -/
example : ∃ cs, LinE.determinant (eng (Cfg.std 1000) 60) mtx defaultSkip 2 .gaussLCPivot = .ok (sum [mOne, prod [a, b]], cs) := M.val_some (by krfl)

end SolveEx

end Tsym
