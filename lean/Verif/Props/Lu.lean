import Verif.LuThm
import Verif.Props.SolveNum

/-!
# LU decomposition without pivots: C65

The specification: the two factors that the matrix holds after the factorisation as matrices of Mathlib, and
leading minors. The factorisation and the solution are right if and only if no leading minor is zero;
otherwise there is an exception, although the matrix may be regular.
-/

set_option autoImplicit false
set_option linter.unusedSectionVars false

namespace Tsym

open Expr Lin Matrix

section spec

variable {K : Type} [Field K]

/-- The upper left part with `n` rows and columns. -/
def leading (n : ℕ) (A : ℕ → ℕ → K) : Matrix (Fin n) (Fin n) K := .of fun i k => A i k

/-- The entries below the diagonal, with ones on the diagonal. -/
def lower (n : ℕ) (F : ℕ → ℕ → K) : Matrix (Fin n) (Fin n) K :=
  .of fun i k => if k < i then F i k else if k = i then 1 else 0

/-- The entries on and above the diagonal. -/
def upper (n : ℕ) (F : ℕ → ℕ → K) : Matrix (Fin n) (Fin n) K := .of fun i k => if k < i then 0 else F i k

/-- The vector of the first `n` entries. -/
def first (n : ℕ) (b : ℕ → K) : Fin n → K := fun i => b i

end spec

/-! ## Helper lemmas -/

section

variable {K : Type} [Field K]

theorem lower_mul_upper (n : ℕ) (F : ℕ → ℕ → K) (i k : Fin n) :
    (lower n F * upper n F) i k = ∑ c ∈ Finset.range (min i (n - 1)), F i c * up F (n - 1) c k + up F (n - 1) i k := by
  have hi := i.2
  have e : min (i : ℕ) (n - 1) = i := by omega
  rw [e, Matrix.mul_apply]
  have h1 : ∀ c : Fin n, lower n F i c * upper n F c k = (fun c : ℕ => (if c < (i : ℕ) then F i c else if c = (i : ℕ) then 1 else 0) * up F (n - 1) c k) c := by
    intro c
    have hc := c.2
    simp only [lower, upper, up, Matrix.of_apply, Fin.lt_def, Fin.ext_iff]
    rw [show min (c : ℕ) (n - 1) = c by omega]
  simp only [h1]
  rw [← Finset.sum_range (fun c : ℕ => (if c < (i : ℕ) then F i c else if c = (i : ℕ) then 1 else 0) * up F (n - 1) c k),
    ← Finset.sum_range_add_sum_Ico _ hi, Finset.sum_range_succ]
  have h2 : ∑ c ∈ Finset.Ico ((i : ℕ) + 1) n, (if c < (i : ℕ) then F i c else if c = (i : ℕ) then 1 else 0) * up F (n - 1) c k = 0 := by
    refine Finset.sum_eq_zero fun c hc => ?_
    rw [Finset.mem_Ico] at hc
    rw [if_neg (by omega), if_neg (by omega), zero_mul]
  rw [h2, add_zero, if_neg (by omega), if_pos rfl, one_mul]
  congr 1
  refine Finset.sum_congr rfl fun c hc => ?_
  rw [if_pos (Finset.mem_range.1 hc)]

theorem Inv_of_factors {V : Type} {R : V → K → Prop} {n : ℕ} {A F : ℕ → ℕ → K} {b : ℕ → K} {M : ℕ → ℕ → V} {bb : ℕ → V}
    (hM : ∀ i k, i < n → k < n → R (M i k) (F i k)) (hb : ∀ i, i < n → R (bb i) (b i)) (hf : lower n F * upper n F = leading n A)
    (hp : ∀ i, i + 1 < n → F i i ≠ 0) : Inv R n A b (n - 1) ⟨M, bb, 0⟩ A F b where
  valM := hM
  valb := hb
  lu i k hi hk := by
    have := congrFun (congrFun hf ⟨i, hi⟩) ⟨k, hk⟩
    rw [lower_mul_upper] at this
    exact this.symm
  det := by simp
  sol _ h := h
  piv i hi := hp i (by omega)

theorem factors_of_Inv {V : Type} {R : V → K → Prop} {n : ℕ} {A F : ℕ → ℕ → K} {b : ℕ → K} {s : St V}
    (h : Inv R n A b (n - 1) s A F b) : lower n F * upper n F = leading n A := by
  ext i k
  rw [lower_mul_upper, ← h.lu i k i.2 k.2]
  rfl

theorem solves_iff {n : ℕ} {A : ℕ → ℕ → K} {b z : ℕ → K} : Solves n A b z ↔ leading n A *ᵥ first n z = first n b := by
  constructor
  · intro h
    funext i
    have := h i i.2
    rw [Finset.sum_range] at this
    exact this
  · intro h i hi
    have := congrFun h ⟨i, hi⟩
    rw [Finset.sum_range]
    exact this

theorem det_factors (n : ℕ) (F : ℕ → ℕ → K) : (lower n F * upper n F).det = ∏ i : Fin n, F i i := by
  rw [Matrix.det_mul, Matrix.det_of_isLowerTriangular, Matrix.det_of_isUpperTriangular]
  · have : ∏ i : Fin n, lower n F i i = 1 := Finset.prod_eq_one fun i _ => by simp [lower]
    rw [this, one_mul]
    exact Finset.prod_congr rfl fun i _ => by simp [upper]
  · intro i k h
    have h' : k < i := h
    simp [upper, h']
  · intro i k h
    have h' : i < k := h
    simp only [lower, Matrix.of_apply]
    rw [if_neg (by omega), if_neg (by omega)]

theorem unique_leading {n : ℕ} {A : ℕ → ℕ → K} {b z z' : ℕ → K} (hd : (leading n A).det ≠ 0) (h : leading n A *ᵥ first n z = first n b)
    (h' : leading n A *ᵥ first n z' = first n b) : ∀ i < n, z' i = z i := by
  intro i hi
  have h0 := Matrix.eq_zero_of_mulVec_eq_zero (v := first n z' - first n z) hd (by rw [Matrix.mulVec_sub, h, h', sub_self])
  exact sub_eq_zero.1 (congrFun h0 ⟨i, hi⟩)

end

/-! ## Exact entries -/

section exact

variable {K : Type} [Field K] [DecidableEq K] (comp : Option K → ℕ) (dim : ℕ) (A : ℕ → ℕ → K) (M : ℕ → ℕ → Option K)

/-- C65, factorisation with exact entries: if no leading minor with less than `dim` rows is zero, the matrix holds two
factors afterwards. -/
theorem C65_factorize (hM : ∀ i k, i < dim → k < dim → M i k = some (A i k)) (hm : ∀ n, 1 ≤ n → n < dim → (leading n A).det ≠ 0) :
    ∃ F, (∀ i k, i < dim → k < dim → luFactorize (exactScalar comp) dim M i k = some (F i k)) ∧ lower dim F * upper dim F = leading dim A := by
  rcases luFactorize_exact comp dim A (fun _ => 0) M (fun _ => some 0) hM (fun _ _ => rfl) with ⟨F, h⟩ | ⟨j, h1, -, h3⟩
  · exact ⟨F, h.valM, factors_of_Inv h⟩
  · exact absurd h3 (hm (j + 1) (by omega) h1)

/-- C65, solution with exact entries: for a matrix that holds two factors with a diagonal without zeros the result is the unique
solution, for any right hand side, and the factors are kept; with a zero on the diagonal there is an
exception. -/
theorem C65_compute (F : ℕ → ℕ → K) (hM : ∀ i k, i < dim → k < dim → M i k = some (F i k)) (hf : lower dim F * upper dim F = leading dim A)
    (bb x : ℕ → Option K) (b : ℕ → K) (hb : ∀ i, i < dim → bb i = some (b i)) :
    ((∀ i < dim, F i i ≠ 0) → ∃ r z, luComputeSolution (exactScalar comp) dim M bb x = .ok (M, r) ∧ (∀ i < dim, r i = some (z i)) ∧
      leading dim A *ᵥ first dim z = first dim b ∧ ∀ z', leading dim A *ᵥ first dim z' = first dim b → ∀ i < dim, z' i = z i) ∧
    ((∃ i < dim, F i i = 0) → luComputeSolution (exactScalar comp) dim M bb x = .error .invalidArgument) := by
  have hd : Lin.diag (exactScalar comp) 0 dim M = M := by
    funext i k; unfold Lin.diag
    split
    · rename_i h; obtain ⟨rfl, -⟩ := h; rfl
    · rfl
  rw [luComputeSolution_eq, hd]
  have hbc := back_cases comp (dim := dim) (M := M) (b := forward (exactScalar comp) dim M bb) dim
    (loop 0 dim (fun i x => set1 x i (exactScalar comp).zero) x)
  constructor
  · intro hp
    have hi := Inv_of_factors (R := IsVal) hM hb hf (fun i hi => hp i (by omega))
    rcases hbc with ⟨-, q, h2⟩ | ⟨⟨i, hi, h1⟩, -⟩
    · obtain ⟨z, hz1, hz2⟩ := hi.computeSolution (exactScalar comp) IsVal (exact_sound comp) (by omega) hp h2
      rw [solves_iff] at hz2
      refine ⟨q, z, ?_, hz1, hz2, fun z' hz' => unique_leading ?_ hz2 hz'⟩
      · unfold computeSolution
        rw [h2]; rfl
      · rw [← hf, det_factors]
        exact Finset.prod_ne_zero_iff.2 fun i _ => hp i i.2
    · rw [hM i i hi hi] at h1
      exact absurd (Option.some.inj h1) (hp i hi)
  · rintro ⟨i, hi, hz⟩
    rcases hbc with ⟨h1, -⟩ | ⟨-, h2⟩
    · exact absurd (by rw [hM i i hi hi, hz]) (h1 i hi)
    · unfold computeSolution
      rw [h2]; rfl

/-- C65, both steps with exact entries: the unique solution if no leading minor is zero, otherwise an exception. -/
theorem C65_solve (hM : ∀ i k, i < dim → k < dim → M i k = some (A i k)) (bb x : ℕ → Option K) (b : ℕ → K)
    (hb : ∀ i, i < dim → bb i = some (b i)) :
    ((∀ n, 1 ≤ n → n ≤ dim → (leading n A).det ≠ 0) →
      ∃ r z, luComputeSolution (exactScalar comp) dim (luFactorize (exactScalar comp) dim M) bb x = .ok (luFactorize (exactScalar comp) dim M, r) ∧
        (∀ i < dim, r i = some (z i)) ∧ leading dim A *ᵥ first dim z = first dim b ∧
        ∀ z', leading dim A *ᵥ first dim z' = first dim b → ∀ i < dim, z' i = z i) ∧
    ((∃ n, 1 ≤ n ∧ n ≤ dim ∧ (leading n A).det = 0) →
      luComputeSolution (exactScalar comp) dim (luFactorize (exactScalar comp) dim M) bb x = .error .invalidArgument) := by
  rcases luSolve_exact comp dim A b M bb x hM hb with ⟨h1, r, z, h2, h3, h4⟩ | ⟨⟨n, h1, h2, h3⟩, h4⟩
  · rw [solves_iff] at h4
    refine ⟨fun hm => ⟨r, z, h2, h3, h4, fun z' hz' => unique_leading ?_ h4 hz'⟩, ?_⟩
    · rcases Nat.eq_zero_or_pos dim with rfl | hd
      · simp
      · exact hm dim hd le_rfl
    · rintro ⟨n, k1, k2, k3⟩
      exact absurd k3 (h1 n k1 k2)
  · exact ⟨fun hm => absurd h3 (hm n h1 h2), fun _ => h4⟩

end exact

/-! ## The operators of the library -/

variable {D : Type} [Flt D] [LawfulFlt D]

/-- Factorisation, then solution. -/
def luRun (E : Eng D) (dim : ℕ) (A : ℕ → ℕ → Expr D) (b x : ℕ → Expr D) : M D ((ℕ → ℕ → Expr D) × (ℕ → Expr D)) := do
  let F ← LinE.luFactorize E dim A
  LinE.luComputeSolution E dim F b x

theorem luRun_mono (dim : ℕ) (A : ℕ → ℕ → Expr D) (b x : ℕ → Expr D) : Lean.Order.monotone fun E : Eng D => luRun E dim A b x := by
  unfold luRun
  refine Lean.Order.monotone_bind _ _ _ (LinE.luFactorize_mono dim A id Lean.Order.monotone_id) ?_
  refine Lean.Order.monotone_of_monotone_apply _ fun F => ?_
  exact LinE.luComputeSolution_mono dim F b x id Lean.Order.monotone_id

/-- C65 with the operators of the library and rational entries, limit for primes less than 324: the call
always ends, with the exact unique solution if no leading minor is zero, otherwise with an exception. -/
theorem C65_rational (cfg : Cfg D) (hc : cfg.Ok) (hp : cfg.maxPrime < 324) (dim : ℕ) (A : ℕ → ℕ → Expr D) (α : ℕ → ℕ → ℚ)
    (hA : ∀ i k, A i k = .num (.rat (α i k))) (b x : ℕ → Expr D) (β ξ : ℕ → ℚ) (hb : ∀ i, b i = .num (.rat (β i)))
    (hx : ∀ i, x i = .num (.rat (ξ i))) :
    ((∀ n, 1 ≤ n → n ≤ dim → (leading n α).det ≠ 0) → ∃ F x' z, Ends cfg (fun E => luRun E dim A b x) (.ok (F, x')) ∧
      (∀ i < dim, x' i = .num (.rat (z i))) ∧ leading dim α *ᵥ first dim z = first dim β ∧
      ∀ z', leading dim α *ᵥ first dim z' = first dim β → ∀ i < dim, z' i = z i) ∧
    ((∃ n, 1 ≤ n ∧ n ≤ dim ∧ (leading n α).det = 0) → Ends cfg (fun E => luRun E dim A b x) (.error .invalidArgument)) := by
  have e1 : A = LinE.repM (fun i k => some (α i k)) := by funext i k; exact hA i k
  have e2 : b = LinE.repV (fun i => some (β i)) := by funext i; exact hb i
  have e3 : x = LinE.repV (fun i => some (ξ i)) := by funext i; exact hx i
  have hr : LinE.Out cfg (fun E => luRun E dim A b x) ((luComputeSolution (LinE.sc D) dim (luFactorize (LinE.sc D) dim (fun i k => some (α i k)))
      (fun i => some (β i)) (fun i => some (ξ i))).map LinE.repP) := by
    rw [e1, e2, e3]
    exact LinE.out_bind_ok (LinE.luFactorize_rep hc hp dim _) (LinE.luComputeSolution_rep hc hp dim _ _ _)
  obtain ⟨h1, h2⟩ := C65_solve (LinE.comp D) dim α (fun i k => some (α i k)) (fun _ _ _ _ => rfl) (fun i => some (β i)) (fun i => some (ξ i)) β
    (fun _ _ => rfl)
  constructor
  · intro hm
    obtain ⟨r, z, k1, k2, k3, k4⟩ := h1 hm
    rw [k1] at hr
    refine ⟨_, _, z, LinE.Out.ends (luRun_mono _ _ _ _) hr, fun i hi => ?_, k3, k4⟩
    show LinE.rep (r i) = _
    rw [k2 i hi]; rfl
  · intro hm
    rw [h2 hm] at hr
    exact LinE.Out.ends (luRun_mono _ _ _ _) hr

section

variable (cfg : Cfg D) (hcfg : cfg.Ok) (n : ℕ) (σ : Asg) (hσ : σ.Respects) (dim : ℕ)
include hcfg hσ

/-- C65, factorisation of a matrix of expressions: where the recorded conditions hold (the values of the pivots are not zero), the
values of the result are two factors of the matrix of the values. -/
theorem C65_factorize_expressions (A F : ℕ → ℕ → Expr D) (α : ℕ → ℕ → ℝ) (cs : List (Cond D)) (hc : ∀ c ∈ cs, c.holds σ)
    (hA : ∀ i k, i < dim → k < dim → den σ (A i k) = some (α i k)) (h : LinE.luFactorize (eng cfg n) dim A = .ok (F, cs)) :
    ∃ φ, (∀ i k, i < dim → k < dim → den σ (F i k) = some (φ i k)) ∧ lower dim φ * upper dim φ = leading dim α := by
  have hs := LinE.luFactorize_sim (cs := []) (B := fun i k => pure (A i k)) (fun i k => LinE.Sim.pure _ _) h
  rw [List.nil_append] at hs
  have hnz := LinE.luFactorize_nz h
  have key : ∃ φ, Inv (Vl σ) dim α (fun _ => 0) (dim - 1) ⟨luFactorize (LinE.scal (eng cfg n)) dim (fun i k => pure (A i k)), fun _ => pure zero, 0⟩ α φ (fun _ => 0) := by
    -- rows above the current one are those of the final matrix
    have hfr : ∀ k lo M, dim - 1 - lo = k → ∀ a c, a < lo + 1 → a + 1 < dim →
        loop lo (dim - 1) (fun j M => loop (j + 1) dim (luRow (LinE.scal (eng cfg n)) dim j) M) M a c = M a c := by
      intro k
      induction k with
      | zero => intro lo M hk a c _ _; rw [loop_of_le (by omega)]
      | succ k ih =>
        intro lo M hk a c ha hd
        rw [LinE.lin_loop_front (by omega), ih (lo + 1) _ (by omega) a c (by omega) hd, luCol_frozen _ (by omega) _ _ _ (by omega)]
    suffices ∀ k lo M, dim - 1 - lo = k → lo ≤ dim - 1 →
        loop lo (dim - 1) (fun j M => loop (j + 1) dim (luRow (LinE.scal (eng cfg n)) dim j) M) M = luFactorize (LinE.scal (eng cfg n)) dim (fun i k => pure (A i k)) →
        (∃ φ, Inv (Vl σ) dim α (fun _ => 0) lo ⟨M, fun _ => pure zero, 0⟩ α φ (fun _ => 0)) →
        ∃ φ, Inv (Vl σ) dim α (fun _ => 0) (dim - 1) ⟨luFactorize (LinE.scal (eng cfg n)) dim (fun i k => pure (A i k)), fun _ => pure zero, 0⟩ α φ (fun _ => 0) from
      this _ 0 _ rfl (by omega) rfl ⟨α, Inv.init (Vl σ) (fun i k hi hk => wp_pure (hA i k hi hk)) (fun i hi => wp_pure (by simp))⟩
    intro k
    induction k with
    | zero =>
      intro lo M hk hlo hM hφ
      have : lo = dim - 1 := by omega
      rw [loop_of_le (by omega)] at hM
      subst this hM
      exact hφ
    | succ k ih =>
      rintro lo M hk hlo hM ⟨φ, hφ⟩
      have h0 : φ lo lo ≠ 0 := by
        obtain ⟨w, hw1, hw2⟩ := hc _ (hnz lo (by omega))
        have h1 := hφ.valM lo lo (by omega) (by omega)
        have h2 := hs lo lo
        rw [← hM, hfr _ lo M rfl lo lo (by omega) (by omega)] at h2
        have := h2.val hc h1
        rw [this] at hw1
        cases hw1; exact hw2
      rw [LinE.lin_loop_front (by omega)] at hM
      exact ih (lo + 1) _ (by omega) (by omega) hM (hφ.elim (raw (LinE.scal (eng cfg n))) (Vl σ) (raw_sound _ _ (LinE.scal_sound hcfg n hσ)) (by omega) h0)
  obtain ⟨φ, hφ⟩ := key
  exact ⟨φ, fun i k hi hk => (hs i k).val hc (hφ.valM i k hi hk), factors_of_Inv hφ⟩

/-- C65, solution for a matrix of expressions whose values are two factors, and any right hand side: where the recorded
conditions hold, the values of the result are the unique solution, and the values of the factors are kept. -/
theorem C65_compute_expressions (F F' : ℕ → ℕ → Expr D) (b x x' : ℕ → Expr D) (α φ : ℕ → ℕ → ℝ) (β : ℕ → ℝ) (cs : List (Cond D)) (hc : ∀ c ∈ cs, c.holds σ)
    (hF : ∀ i k, i < dim → k < dim → den σ (F i k) = some (φ i k)) (hf : lower dim φ * upper dim φ = leading dim α)
    (hb : ∀ i < dim, den σ (b i) = some (β i)) (h : LinE.luComputeSolution (eng cfg n) dim F b x = .ok ((F', x'), cs)) :
    (∀ i k, i < dim → k < dim → den σ (F' i k) = some (φ i k)) ∧
    ∃ z, (∀ i < dim, den σ (x' i) = some (z i)) ∧ leading dim α *ᵥ first dim z = first dim β ∧
      ∀ z', leading dim α *ᵥ first dim z' = first dim β → ∀ i < dim, z' i = z i := by
  obtain ⟨h1, h2⟩ := LinE.luComputeSolution_eq h
  obtain ⟨⟨v', k1, k2⟩, k3⟩ := LinE.computeSolution_sim (cs := []) (B := fun i k => pure (F i k)) (c := fun i => pure (b i)) (v := fun i => pure (x i))
    (fun i k => LinE.Sim.pure _ _) (fun i => LinE.Sim.pure _ _) (fun i => LinE.Sim.pure _ _) h1
  rw [List.nil_append] at k2 k3
  have hs := LinE.scal_sound hcfg n hσ
  have hnz : ∀ i, i < dim → φ i i ≠ 0 := by
    intro i hi
    obtain ⟨d, q1, q2⟩ := k3 i hi
    obtain ⟨w, hw1, hw2⟩ := hc _ q2
    have := q1.val hc (hs.simplify (wp_pure (hF i i hi hi)))
    rw [this] at hw1
    cases hw1; exact hw2
  have hi := Inv_of_factors (R := Vl σ) (M := fun i k => (pure (F i k) : M D (Expr D))) (bb := fun i => pure (b i)) (b := β)
    (fun i k hi hk => wp_pure (hF i k hi hk)) (fun i hi => wp_pure (hb i hi)) hf (fun i hi => hnz i (by omega))
  obtain ⟨z, z1, z2⟩ := hi.computeSolution (LinE.scal (eng cfg n)) (Vl σ) hs (by omega) hnz k1
  rw [solves_iff] at z2
  refine ⟨fun i k hi hk => ?_, z, fun i hi => (k2 i).val hc (z1 i hi), z2, fun z' hz' => unique_leading ?_ z2 hz'⟩
  · by_cases hik : i = k
    · subst hik
      obtain ⟨ds, g1, g2⟩ := (h2 i i).1 ⟨rfl, by omega, hi⟩
      exact Api.simplify_vl (sound_eng hcfg n) hσ (hF i i hi hi) _ ds g1 fun c hcc => hc c (g2 hcc)
    · rw [(h2 i k).2 (by tauto)]
      exact hF i k hi hk
  · rw [← hf, det_factors]
    exact Finset.prod_ne_zero_iff.2 fun i _ => hnz i i.2

end

/-! ## Examples -/

namespace SolveEx

open ExprEx SymEx ValueEx

/-- ((2, 1), (4, 5)) -/
def l2 : ℕ → ℕ → ℚ := fun i k => if i = 0 ∧ k = 0 then 2 else if i = 0 ∧ k = 1 then 1 else if i = 1 ∧ k = 0 then 4 else 5

/-- The minors 2 and 6 are not zero. -/
theorem minors_l2 : ∀ n, 1 ≤ n → n ≤ 2 → (leading n l2).det ≠ 0 := by
  intro n h1 h2
  interval_cases n
  · show Matrix.det (n := Fin 1) _ ≠ 0
    rw [Matrix.det_fin_one]
    simp [leading, l2]
  · show Matrix.det (n := Fin 2) _ ≠ 0
    rw [Matrix.det_fin_two]
    simp [leading, l2]
    norm_num

/-- The hypotheses of `C65_rational` are met for this matrix and the right hand side (1, 1). -/
example : ∃ F x' z, Ends (Cfg.std 300) (fun E : Eng Hyb => luRun E 2 (fun i k => .num (.rat (l2 i k))) (fun _ => .num (.rat 1)) (fun _ => .num (.rat 0))) (.ok (F, x')) ∧
    (∀ i < 2, x' i = .num (.rat (z i))) ∧ leading 2 l2 *ᵥ first 2 z = first 2 (fun _ => 1) ∧
    ∀ z', leading 2 l2 *ᵥ first 2 z' = first 2 (fun _ => 1) → ∀ i < 2, z' i = z i :=
  (C65_rational (Cfg.std 300) (Cfg.std_ok 300) (by decide) 2 _ l2 (fun _ _ => rfl) _ _ (fun _ => 1) (fun _ => 0) (fun _ => rfl) (fun _ => rfl)).1 minors_l2

/-- The solution is (2/3, -1/3). -/
example : ∃ cs, entries 2 (do
    let r ← luRun (eng (Cfg.std 300) 60) 2 (fun i k => (.num (.rat (l2 i k)) : Expr Hyb)) (fun _ => one) (fun _ => zero)
    pure r.2) = .ok ([.num (.rat (2 / 3)), .num (.rat (-1 / 3))], cs) := M.val_some (by krfl)

/-- ((0, 1), (1, 0)) -/
def l3 : ℕ → ℕ → ℚ := fun i k => if i + k = 1 then 1 else 0

/-- C65: that every system with a regular matrix is solved is false. The matrix ((0, 1), (1, 0)) has the determinant -1, but there
is the exception for singular matrices. -/
theorem C65_false_regular : (leading 2 l3).det = -1 ∧
    Ends (Cfg.std 300) (fun E : Eng Hyb => luRun E 2 (fun i k => .num (.rat (l3 i k))) (fun _ => .num (.rat 1)) (fun _ => .num (.rat 0))) (.error .invalidArgument) := by
  constructor
  · show Matrix.det (n := Fin 2) _ = _
    rw [Matrix.det_fin_two]
    simp [leading, l3]
  · refine (C65_rational (Cfg.std 300) (Cfg.std_ok 300) (by decide) 2 _ l3 (fun _ _ => rfl) _ _ (fun _ => 1) (fun _ => 0) (fun _ => rfl) (fun _ => rfl)).2 ⟨1, le_rfl, by decide, ?_⟩
    show Matrix.det (n := Fin 1) _ = _
    rw [Matrix.det_fin_one]
    simp [leading, l3]

/-- The matrix ((1, b), (a, 1)). -/
def mtx2 : ℕ → ℕ → Expr Hyb := fun i k => (([[int 1, b], [a, int 1]] : List (List (Expr Hyb))).getD i []).getD k zero

/-- Its factors: 1, b above, a, 1 - a*b below; the recorded condition is that the pivot 1 is not zero. -/
theorem factors_mtx2 : (do
    let F ← LinE.luFactorize (eng (Cfg.std 1000) 60) 2 mtx2
    pure [F 0 0, F 0 1, F 1 0, F 1 1]) = .ok ([int 1, b, a, d], [Cond.nz one]) := by krfl

set_option maxRecDepth 100000 in
/-- The solution for the right hand side (1, 0). -/
theorem solution_mtx2 : entries 2 (do
    let r ← luRun (eng (Cfg.std 1000) 60) 2 mtx2 rhs (fun _ => zero)
    pure r.2) = .ok ([pow d mOne, prod [mOne, a, pow d mOne]], [.nz one, .nz d, .within [] (.nz one), .within [] (.nz one), .within [] (.nz one), .nz one,
      .within [] (.nz one), .within [] (.nz one), .within [] (.nz one), .within [] (.nz one), .within [] (.nz one), .within [] (.nz one), .within [] (.nz one)]) := by krfl

/-- The hypotheses of `C65_factorize_expressions` and `C65_compute_expressions` are met where all symbols have the value 3. -/
theorem C65_example : ∃ F F' x' cs ds, LinE.luFactorize (eng (Cfg.std 1000) 60) 2 mtx2 = .ok (F, cs) ∧
    LinE.luComputeSolution (eng (Cfg.std 1000) 60) 2 F rhs (fun _ => zero) = .ok ((F', x'), ds) ∧ x' 0 = pow d mOne ∧
    (∀ c ∈ cs, c.holds (all 3)) ∧ ∀ c ∈ ds, c.holds (all 3) := by
  have h := solution_mtx2
  unfold entries luRun at h
  obtain ⟨x', c1, c2, h1, h2, h3⟩ := M.bind_ok.1 h
  obtain ⟨h4, rfl⟩ := LinE.pure_ok h2
  obtain ⟨⟨F', x''⟩, c3, c4, h5, h6, rfl⟩ := M.bind_ok.1 h1
  obtain ⟨rfl, rfl⟩ := LinE.pure_ok h6
  obtain ⟨F, c5, c6, h7, h8, rfl⟩ := M.bind_ok.1 h5
  rw [List.append_nil, List.append_nil] at h3
  have h1 : (Cond.nz (one : Expr Hyb)).holds (all 3) := ⟨1, by simp, one_ne_zero⟩
  have hd : (Cond.nz d).holds (all 3) := by
    refine ⟨1 - 9, ?_, by norm_num⟩
    simp only [d, den_sum, denSum, den_prod, denProd, den_int, den_mOne, den_a, den_b, all, Option.bind_some, Option.some.injEq]
    norm_num
  have hall : ∀ c ∈ c5 ++ c6, c.holds (all 3) := by
    rw [← h3]
    intro c hc
    simp only [List.mem_cons, List.not_mem_nil, or_false] at hc
    rcases hc with rfl | rfl | rfl | rfl | rfl | rfl | rfl | rfl | rfl | rfl | rfl | rfl | rfl <;> first | exact h1 | exact hd
  exact ⟨F, F', _, c5, c6, h7, h8, (List.cons.inj h4).1.symm, fun c hc => hall c (by simp [hc]), fun c hc => hall c (by simp [hc])⟩

end SolveEx

end Tsym
