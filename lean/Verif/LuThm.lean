import Verif.LuDecomp
import Verif.SolveNum
import Mathlib.LinearAlgebra.Matrix.ToLinearEquiv

/-!
# Helper lemmas: LU decomposition

The factorisation is the elimination without pivots; the minors are products of its pivots.
-/

set_option autoImplicit false
set_option linter.unusedSectionVars false
set_option linter.unusedSimpArgs false
set_option linter.unusedVariables false

namespace Tsym

namespace Lin

open Finset

section generic

variable {V : Type} (S : Scalar V)

/-- Without simplification. -/
def raw : Scalar V := { S with simplify := id }

theorem luRow_eq (dim j i : ℕ) (M : ℕ → ℕ → V) : luRow S dim j i M = elimRow (raw S) dim j i M := rfl

theorem luCol_eq {dim j : ℕ} (M : ℕ → ℕ → V) : loop (j + 1) dim (luRow S dim j) M = loop (j + 1) dim (elimRow (raw S) dim j) M := rfl

theorem luCol_frozen {dim j : ℕ} (hj : j < dim) (M : ℕ → ℕ → V) (a b : ℕ) (ha : a ≤ j) :
    loop (j + 1) dim (luRow S dim j) M a b = M a b := by
  rw [luCol_eq, elimRows_eq _ hj, if_neg (by omega), if_neg (by omega)]

/-- The matrix with simplified entries on the diagonal from `n` on. -/
def diag (n dim : ℕ) (M : ℕ → ℕ → V) : ℕ → ℕ → V := fun i k => if i = k ∧ n ≤ i ∧ i < dim then S.simplify (M i i) else M i k

theorem luBackStep_eq {dim i : ℕ} (hi : i < dim) (M : ℕ → ℕ → V) (b x : ℕ → V) :
    luBackStep S dim b i (diag S (i + 1) dim M, x) = (backStep S dim M b i x).map (fun x => (diag S i dim M, x)) := by
  unfold luBackStep backStep
  have h1 : ∀ j, j ∈ List.range' (i + 1) (dim - (i + 1)) → diag S (i + 1) dim M i j = M i j := by
    intro j hj
    unfold diag
    rw [if_neg (by omega)]
  have h2 : loop (i + 1) dim (fun j x => set1 x i (S.sub (x i) (S.mul (diag S (i + 1) dim M i j) (x j)))) x =
      loop (i + 1) dim (fun j x => set1 x i (S.sub (x i) (S.mul (M i j) (x j)))) x := by
    unfold loop
    generalize List.range' (i + 1) (dim - (i + 1)) = l at h1
    induction l generalizing x with
    | nil => rfl
    | cons j l ih =>
      have e := h1 j (by simp)
      rw [List.foldl_cons, List.foldl_cons]
      beta_reduce
      rw [e]
      exact ih _ fun k hk => h1 k (by simp [hk])
  have h3 : diag S (i + 1) dim M i i = M i i := by
    unfold diag
    rw [if_neg (by omega)]
  have h4 : set (diag S (i + 1) dim M) i i (S.simplify (M i i)) = diag S i dim M := by
    funext a c
    unfold set diag
    by_cases h : a = i ∧ c = i
    · rw [if_pos h, if_pos (by omega), h.1]
    · rw [if_neg h]
      have : (a = c ∧ i + 1 ≤ a ∧ a < dim) ↔ (a = c ∧ i ≤ a ∧ a < dim) := by omega
      simp only [this]
  simp only [h2, h3, h4]
  have h5 : diag S i dim M i i = S.simplify (M i i) := by
    unfold diag
    rw [if_pos (by omega)]
  rw [h5]
  cases S.isZero (S.simplify (M i i)) <;> rfl

theorem luBack_eq {dim : ℕ} (M : ℕ → ℕ → V) (b : ℕ → V) : ∀ n x, n ≤ dim →
    loopDownM (luBackStep S dim b) n (diag S n dim M, x) = (loopDownM (backStep S dim M b) n x).map (fun x => (diag S 0 dim M, x)) := by
  intro n
  induction n with
  | zero => intro x _; rfl
  | succ n ih =>
    intro x hn
    simp only [loopDownM, luBackStep_eq S (show n < dim by omega)]
    cases h : backStep S dim M b n x with
    | error e => rfl
    | ok r => exact ih r (by omega)

/-- The solution is that of `computeSolution`; the diagonal of the matrix is simplified. -/
theorem luComputeSolution_eq {dim : ℕ} (M : ℕ → ℕ → V) (b x : ℕ → V) :
    luComputeSolution S dim M b x = (computeSolution S dim M b x).map (fun x => (diag S 0 dim M, x)) := by
  unfold luComputeSolution computeSolution
  have : M = diag S dim dim M := by
    funext a c; unfold diag; rw [if_neg (by omega)]
  conv_lhs => rw [this]
  rw [← luBack_eq S M _ dim _ le_rfl, ← this]

end generic

section values

variable {V K : Type} [Field K] (S : Scalar V) (R : V → K → Prop)

theorem raw_sound (hS : Sound S R) : Sound (raw S) R where
  zero := hS.zero
  one := hS.one
  minusOne := hS.minusOne
  add := hS.add
  sub := hS.sub
  mul := hS.mul
  div := hS.div
  simplify h := h

/-- The minors are the products of the pivots. -/
theorem Inv.minor {dim j n : ℕ} {A m : ℕ → ℕ → K} {b : ℕ → K} {M : ℕ → ℕ → V} {bb : ℕ → V} (h : Inv R dim A b j ⟨M, bb, 0⟩ A m b)
    (hn : n ≤ dim) (hj : n ≤ j + 1) : Lin.det n A = ∏ i ∈ range n, m i i := by
  have h' : Inv R n A b (n - 1) ⟨M, bb, 0⟩ A m b := by
    refine ⟨fun i k hi hk => h.valM i k (by omega) (by omega), fun i hi => h.valb i (by omega), fun i k hi hk => ?_, by simp,
      fun _ h => h, fun i hi => h.piv i (by omega)⟩
    rw [h.lu i k (by omega) (by omega)]
    have e1 : min i (n - 1) = min i j := by omega
    have e2 : ∀ c ≤ i, up m (n - 1) c k = up m j c k := by
      intro c hc
      unfold up
      have : min c (n - 1) = min c j := by omega
      rw [this]
    rw [e1, e2 i le_rfl]
    congr 1
    refine sum_congr rfl fun c hc => ?_
    rw [e2 c (by have := mem_range.1 hc; omega)]
  have := h'.det_final R (by omega)
  simpa using this

end values

section exact

variable {K : Type} [Field K] [DecidableEq K] (comp : Option K → ℕ)

/-- All leading minors are nonzero and the pivots are there, or some entry of the diagonal is zero. -/
theorem luFactorize_exact (dim : ℕ) (A : ℕ → ℕ → K) (b : ℕ → K) (M : ℕ → ℕ → Option K) (bb : ℕ → Option K)
    (hM : ∀ i k, i < dim → k < dim → M i k = some (A i k)) (hb : ∀ i, i < dim → bb i = some (b i)) :
    (∃ m, Inv IsVal dim A b (dim - 1) ⟨luFactorize (exactScalar comp) dim M, bb, 0⟩ A m b) ∨
    (∃ j, j + 1 < dim ∧ luFactorize (exactScalar comp) dim M j j = some 0 ∧ det (j + 1) A = 0) := by
  unfold luFactorize
  refine loop_inv (lo := 0) (hi := dim - 1) (by omega) (fun j M => (∃ m, Inv IsVal dim A b j ⟨M, bb, 0⟩ A m b) ∨
    (∃ i, i < j ∧ i + 1 < dim ∧ M i i = some 0 ∧ det (i + 1) A = 0)) (.inl ⟨A, Inv.init IsVal hM hb⟩) ?_ |>.imp id ?_
  · rintro j - hj M (⟨m, h⟩ | ⟨i, h1, h2, h3, h4⟩)
    · by_cases hz : m j j = 0
      · right
        refine ⟨j, by omega, by omega, ?_, ?_⟩
        · rw [luCol_frozen _ (by omega) _ _ _ le_rfl]
          have := h.valM j j (by omega) (by omega)
          rw [hz] at this
          exact this
        · rw [h.minor IsVal (by omega) le_rfl]
          exact prod_eq_zero (mem_range.2 (Nat.lt_succ_self j)) hz
      · left
        exact h.elim (raw (exactScalar comp)) IsVal (raw_sound _ _ (exact_sound comp)) (by omega) hz
    · right
      refine ⟨i, by omega, h2, ?_, h4⟩
      rw [luCol_frozen _ (by omega) _ _ _ (by omega)]
      exact h3
  · rintro ⟨i, h1, h2, h3, h4⟩
    exact ⟨i, h2, h3, h4⟩

/-- The solution after the factorisation. -/
theorem luSolve_exact (dim : ℕ) (A : ℕ → ℕ → K) (b : ℕ → K) (M : ℕ → ℕ → Option K) (bb x : ℕ → Option K)
    (hM : ∀ i k, i < dim → k < dim → M i k = some (A i k)) (hb : ∀ i, i < dim → bb i = some (b i)) :
    ((∀ n, 1 ≤ n → n ≤ dim → det n A ≠ 0) ∧ ∃ r z, luComputeSolution (exactScalar comp) dim (luFactorize (exactScalar comp) dim M) bb x =
        .ok (luFactorize (exactScalar comp) dim M, r) ∧ (∀ i, i < dim → r i = some (z i)) ∧ Solves dim A b z) ∨
    ((∃ n, 1 ≤ n ∧ n ≤ dim ∧ det n A = 0) ∧
      luComputeSolution (exactScalar comp) dim (luFactorize (exactScalar comp) dim M) bb x = .error .invalidArgument) := by
  have hd : ∀ N : ℕ → ℕ → Option K, diag (exactScalar comp) 0 dim N = N := by
    intro N; funext i k; unfold diag
    split
    · rename_i h; obtain ⟨rfl, -⟩ := h; rfl
    · rfl
  rw [luComputeSolution_eq, hd]
  have hbc := back_cases comp (dim := dim) (M := luFactorize (exactScalar comp) dim M)
    (b := forward (exactScalar comp) dim (luFactorize (exactScalar comp) dim M) bb) dim
    (loop 0 dim (fun i x => set1 x i (exactScalar comp).zero) x)
  rcases luFactorize_exact comp dim A b M bb hM hb with ⟨m, h⟩ | ⟨j, h1, h2, h3⟩
  · rcases hbc with ⟨h1, q, h2⟩ | ⟨⟨i, hi, h1⟩, h2⟩
    · left
      have hne : ∀ i, i < dim → m i i ≠ 0 := by
        intro i hi e
        have := h.valM i i hi hi
        rw [e] at this
        exact h1 i hi this
      constructor
      · intro n _ hn
        rw [h.minor IsVal hn (by omega)]
        exact prod_ne_zero_iff.2 fun i hi => hne i (by have := mem_range.1 hi; omega)
      · obtain ⟨z, hz1, hz2⟩ := h.computeSolution (exactScalar comp) IsVal (exact_sound comp) (by omega) hne h2
        refine ⟨q, z, ?_, hz1, hz2⟩
        unfold computeSolution
        rw [h2]; rfl
    · right
      refine ⟨⟨i + 1, by omega, by omega, ?_⟩, ?_⟩
      · rw [h.minor IsVal (by omega) (by omega)]
        refine prod_eq_zero (mem_range.2 (Nat.lt_succ_self i)) ?_
        have := h.valM i i hi hi
        change luFactorize (exactScalar comp) dim M i i = some (m i i) at this
        rw [h1] at this
        exact (Option.some.inj this).symm
      · unfold computeSolution
        rw [h2]; rfl
  · right
    refine ⟨⟨j + 1, by omega, by omega, h3⟩, ?_⟩
    rcases hbc with ⟨k1, -⟩ | ⟨-, k2⟩
    · exact absurd h2 (k1 j (by omega))
    · unfold computeSolution
      rw [k2]; rfl

end exact

end Lin

namespace LinE

open Expr

variable {D : Type} [Flt D] {cfg : Cfg D}

section

open Lean.Order

monotone_def luRow (a0 a1 a2 a3) : fun E : Eng D => luRow E a0 a1 a2 a3
monotone_def luFactorize (a0 a1) : fun E : Eng D => luFactorize E a0 a1 := by unfold luFactorize; repeat' mono_step
monotone_def luBackStep (a0 a1 a2 a3) : fun E : Eng D => luBackStep E a0 a1 a2 a3
monotone_def luComputeSolution (a0 a1 a2 a3) : fun E : Eng D => luComputeSolution E a0 a1 a2 a3 := by unfold luComputeSolution; repeat' mono_step

end

/-! ## Rational numbers -/

section

variable [LawfulFlt D] (hc : cfg.Ok) (hp : cfg.maxPrime < 324)
include hc hp

theorem luRow_rep (dim j i : ℕ) (A : ℕ → ℕ → Option ℚ) :
    Out cfg (fun E => luRow E dim j i (repM A)) (.ok (repM (Lin.luRow (sc D) dim j i A))) := by
  unfold luRow
  refine out_bind_ok (.of_tot (tot_div hc (A i j) (A j j) hp)) (out_bind_ok (out_log _) ?_)
  rw [set_rep]
  unfold Lin.luRow
  refine out_loop (D := D) repM (j + 1) dim (fun k A => ?_) _
  refine out_bind_ok (.of_tot (tot_mul hc (A i j) (A j k))) (out_bind_ok (.of_tot (tot_sub hc (A i k) _)) ?_)
  rw [set_rep]
  exact out_pure _

theorem luFactorize_rep (dim : ℕ) (A : ℕ → ℕ → Option ℚ) :
    Out cfg (fun E => luFactorize E dim (repM A)) (.ok (repM (Lin.luFactorize (sc D) dim A))) :=
  out_loop (D := D) repM 0 (dim - 1) (fun j A => out_loop (D := D) repM (j + 1) dim (fun i A => luRow_rep hc hp dim j i A) A) A

/-- Matrix and vector. -/
def repP (s : (ℕ → ℕ → Option ℚ) × (ℕ → Option ℚ)) : (ℕ → ℕ → Expr D) × (ℕ → Expr D) := (repM s.1, repV s.2)

theorem luBackStep_rep (dim : ℕ) (b : ℕ → Option ℚ) (i : ℕ) (s : (ℕ → ℕ → Option ℚ) × (ℕ → Option ℚ)) :
    Out cfg (fun E => luBackStep E dim (repV b) i (repP s)) ((Lin.luBackStep (sc D) dim b i s).map repP) := by
  obtain ⟨A, x⟩ := s
  unfold luBackStep Lin.luBackStep
  refine out_bind_ok (out_loop (D := D) repV (i + 1) dim (fun j b => subMul_rep hc hp A i j b) x) ?_
  refine out_bind_ok (.of_tot (tot_simplify hc (A i i) hp)) ?_
  simp only [isZero_rep]
  have hs : (sc D).simplify (A i i) = A i i := rfl
  have hs' : Lin.set A i i (A i i) = A := by funext a c; unfold Lin.set; split <;> simp_all
  rw [hs, hs']
  cases hz : (sc D).isZero (A i i) with
  | true => exact ⟨0, fun _ _ => rfl⟩
  | false =>
    refine out_bind_ok (.of_tot (tot_add hc (b i) _)) (out_bind_ok (.of_tot (tot_div hc _ (A i i) hp)) (out_bind_ok (out_log _)
      (out_bind_ok (.of_tot (tot_simplify hc _ hp)) ?_)))
    rw [set1_rep, repP, set_rep, hs']
    exact out_pure _

theorem luComputeSolution_rep (dim : ℕ) (A : ℕ → ℕ → Option ℚ) (b x : ℕ → Option ℚ) :
    Out cfg (fun E => luComputeSolution E dim (repM A) (repV b) (repV x)) ((Lin.luComputeSolution (sc D) dim A b x).map repP) := by
  unfold luComputeSolution Lin.luComputeSolution
  refine out_bind_ok (forward_rep hc hp dim A b) ?_
  have : Lin.loop 0 dim (fun i x => Lin.set1 x i zero) (repV x : ℕ → Expr D) = repV (Lin.loop 0 dim (fun i x => Lin.set1 x i (sc D).zero) x) :=
    lin_loop_map repV 0 dim (fun i t => by rw [zero_eq]; exact set1_rep t i (some 0)) x
  rw [this]
  exact out_loopDown (D := D) repP (fun i s => luBackStep_rep hc hp dim _ i s) dim (A, _)

end

/-! ## Expressions -/

section

variable {E : Eng D} {cs ds : List (Cond D)} {a b r : Expr D} {x y : M D (Expr D)}

theorem luRow_sim {dim j i : ℕ} {A A' : ℕ → ℕ → Expr D} {B : ℕ → ℕ → M D (Expr D)} (h : SimM cs A B)
    (hr : luRow E dim j i A = .ok (A', ds)) : SimM (cs ++ ds) A' (Lin.luRow (scal E) dim j i B) := by
  unfold luRow at hr
  obtain ⟨q, d1, e1, h1, hr1, rfl⟩ := M.bind_ok.1 hr
  obtain ⟨e2, hr2, rfl⟩ := log_bind hr1
  have g : Sim (cs ++ d1) q ((scal E).div (B i j) (B j j)) := (h i j).app₂ (h j j) h1
  have g' : SimM (cs ++ d1) (Lin.set A i j q) (Lin.set B i j ((scal E).div (B i j) (B j j))) :=
    (h.mono (by simp)).set g i j
  refine (loop_sim (fun cs A B => SimM cs A B) ?_ g' hr2).mono ?_
  · intro k A B cs A' ds hAB hk
    obtain ⟨p, u1, v1, k1, hk1, rfl⟩ := M.bind_ok.1 hk
    obtain ⟨d, u2, v2, k2, hk2, rfl⟩ := M.bind_ok.1 hk1
    obtain ⟨rfl, rfl⟩ := pure_ok hk2
    have q1 : Sim (cs ++ u1) p ((scal E).mul (B i j) (B j k)) := (hAB i j).app₂ (hAB j k) k1
    have q2 : Sim (cs ++ u1 ++ u2) d ((scal E).sub (B i k) ((scal E).mul (B i j) (B j k))) :=
      Sim.app₂ ((hAB i k).mono (by simp)) q1 k2
    refine (hAB.mono (by simp)).set (q2.mono (by simp)) i k
  · intro c hc
    simp only [List.mem_append, List.mem_cons] at hc ⊢
    tauto

theorem luRow_nz {dim j i : ℕ} {A A' : ℕ → ℕ → Expr D} (hr : luRow E dim j i A = .ok (A', ds)) :
    (∀ u v, u ≠ i → A' u v = A u v) ∧ .nz (A j j) ∈ ds := by
  unfold luRow at hr
  obtain ⟨q, d1, e1, h1, hr1, rfl⟩ := M.bind_ok.1 hr
  obtain ⟨e2, hr2, rfl⟩ := log_bind hr1
  refine ⟨?_, by simp⟩
  by_cases hle : j + 1 ≤ dim
  · have := loop_inv (fun _ _ A' => ∀ u v, u ≠ i → A' u v = A u v) (by
      intro k B cs B' ds _ hB hk u v hu
      obtain ⟨p, u1, v1, k1, hk1, rfl⟩ := M.bind_ok.1 hk
      obtain ⟨d, u2, v2, k2, hk2, rfl⟩ := M.bind_ok.1 hk1
      obtain ⟨rfl, rfl⟩ := pure_ok hk2
      simp only [Lin.set, hu, false_and, if_false]
      exact hB u v hu) (j + 1) _ [] A' e2 hle (by
        intro u v hu; simp only [Lin.set, hu, false_and, if_false]) hr2
    exact this
  · intro u v hu
    unfold loop at hr2
    rw [show dim - (j + 1) = 0 by omega] at hr2
    cases hr2
    simp only [Lin.set, hu, false_and, if_false]

theorem luFactorize_sim {dim : ℕ} {A A' : ℕ → ℕ → Expr D} {B : ℕ → ℕ → M D (Expr D)} (h : SimM cs A B)
    (hr : luFactorize E dim A = .ok (A', ds)) : SimM (cs ++ ds) A' (Lin.luFactorize (scal E) dim B) :=
  loop_sim (f := fun j A => loop (j + 1) dim (luRow E dim j) A) (g := fun j A => Lin.loop (j + 1) dim (Lin.luRow (scal E) dim j) A)
    (fun cs A B => SimM cs A B) (fun j A B cs A' ds h hr =>
      loop_sim (f := luRow E dim j) (g := Lin.luRow (scal E) dim j) (fun cs A B => SimM cs A B) (fun i A B cs A' ds h hr => luRow_sim h hr) h hr) h hr

theorem luFactorize_nz {dim : ℕ} {A A' : ℕ → ℕ → Expr D} (hr : luFactorize E dim A = .ok (A', ds)) :
    ∀ i, i + 1 < dim → .nz (A' i i) ∈ ds := by
  have key := loop_inv (f := fun j A => loop (j + 1) dim (luRow E dim j) A) (hi := dim - 1) (fun j cs A => ∀ i, i < j → .nz (A i i) ∈ cs) (by
    intro j A cs A' ds hj h hr i hi
    have k := loop_inv (f := luRow E dim j) (fun i cs A' => j + 1 ≤ i ∧ (∀ u, u ≤ j → A' u u = A u u) ∧
        (j + 1 < i → .nz (A j j) ∈ cs)) (by
      intro i B cs B' ds hi ⟨g0, g1, g2⟩ hr
      obtain ⟨k1, k2⟩ := luRow_nz hr
      refine ⟨by omega, fun u hu => ?_, fun _ => ?_⟩
      · rw [k1 u u (by omega), g1 u hu]
      · rw [g1 j le_rfl] at k2
        simp [k2]) (j + 1) A [] A' ds (by omega) ⟨le_rfl, fun _ _ => rfl, by omega⟩ hr
    obtain ⟨-, k1, k2⟩ := k
    rw [k1 i (by omega)]
    rcases Nat.lt_or_ge i j with hlt | hge
    · simp [h i hlt]
    · have : i = j := by omega
      subst this
      have := k2 (by omega)
      simp only [List.nil_append] at this
      simp [this]) 0 _ [] A' ds (by omega) (by omega) hr
  intro i hi
  simpa using key i (by omega)

/-- The matrix after the steps down to `n`: the entries on the diagonal are simplified. -/
def Diag (cs : List (Cond D)) (E : Eng D) (n dim : ℕ) (A A' : ℕ → ℕ → Expr D) : Prop :=
  ∀ i k, (i = k ∧ n ≤ i ∧ i < dim → ∃ ds, Api.simplify E (A i i) = .ok (A' i i, ds) ∧ ds ⊆ cs) ∧ (¬ (i = k ∧ n ≤ i ∧ i < dim) → A' i k = A i k)

theorem Diag.mono {n dim : ℕ} {A A' : ℕ → ℕ → Expr D} (h : Diag cs E n dim A A') (hs : cs ⊆ ds) : Diag ds E n dim A A' := by
  intro i k
  refine ⟨fun hi => ?_, (h i k).2⟩
  obtain ⟨es, h1, h2⟩ := (h i k).1 hi
  exact ⟨es, h1, List.Subset.trans h2 hs⟩

theorem loop_congr {α : Type} {f g : ℕ → α → M D α} {lo hi : ℕ} (h : ∀ i, lo ≤ i → f i = g i) (s : α) : loop lo hi f s = loop lo hi g s := by
  unfold loop
  generalize hi - lo = n
  induction n generalizing lo s with
  | zero => rfl
  | succ n ih =>
    simp only [loop.go, h lo le_rfl]
    congr 1
    funext t
    exact ih (fun i hi => h i (by omega)) t

theorem luBackStep_eq {dim i : ℕ} (hi : i < dim) {A A' A2 : ℕ → ℕ → Expr D} {b x x2 : ℕ → Expr D} (hd : Diag cs E (i + 1) dim A A')
    (h : luBackStep E dim b i (A', x) = .ok ((A2, x2), ds)) : backStep E dim A b i x = .ok (x2, ds) ∧ Diag (cs ++ ds) E i dim A A2 := by
  unfold luBackStep at h
  have h1 : loop (i + 1) dim (fun j x => subMul E A' i j x) x = loop (i + 1) dim (fun j x => subMul E A i j x) x := by
    refine loop_congr (fun j hj => ?_) x
    funext x
    unfold subMul
    rw [(hd i j).2 (by omega)]
  have h2 : A' i i = A i i := (hd i i).2 (by omega)
  simp only [h1, h2] at h
  obtain ⟨y, c1, c2, k1, k2, rfl⟩ := M.bind_ok.1 h
  obtain ⟨d, c3, c4, k3, k4, rfl⟩ := M.bind_ok.1 k2
  split at k4
  · cases k4
  rename_i hz
  obtain ⟨u, c5, c6, k5, k6, rfl⟩ := M.bind_ok.1 k4
  obtain ⟨q, c7, c8, k7, k8, rfl⟩ := M.bind_ok.1 k6
  obtain ⟨c9, k9, rfl⟩ := log_bind k8
  obtain ⟨r, c10, c11, k10, k11, rfl⟩ := M.bind_ok.1 k9
  obtain ⟨e1, rfl⟩ := pure_ok k11
  cases e1
  constructor
  · unfold backStep
    refine M.bind_ok.2 ⟨y, _, _, k1, M.bind_ok.2 ⟨d, _, _, k3, ?_, rfl⟩, rfl⟩
    rw [if_neg hz]
    exact M.bind_ok.2 ⟨u, _, _, k5, M.bind_ok.2 ⟨q, _, _, k7, M.bind_ok.2 ⟨(), _, _, rfl, M.bind_ok.2 ⟨r, _, _, k10, rfl, rfl⟩, rfl⟩, rfl⟩, rfl⟩
  · intro a c
    by_cases ha : a = i ∧ c = i
    · obtain ⟨rfl, rfl⟩ := ha
      refine ⟨fun _ => ⟨c3, ?_, by intro x hx; simp [hx]⟩, fun hn => absurd ⟨rfl, le_rfl, hi⟩ hn⟩
      rw [k3]
      simp [Lin.set]
      rfl
    · refine ⟨fun hac => ?_, fun hac => ?_⟩
      · obtain ⟨rfl, hac1, hac2⟩ := hac
        obtain ⟨es, g1, g2⟩ := (hd a a).1 ⟨rfl, by omega, hac2⟩
        refine ⟨es, ?_, List.Subset.trans g2 (by simp)⟩
        simp only [Lin.set, ha, if_false]
        exact g1
      · simp only [Lin.set, ha, if_false]
        exact (hd a c).2 (by omega)

theorem luBack_eq {dim : ℕ} {A : ℕ → ℕ → Expr D} {b : ℕ → Expr D} : ∀ n A' x A2 x2 cs ds, n ≤ dim → Diag cs E n dim A A' →
    loopDown (luBackStep E dim b) n (A', x) = .ok ((A2, x2), ds) → loopDown (backStep E dim A b) n x = .ok (x2, ds) ∧ Diag (cs ++ ds) E 0 dim A A2 := by
  intro n
  induction n with
  | zero =>
    intro A' x A2 x2 cs ds _ hd h
    cases h
    exact ⟨rfl, hd.mono (by simp)⟩
  | succ n ih =>
    intro A' x A2 x2 cs ds hn hd h
    obtain ⟨⟨A1, x1⟩, c1, c2, k1, k2, rfl⟩ := M.bind_ok.1 h
    obtain ⟨g1, g2⟩ := luBackStep_eq (by omega) hd k1
    obtain ⟨g3, g4⟩ := ih A1 x1 A2 x2 _ c2 (by omega) g2 k2
    exact ⟨M.bind_ok.2 ⟨x1, c1, c2, g1, g3, rfl⟩, by rw [← List.append_assoc]; exact g4⟩

theorem luComputeSolution_eq {dim : ℕ} {A A2 : ℕ → ℕ → Expr D} {b x x2 : ℕ → Expr D}
    (h : luComputeSolution E dim A b x = .ok ((A2, x2), ds)) : computeSolution E dim A b x = .ok (x2, ds) ∧ Diag ds E 0 dim A A2 := by
  unfold luComputeSolution at h
  obtain ⟨y, c1, c2, k1, k2, rfl⟩ := M.bind_ok.1 h
  obtain ⟨g1, g2⟩ := luBack_eq dim A _ A2 x2 [] c2 le_rfl (fun i k => ⟨fun h => by omega, fun _ => rfl⟩) k2
  exact ⟨M.bind_ok.2 ⟨y, c1, c2, k1, g1, rfl⟩, g2.mono (by simp)⟩

end

end LinE

end Tsym
