import Verif.SolveNum
import Verif.Props.SolveEng
import Verif.Props.Linear

/-!
# Linear systems with rational entries: C63

With rational entries, and a limit for primes below 324, the solver with the operators of the library always
ends, with the exact solution, determinant or inverse over the rational numbers, or, for singular
matrices, as C26 says.
-/

set_option autoImplicit false
set_option linter.unusedSectionVars false

namespace Tsym

open Expr Lin

variable {D : Type} [Flt D]

/-- The computation has the result, or the exception. -/
def HasOutcome {α : Type} (m : M D α) : Except Err α → Prop
  | .ok a => ∃ cs, m = .ok (a, cs)
  | .error e => m = .error e

/-- With all depths of calls from some depth on the call has the result, or the exception; with
smaller depths it does nothing else but stop at the bound. -/
def Ends {α : Type} (cfg : Cfg D) (f : Eng D → M D α) (o : Except Err α) : Prop :=
  (∃ N, ∀ n, N ≤ n → HasOutcome (f (eng cfg n)) o) ∧ ∀ n, f (eng cfg n) = .error .fuel ∨ HasOutcome (f (eng cfg n)) o

theorem LinE.Out.has {α : Type} {m : M D α} {o : Except Err α} (h : LinE.res m = o) : HasOutcome m o := by
  subst h
  rcases m with e | ⟨a, cs⟩
  · rfl
  · exact ⟨cs, rfl⟩

theorem LinE.Out.ends {α : Type} {cfg : Cfg D} {f : Eng D → M D α} {o : Except Err α} (hm : Lean.Order.monotone f) (h : LinE.Out cfg f o) :
    Ends cfg f o := by
  obtain ⟨N, h⟩ := h
  refine ⟨⟨N, fun n hn => LinE.Out.has (h n hn)⟩, fun n => ?_⟩
  rcases hm _ _ (eng_le cfg (Nat.le_max_left n N)) with h1 | h1
  · exact .inl h1
  · right; rw [h1]; exact LinE.Out.has (h _ (Nat.le_max_right n N))

section

variable [LawfulFlt D] (cfg : Cfg D) (hc : cfg.Ok) (hp : cfg.maxPrime < 324) (skip : ℕ → Bool) (dim : ℕ) (algo : Algo)
  (A : ℕ → ℕ → Expr D) (α : ℕ → ℕ → ℚ) (hA : ∀ i k, Kept skip dim i → Kept skip dim k → A i k = .num (.rat (α i k)))
include hc hp hA

omit hc hp in
theorem toStdVec2_rep : toStdVec2 A skip dim dim = (toStdVec2 (fun i k => some (α i k)) skip dim dim).map LinE.rep := by
  rw [toStdVec2_eq, toStdVec2_eq, List.map_flatMap]
  refine List.flatMap_congr fun i hi => ?_
  rw [List.map_map]
  exact List.map_congr_left fun k hk => hA i k (mem_keep.1 hi) (mem_keep.1 hk)

/-- C63 for `solve`. -/
theorem C63_solve (b x : ℕ → Expr D) (β : ℕ → ℚ) (hb : ∀ i, Kept skip dim i → b i = .num (.rat (β i))) :
    ((subMatrix skip dim α).det ≠ 0 → ∃ x' z, Ends cfg (fun E => LinE.solve E A b x skip dim algo) (.ok x') ∧
      (∀ i, Kept skip dim i → x' i = .num (.rat (z i))) ∧ SolvesKept skip dim α β z ∧
      (∀ z', SolvesKept skip dim α β z' → ∀ i, Kept skip dim i → z' i = z i) ∧ ∀ i, ¬ Kept skip dim i → x' i = x i) ∧
    ((subMatrix skip dim α).det = 0 → Ends cfg (fun E => LinE.solve E A b x skip dim algo) (.error .invalidArgument)) := by
  have hm : Lean.Order.monotone (fun E => LinE.solve E A b x skip dim algo) := LinE.solve_mono _ _ _ _ _ _ id Lean.Order.monotone_id
  have h2 := toStdVec2_rep skip dim A α hA
  have h1 : toStdVec1 b skip dim = (toStdVec1 (fun i => some (β i)) skip dim).map LinE.rep := by
    rw [toStdVec1_eq, toStdVec1_eq, List.map_map]
    exact List.map_congr_left fun k hk => hb k (mem_keep.1 hk)
  have ho := LinE.detailSolve_rep (D := D) (cfg := cfg) hc hp (toStdVec2 (fun i k => some (α i k)) skip dim dim)
    (toStdVec1 (fun i => some (β i)) skip dim) (keep skip dim).length algo
  obtain ⟨g1, g2⟩ := C23_solve (LinE.comp D) LinE.comp_lt algo dim skip α β (fun i k => some (α i k)) (fun i => some (β i)) (fun _ => some 0)
    (fun _ _ _ _ => rfl) (fun _ _ => rfl)
  constructor
  · intro hd
    obtain ⟨x0, z, e1, e2, e3, e4, -⟩ := g1 hd
    unfold Lin.solve at e1
    simp only [Except.bind_ok, Except.pure_ok, length_toStdVec1] at e1
    obtain ⟨r, hr, ⟨d, rest⟩, hd', rfl⟩ := e1
    rw [hr] at ho
    unfold Lin.detailSolve at hr
    simp only [Except.bind_ok, Except.pure_ok] at hr
    obtain ⟨s, hs, y, hy, rfl⟩ := hr
    obtain ⟨d0, rest0, k1, k2, k3⟩ := fromStdVec1_ok ((List.range (keep skip dim).length).map y) (fun _ => some 0) skip dim (by simp)
    rw [k1] at hd'
    cases hd'
    obtain ⟨d', rest', l1, l2, l3⟩ := fromStdVec1_ok ((List.range (keep skip dim).length).map fun i => (LinE.rep (y i) : Expr D)) x skip dim (by simp)
    have l1' : fromStdVec1 (((List.range (keep skip dim).length).map y).map (LinE.rep : Option ℚ → Expr D)) x skip dim = .ok (d', rest') := by
      rw [List.map_map]; exact l1
    refine ⟨d', z, LinE.Out.ends hm ?_, ?_, e3, e4, l3⟩
    · unfold LinE.solve
      simp only [h1, h2]
      rw [List.length_map, length_toStdVec1]
      exact LinE.out_bind_ok ho (LinE.out_bind_ok ((LinE.out_lift _).congr l1') (LinE.out_pure _))
    · rintro i ⟨hi, hi'⟩
      obtain ⟨k, hk, rfl⟩ := kp_surj hi hi'
      have := e2 _ (kp_mem hk)
      dsimp only at this
      rw [map_keep_eq k2 hk] at this
      rw [map_keep_eq l2 hk, this]
      rfl
  · intro hd
    have he := g2 hd
    unfold Lin.solve at he
    simp only [length_toStdVec1] at he
    have : Lin.detailSolve (LinE.sc D) (toStdVec2 (fun i k => some (α i k)) skip dim dim) (toStdVec1 (fun i => some (β i)) skip dim)
        (keep skip dim).length algo = .error .invalidArgument := by
      rcases hr : Lin.detailSolve (LinE.sc D) (toStdVec2 (fun i k => some (α i k)) skip dim dim) (toStdVec1 (fun i => some (β i)) skip dim)
        (keep skip dim).length algo with e | r
      · rw [hr] at he
        change Except.error e = _ at he
        cases he; rfl
      · exfalso
        rw [hr] at he
        unfold Lin.detailSolve at hr
        simp only [Except.bind_ok, Except.pure_ok] at hr
        obtain ⟨s, hs, y, hy, rfl⟩ := hr
        obtain ⟨d0, rest0, k1, -⟩ := fromStdVec1_ok ((List.range (keep skip dim).length).map y) (fun _ => some 0) skip dim (by simp)
        simp only [bind, Except.bind, k1] at he
        cases he
    rw [this] at ho
    refine LinE.Out.ends hm ?_
    unfold LinE.solve
    simp only [h1, h2]
    rw [List.length_map, length_toStdVec1]
    exact LinE.out_bind (o' := fun _ => .error .invalidArgument) ho (fun a ha => by cases ha)

/-- C63 for `determinant`: for a singular matrix there is an exception (first pivot rule only), Undefined (second rule
only) or zero, as in C26. -/
theorem C63_determinant :
    ((subMatrix skip dim α).det ≠ 0 →
      Ends cfg (fun E => LinE.determinant E A skip dim algo) (.ok (.num (.rat (subMatrix skip dim α).det)))) ∧
    ((subMatrix skip dim α).det = 0 →
      (algo = .gauss ∧ Ends cfg (fun E => LinE.determinant E A skip dim algo) (.error .invalidArgument)) ∨
      (algo = .gaussLCPivot ∧ Ends cfg (fun E => LinE.determinant E A skip dim algo) (.ok .undef)) ∨
      Ends cfg (fun E => LinE.determinant E A skip dim algo) (.ok (.num (.rat 0)))) := by
  have hm : Lean.Order.monotone (fun E => LinE.determinant E A skip dim algo) := LinE.determinant_mono _ _ _ _ id Lean.Order.monotone_id
  have ho := LinE.detailDeterminant_rep (D := D) (cfg := cfg) hc hp (toStdVec2 (fun i k => some (α i k)) skip dim dim) (countFalse skip dim) algo
  rw [← toStdVec2_rep skip dim A α hA] at ho
  have ho' : LinE.Out cfg (fun E => LinE.determinant E A skip dim algo) ((Lin.determinant (LinE.sc D) (fun i k => some (α i k)) skip dim algo).map LinE.rep) := ho
  constructor
  · intro hd
    rw [(C24_determinant (LinE.comp D) LinE.comp_lt algo dim skip α (fun i k => some (α i k)) (fun _ _ _ _ => rfl)).2 hd] at ho'
    exact LinE.Out.ends hm ho'
  · intro hd
    rcases C26_determinant_partial (LinE.comp D) LinE.comp_lt algo dim skip α (fun i k => some (α i k)) (fun _ _ _ _ => rfl) hd with ⟨h1, h2⟩ | ⟨h1, h2⟩ | h2
    · rw [h2] at ho'; exact .inl ⟨h1, LinE.Out.ends hm ho'⟩
    · rw [h2] at ho'; exact .inr (.inl ⟨h1, LinE.Out.ends hm ho'⟩)
    · rw [h2] at ho'; exact .inr (.inr (LinE.Out.ends hm ho'))

/-- C63 for `invert`. -/
theorem C63_invert :
    ((subMatrix skip dim α).det ≠ 0 → ∃ A' Z, Ends cfg (fun E => LinE.invert E A skip dim algo) (.ok A') ∧
      (∀ i k, Kept skip dim i → Kept skip dim k → A' i k = .num (.rat (Z i k))) ∧ subMatrix skip dim Z = (subMatrix skip dim α)⁻¹ ∧
      ∀ i k, ¬ (Kept skip dim i ∧ Kept skip dim k) → A' i k = A i k) ∧
    ((subMatrix skip dim α).det = 0 → Ends cfg (fun E => LinE.invert E A skip dim algo) (.error .invalidArgument)) := by
  have hm : Lean.Order.monotone (fun E => LinE.invert E A skip dim algo) := LinE.invert_mono _ _ _ _ id Lean.Order.monotone_id
  have ho := LinE.detailInvert_rep (D := D) (cfg := cfg) hc hp (toStdVec2 (fun i k => some (α i k)) skip dim dim) (countFalse skip dim) algo
  rw [← toStdVec2_rep skip dim A α hA] at ho
  obtain ⟨g1, g2⟩ := C25_invert (LinE.comp D) LinE.comp_lt algo dim skip α (fun i k => some (α i k)) (fun _ _ _ _ => rfl)
  constructor
  · intro hd
    obtain ⟨x0, z, e1, e2, e3, -⟩ := g1 hd
    unfold Lin.invert at e1
    simp only [Except.bind_ok, Except.pure_ok] at e1
    obtain ⟨r, hr, ⟨d, rest⟩, hd', rfl⟩ := e1
    rw [hr] at ho
    unfold Lin.detailInvert at hr
    simp only [Except.bind_ok, Except.pure_ok, countFalse_eq] at hr
    obtain ⟨y, hy, rfl⟩ := hr
    obtain ⟨d0, rest0, k1, k2, k3⟩ := fromStdVec2_ok ((List.range (keep skip dim).length).flatMap
      (fun i => (List.range (keep skip dim).length).map (y i))) (fun i k => some (α i k)) skip dim (by simp)
    rw [k1] at hd'
    cases hd'
    obtain ⟨d', rest', l1, l2, l3⟩ := fromStdVec2_ok ((List.range (keep skip dim).length).flatMap
      (fun i => (List.range (keep skip dim).length).map fun k => (LinE.rep (y i k) : Expr D))) A skip dim (by simp)
    have l1' : fromStdVec2 (((List.range (keep skip dim).length).flatMap
      (fun i => (List.range (keep skip dim).length).map (y i))).map (LinE.rep : Option ℚ → Expr D)) A skip dim dim = .ok (d', rest') := by
      rw [List.map_flatMap]; simp only [List.map_map]; exact l1
    refine ⟨d', z, LinE.Out.ends hm ?_, ?_, e3, l3⟩
    · unfold LinE.invert
      exact LinE.out_bind_ok ho (LinE.out_bind_ok ((LinE.out_lift _).congr l1') (LinE.out_pure _))
    · rintro i k ⟨hi, hi'⟩ ⟨hk, hk'⟩
      obtain ⟨a, ha, rfl⟩ := kp_surj hi hi'
      obtain ⟨c, hc', rfl⟩ := kp_surj hk hk'
      have := e2 _ _ (kp_mem ha) (kp_mem hc')
      dsimp only at this
      rw [flatMap_keep_eq k2 ha hc'] at this
      rw [flatMap_keep_eq l2 ha hc', this]
      rfl
  · intro hd
    have he := g2 hd
    unfold Lin.invert at he
    have : Lin.detailInvert (LinE.sc D) (toStdVec2 (fun i k => some (α i k)) skip dim dim) (countFalse skip dim) algo = .error .invalidArgument := by
      rcases hr : Lin.detailInvert (LinE.sc D) (toStdVec2 (fun i k => some (α i k)) skip dim dim) (countFalse skip dim) algo with e | r
      · rw [hr] at he
        change Except.error e = _ at he
        cases he; rfl
      · exfalso
        rw [hr] at he
        unfold Lin.detailInvert at hr
        simp only [Except.bind_ok, Except.pure_ok, countFalse_eq] at hr
        obtain ⟨y, hy, rfl⟩ := hr
        obtain ⟨d0, rest0, k1, -⟩ := fromStdVec2_ok ((List.range (keep skip dim).length).flatMap
          (fun i => (List.range (keep skip dim).length).map (y i))) (fun i k => some (α i k)) skip dim (by simp)
        simp only [bind, Except.bind, k1] at he
        cases he
    rw [this] at ho
    refine LinE.Out.ends hm ?_
    unfold LinE.invert
    exact LinE.out_bind (o' := fun _ => .error .invalidArgument) ho (fun a ha => by cases ha)

end

namespace SolveEx

open ExprEx SymEx ValueEx

/-- The matrix ((0, 2, *), (1/2, -3, *), (*, *, *)). -/
def q : ℕ → ℕ → ℚ := fun i k => if i = 0 ∧ k = 1 then 2 else if i = 1 ∧ k = 0 then 1 / 2 else if i = 1 ∧ k = 1 then -3 else 0

/-- As expressions, with the symbol a in all places that are skipped. -/
def qm : ℕ → ℕ → Expr Hyb := fun i k => if i < 2 ∧ k < 2 then .num (.rat (q i k)) else a

/-- Skip the last row and column of three. -/
def skipLast : ℕ → Bool := fun i => decide (i = 2)

theorem qm_eq (i k : ℕ) (hi : Kept skipLast 3 i) (hk : Kept skipLast 3 k) : qm i k = .num (.rat (q i k)) := by
  obtain ⟨h1, h2⟩ := hi
  obtain ⟨h3, h4⟩ := hk
  simp only [skipLast, decide_eq_false_iff_not] at h2 h4
  unfold qm
  rw [if_pos (by omega)]

theorem det_q : (subMatrix skipLast 3 q).det = -1 := by
  rw [← det_keep]
  have h : keep skipLast 3 = [0, 1] := by decide +kernel
  have h0 : kp skipLast 3 0 = 0 := by simp [kp, h]
  have h1 : kp skipLast 3 1 = 1 := by simp [kp, h]
  have h2 : (keep skipLast 3).length = 2 := by rw [h]; rfl
  rw [h2]
  show Matrix.det (n := Fin 2) _ = _
  rw [Matrix.det_fin_two]
  simp [q, h0, h1]

/-- C63 on an example: the system with the right hand side (1, 1), third row and column left out. -/
example : ∃ x' z, Ends (Cfg.std 300) (fun E => LinE.solve E qm (fun _ => one) (fun _ => b) skipLast 3 .gaussLCPivot) (.ok x') ∧
    (∀ i, Kept skipLast 3 i → x' i = .num (.rat (z i))) ∧ SolvesKept skipLast 3 q (fun _ => 1) z ∧
    (∀ z', SolvesKept skipLast 3 q (fun _ => 1) z' → ∀ i, Kept skipLast 3 i → z' i = z i) ∧ ∀ i, ¬ Kept skipLast 3 i → x' i = b :=
  (C63_solve (Cfg.std 300) (Cfg.std_ok 300) (by decide) skipLast 3 .gaussLCPivot qm q qm_eq (fun _ => one) (fun _ => b) (fun _ => 1)
    (fun _ _ => one_eq)).1 (by rw [det_q]; norm_num)

/-- Its solution is (5, 1/2). -/
example : ∃ cs, entries 3 (LinE.solve (eng (Cfg.std 300) 60) qm (fun _ => one) (fun _ => b) skipLast 3 .gaussLCPivot) =
    .ok ([int 5, .num (.rat (1 / 2)), b], cs) := M.val_some (by krfl)

/-- A singular matrix, for which there is an exception. -/
example : Ends (Cfg.std 300) (fun E => LinE.solve E (fun _ _ => (one : Expr Hyb)) (fun _ => one) (fun _ => zero) defaultSkip 5 .gauss) (.error .invalidArgument) :=
  (C63_solve (Cfg.std 300) (Cfg.std_ok 300) (by decide) defaultSkip 5 .gauss (fun _ _ => one) (fun _ _ => 1) (fun _ _ _ _ => one_eq)
    (fun _ => one) (fun _ => zero) (fun _ => 1) (fun _ _ => one_eq)).2 (by
      refine Matrix.det_zero_of_row_eq (i := ⟨0, by decide⟩) (j := ⟨1, by decide⟩) (by simp) ?_
      rfl)

/-- C63 needs the limit for primes: with the default the solution of 324*x = 324 is given as 9. -/
theorem C63_false_default : ∃ cs, entries 1 (LinE.solve (eng (Cfg.std 1000) 60) (fun _ _ => int 324) (fun _ => int 324) (fun _ => zero)
    defaultSkip 1 .gaussLCPivot) = .ok ([int 9], cs) := M.val_some (by krfl)

end SolveEx

end Tsym
