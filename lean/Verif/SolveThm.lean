import Verif.Solve
import Verif.NumPowerSimplThm
import Mathlib.LinearAlgebra.Matrix.Block
import Mathlib.LinearAlgebra.Matrix.NonsingularInverse
import Mathlib.Tactic.FieldSimp
import Mathlib.Tactic.LinearCombination

/-!
# Helper lemmas: elimination and substitution

The scalars get a meaning by a relation `R v k` ("v has the value k" in a field).
-/

set_option autoImplicit false

namespace Tsym.Lin

open Finset

section loops

variable {α : Type}

theorem loop_of_le {lo hi : ℕ} (h : hi ≤ lo) (f : ℕ → α → α) (s : α) : loop lo hi f s = s := by
  simp [loop, Nat.sub_eq_zero_of_le h]

theorem loop_succ {lo hi : ℕ} (h : lo ≤ hi) (f : ℕ → α → α) (s : α) :
    loop lo (hi + 1) f s = f hi (loop lo hi f s) := by
  have : hi + 1 - lo = (hi - lo) + 1 := by omega
  simp only [loop, this, List.range'_concat, List.foldl_append, List.foldl_cons, List.foldl_nil]
  congr 1; omega

theorem loop_inv {lo hi : ℕ} (h : lo ≤ hi) {f : ℕ → α → α} {s : α} (P : ℕ → α → Prop)
    (h0 : P lo s) (hs : ∀ i, lo ≤ i → i < hi → ∀ s, P i s → P (i + 1) (f i s)) :
    P hi (loop lo hi f s) := by
  induction hi with
  | zero =>
    have : lo = 0 := by omega
    subst this
    rw [loop_of_le le_rfl]; exact h0
  | succ n ih =>
    rcases Nat.lt_or_ge n lo with hlt | hge
    · have : lo = n + 1 := by omega
      subst this
      rw [loop_of_le le_rfl]; exact h0
    · rw [loop_succ hge]
      exact hs n hge (Nat.lt_succ_self n) _
        (ih hge (fun i h1 h2 => hs i h1 (Nat.lt_succ_of_lt h2)))

theorem loopM_of_le {lo hi : ℕ} (h : hi ≤ lo) (f : ℕ → α → Except Err α) (s : α) :
    loopM lo hi f s = .ok s := by
  simp [loopM, Nat.sub_eq_zero_of_le h, pure, Except.pure]

theorem loopM_front {lo hi : ℕ} (h : lo < hi) (f : ℕ → α → Except Err α) (s : α) :
    loopM lo hi f s = (f lo s >>= fun s => loopM (lo + 1) hi f s) := by
  have : hi - lo = (hi - (lo + 1)) + 1 := by omega
  simp only [loopM]
  rw [this, List.range'_succ]
  simp

/-- Outcome of a loop with an invariant. -/
theorem loopM_cases {hi : ℕ} {f : ℕ → α → Except Err α} (P : ℕ → α → Prop)
    (hs : ∀ i, i < hi → ∀ s r, P i s → f i s = .ok r → P (i + 1) r) :
    ∀ n lo s, hi - lo = n → lo ≤ hi → P lo s → (∃ r, loopM lo hi f s = .ok r ∧ P hi r) ∨
      (∃ i t e, lo ≤ i ∧ i < hi ∧ P i t ∧ f i t = .error e ∧ loopM lo hi f s = .error e) := by
  intro n
  induction n with
  | zero =>
    intro lo s hn hle hp
    have : lo = hi := by omega
    subst this
    exact Or.inl ⟨s, loopM_of_le le_rfl f s, hp⟩
  | succ n ih =>
    intro lo s hn hle hp
    have hlt : lo < hi := by omega
    rw [loopM_front hlt]
    cases hf : f lo s with
    | error e => exact Or.inr ⟨lo, s, e, le_rfl, hlt, hp, hf, rfl⟩
    | ok r =>
      rcases ih (lo + 1) r (by omega) (by omega) (hs lo hlt s r hp hf) with h | ⟨i, t, e, h1, h2⟩
      · exact Or.inl h
      · exact Or.inr ⟨i, t, e, by omega, h2⟩

end loops

section pointwise

variable {V : Type} (S : Scalar V)

theorem elimRow_eq {dim j i : ℕ} (hij : i ≠ j) (hj : j < dim) (M : ℕ → ℕ → V) (a b : ℕ) :
    elimRow S dim j i M a b =
      if a = i ∧ b = j then S.simplify (S.div (M i j) (M j j))
      else if a = i ∧ j < b ∧ b < dim then
        S.simplify (S.sub (M i b) (S.mul (S.simplify (S.div (M i j) (M j j))) (M j b)))
      else M a b := by
  have key := loop_inv (lo := j + 1) (hi := dim) (by omega)
    (f := fun k M => set M i k (S.simplify (S.sub (M i k) (S.mul (M i j) (M j k)))))
    (s := set M i j (S.simplify (S.div (M i j) (M j j))))
    (fun n N => ∀ a b, N a b = if a = i ∧ b = j then S.simplify (S.div (M i j) (M j j))
      else if a = i ∧ j < b ∧ b < n then
        S.simplify (S.sub (M i b) (S.mul (S.simplify (S.div (M i j) (M j j))) (M j b)))
      else M a b)
    (by
      intro a b
      simp only [set]
      split
      · rfl
      · rw [if_neg (by omega)])
    (by
      intro k hk1 hk2 N hN a b
      simp only [set]
      split
      · rename_i h
        obtain ⟨rfl, rfl⟩ := h
        rw [if_neg (by omega), if_pos ⟨rfl, by omega, by omega⟩, hN a b, hN a j, hN j b]
        rw [if_neg (by omega), if_neg (by omega), if_pos ⟨rfl, rfl⟩, if_neg (by omega),
          if_neg (by omega)]
      · rename_i h
        rw [hN a b]
        split
        · rfl
        · by_cases h2 : a = i ∧ j < b ∧ b < k
          · rw [if_pos h2, if_pos ⟨h2.1, h2.2.1, by omega⟩]
          · rw [if_neg h2, if_neg]
            rintro ⟨h3, h4, h5⟩
            apply h2
            refine ⟨h3, h4, ?_⟩
            rcases Nat.lt_or_ge b k with h6 | h6
            · exact h6
            · exact absurd ⟨h3, by omega⟩ h)
  exact key a b

theorem elimRows_eq {dim j : ℕ} (hj : j < dim) (M : ℕ → ℕ → V) (a b : ℕ) :
    loop (j + 1) dim (elimRow S dim j) M a b =
      if j < a ∧ a < dim ∧ b = j then S.simplify (S.div (M a j) (M j j))
      else if j < a ∧ a < dim ∧ j < b ∧ b < dim then
        S.simplify (S.sub (M a b) (S.mul (S.simplify (S.div (M a j) (M j j))) (M j b)))
      else M a b := by
  have key := loop_inv (lo := j + 1) (hi := dim) (by omega) (f := elimRow S dim j) (s := M)
    (fun n N => ∀ a b, N a b = if j < a ∧ a < n ∧ b = j then S.simplify (S.div (M a j) (M j j))
      else if j < a ∧ a < n ∧ j < b ∧ b < dim then
        S.simplify (S.sub (M a b) (S.mul (S.simplify (S.div (M a j) (M j j))) (M j b)))
      else M a b)
    (by
      intro a b
      rw [if_neg (by omega), if_neg (by omega)])
    (by
      intro i hi1 hi2 N hN a b
      rw [elimRow_eq S (by omega) hj]
      have e1 : ∀ b, N i b = M i b := by
        intro b; rw [hN, if_neg (by omega), if_neg (by omega)]
      have e2 : ∀ b, N j b = M j b := by
        intro b; rw [hN, if_neg (by omega), if_neg (by omega)]
      simp only [e1, e2]
      by_cases ha : a = i
      · subst ha
        rw [e1]
        by_cases hb : b = j
        · subst hb
          rw [if_pos ⟨rfl, rfl⟩, if_pos ⟨by omega, by omega, rfl⟩]
        · rw [if_neg (by tauto), if_neg (c := j < a ∧ a < a + 1 ∧ b = j) (by tauto)]
          by_cases hb2 : j < b ∧ b < dim
          · rw [if_pos ⟨rfl, hb2⟩, if_pos ⟨by omega, by omega, hb2⟩]
          · rw [if_neg (by tauto), if_neg (by tauto)]
      · rw [if_neg (by tauto), if_neg (by tauto), hN]
        have hh : (a < i + 1) = (a < i) := by
          apply propext; omega
        simp only [hh])
  exact key a b

theorem swapRows_eq {dim f t : ℕ} (hft : f ≠ t) (M : ℕ → ℕ → V) (a b : ℕ) :
    swapRows dim M f t a b =
      if b < dim ∧ a = f then M t b else if b < dim ∧ a = t then M f b else M a b := by
  have key := loop_inv (lo := 0) (hi := dim) (by omega)
    (f := fun j M => set (set M f j (M t j)) t j (M f j)) (s := M)
    (fun n N => ∀ a b, N a b = if b < n ∧ a = f then M t b else if b < n ∧ a = t then M f b else M a b)
    (by intro a b; rw [if_neg (by omega), if_neg (by omega)])
    (by
      intro k _ hk N hN a b
      have e1 : N t k = M t k := by rw [hN, if_neg (by omega), if_neg (by omega)]
      have e2 : N f k = M f k := by rw [hN, if_neg (by omega), if_neg (by omega)]
      simp only [set, e1, e2]
      by_cases hb : b = k
      · subst hb
        by_cases ha : a = t
        · subst ha
          rw [if_pos ⟨rfl, rfl⟩, if_neg (by rintro ⟨_, h⟩; exact hft h.symm),
            if_pos ⟨by omega, rfl⟩]
        · rw [if_neg (by tauto)]
          by_cases ha2 : a = f
          · subst ha2
            rw [if_pos ⟨rfl, rfl⟩, if_pos ⟨by omega, rfl⟩]
          · rw [if_neg (by tauto), if_neg (by tauto), if_neg (by tauto), hN,
              if_neg (by tauto), if_neg (by tauto)]
      · rw [if_neg (by tauto), if_neg (by tauto), hN]
        have hh : (b < k + 1) = (b < k) := by apply propext; omega
        simp only [hh])
  exact key a b

theorem swapScalar_eq {f t : ℕ} (b : ℕ → V) (a : ℕ) :
    swapScalar b f t a = if a = t then b f else if a = f then b t else b a := by
  simp [swapScalar, set1]

end pointwise

section pivots

variable {V : Type} (S : Scalar V)

theorem firstNonZeroFrom_cases (M : ℕ → ℕ → V) (row : ℕ) : ∀ n i,
    (∃ p, firstNonZeroFrom S M row n i = .ok p ∧ i ≤ p ∧ p < i + n ∧ S.isZero (M p row) = false) ∨
    (firstNonZeroFrom S M row n i = .error .invalidArgument ∧
      ∀ p, i ≤ p → p < i + n → S.isZero (M p row) = true) := by
  intro n
  induction n with
  | zero => intro i; right; exact ⟨rfl, by omega⟩
  | succ n ih =>
    intro i
    unfold firstNonZeroFrom
    by_cases h : S.isZero (M i row) = true
    · rw [if_pos h]
      rcases ih (i + 1) with ⟨p, h1, h2, h3, h4⟩ | ⟨h1, h2⟩
      · exact Or.inl ⟨p, h1, by omega, by omega, h4⟩
      · refine Or.inr ⟨h1, ?_⟩
        intro p hp1 hp2
        rcases Nat.eq_or_lt_of_le hp1 with e | e
        · subst e; exact h
        · exact h2 p (by omega) (by omega)
    · rw [if_neg h]
      exact Or.inl ⟨i, rfl, le_rfl, by omega, by simpa using h⟩

theorem leastComplexityPivot_cases (dim : ℕ) (M : ℕ → ℕ → V) (row : ℕ) (hrow : row < dim)
    (hc : ∀ v, S.complexity v < unsignedMax) :
    (row ≤ leastComplexityPivot S dim M row ∧ leastComplexityPivot S dim M row < dim ∧
      S.isZero (M (leastComplexityPivot S dim M row) row) = false) ∨
    (leastComplexityPivot S dim M row = row ∧
      ∀ p, row ≤ p → p < dim → S.isZero (M p row) = true) := by
  have key := loop_inv (lo := row) (hi := dim) (by omega)
    (f := fun i (s : ℕ × ℕ) =>
      if !S.isZero (M i row) && decide (S.complexity (M i row) < s.1)
      then (S.complexity (M i row), i) else s) (s := (unsignedMax, row))
    (fun n s => (row ≤ s.2 ∧ s.2 < n ∧ S.isZero (M s.2 row) = false) ∨
      (s = (unsignedMax, row) ∧ ∀ p, row ≤ p → p < n → S.isZero (M p row) = true))
    (Or.inr ⟨rfl, by omega⟩)
    (by
      intro i h1 h2 s hs
      by_cases hz : S.isZero (M i row) = true
      · simp only [hz, Bool.not_true, Bool.false_and, Bool.false_eq_true, if_false]
        rcases hs with ⟨a, b, c⟩ | ⟨a, b⟩
        · exact Or.inl ⟨a, by omega, c⟩
        · refine Or.inr ⟨a, ?_⟩
          intro p hp1 hp2
          rcases Nat.lt_or_ge p i with h | h
          · exact b p hp1 h
          · have : p = i := by omega
            subst this; exact hz
      · have hz' : S.isZero (M i row) = false := by simpa using hz
        by_cases hlt : S.complexity (M i row) < s.1
        · simp only [hz', hlt]
          exact Or.inl ⟨h1, by simp, hz'⟩
        · rcases hs with ⟨a, b, c⟩ | ⟨a, b⟩
          · simp only [hlt, decide_false, Bool.and_false, Bool.false_eq_true, if_false]
            exact Or.inl ⟨a, by omega, c⟩
          · subst a
            exact absurd (hc _) hlt)
  unfold leastComplexityPivot
  rcases key with ⟨a, b, c⟩ | ⟨a, b⟩
  · exact Or.inl ⟨a, b, c⟩
  · exact Or.inr ⟨by rw [a], b⟩

/-- Either a pivot is found, or all candidates compare equal to zero; then one rule throws and the
other one takes the diagonal. -/
theorem pivot_cases (algo : Algo) (dim : ℕ) (M : ℕ → ℕ → V) (row : ℕ) (hrow : row < dim)
    (hc : ∀ v, S.complexity v < unsignedMax) :
    (∃ p, pivot S algo dim M row = .ok p ∧ row ≤ p ∧ p < dim ∧ S.isZero (M p row) = false) ∨
    ((∀ p, row ≤ p → p < dim → S.isZero (M p row) = true) ∧
      ((algo = .gauss ∧ pivot S algo dim M row = .error .invalidArgument) ∨
       (algo = .gaussLCPivot ∧ pivot S algo dim M row = .ok row))) := by
  cases algo with
  | gauss =>
    rcases firstNonZeroFrom_cases S M row (dim - row) row with ⟨p, h1, h2, h3, h4⟩ | ⟨h1, h2⟩
    · exact Or.inl ⟨p, h1, h2, by omega, h4⟩
    · exact Or.inr ⟨fun p a b => h2 p a (by omega), Or.inl ⟨rfl, h1⟩⟩
  | gaussLCPivot =>
    rcases leastComplexityPivot_cases S dim M row hrow hc with ⟨h1, h2, h3⟩ | ⟨h1, h2⟩
    · exact Or.inl ⟨_, rfl, h1, h2, h3⟩
    · exact Or.inr ⟨h2, Or.inr ⟨rfl, by simp only [pivot, h1]⟩⟩

theorem leastComplexityPivot_range (dim : ℕ) (M : ℕ → ℕ → V) (row : ℕ) (hrow : row < dim) :
    row ≤ leastComplexityPivot S dim M row ∧ leastComplexityPivot S dim M row < dim := by
  unfold leastComplexityPivot
  refine loop_inv (lo := row) (hi := dim) (by omega) (fun _ (s : ℕ × ℕ) => row ≤ s.2 ∧ s.2 < dim)
    ⟨le_rfl, hrow⟩ ?_
  intro i h1 h2 s hs
  split
  · exact ⟨h1, h2⟩
  · exact hs

/-- A pivot is never above the current row. -/
theorem pivot_range {algo : Algo} {dim : ℕ} {M : ℕ → ℕ → V} {row p : ℕ} (hrow : row < dim)
    (h : pivot S algo dim M row = .ok p) :
    row ≤ p ∧ p < dim := by
  cases algo with
  | gauss =>
    rcases firstNonZeroFrom_cases S M row (dim - row) row with ⟨q, h1, h2, h3, _⟩ | ⟨h1, _⟩
    · simp only [pivot, firstNonZeroPivot] at h; rw [h1] at h; cases h; omega
    · simp only [pivot, firstNonZeroPivot] at h; rw [h1] at h; cases h
  | gaussLCPivot =>
    simp only [pivot, Except.ok.injEq] at h
    subst h
    exact leastComplexityPivot_range S dim M row hrow

end pivots

section values

variable {V K : Type} [Field K] (S : Scalar V) (R : V → K → Prop)

/-- The operations compute with the values. -/
structure Sound : Prop where
  zero : R S.zero 0
  one : R S.one 1
  minusOne : R S.minusOne (-1)
  add : ∀ {a b x y}, R a x → R b y → R (S.add a b) (x + y)
  sub : ∀ {a b x y}, R a x → R b y → R (S.sub a b) (x - y)
  mul : ∀ {a b x y}, R a x → R b y → R (S.mul a b) (x * y)
  div : ∀ {a b x y}, R a x → R b y → y ≠ 0 → R (S.div a b) (x / y)
  simplify : ∀ {a x}, R a x → R (S.simplify a) x

/-- The determinant of the upper left part of an infinite matrix. -/
def det (dim : ℕ) (A : ℕ → ℕ → K) : K := (Matrix.of fun i k : Fin dim => A i k).det

/-- `x` solves the system. -/
def Solves (dim : ℕ) (A : ℕ → ℕ → K) (b x : ℕ → K) : Prop :=
  ∀ i < dim, ∑ k ∈ range dim, A i k * x k = b i

/-- The upper factor at stage `j`. -/
def up (m : ℕ → ℕ → K) (j i k : ℕ) : K := if k < min i j then 0 else m i k

/-- Invariant of the elimination at stage `j`. -/
structure Inv (dim : ℕ) (A : ℕ → ℕ → K) (b : ℕ → K) (j : ℕ) (s : St V) (B m : ℕ → ℕ → K)
    (β : ℕ → K) : Prop where
  valM : ∀ i k, i < dim → k < dim → R (s.M i k) (m i k)
  valb : ∀ i, i < dim → R (s.b i) (β i)
  lu : ∀ i k, i < dim → k < dim →
    B i k = ∑ c ∈ range (min i j), m i c * up m j c k + up m j i k
  det : det dim B = (-1) ^ s.swaps * det dim A
  sol : ∀ x, Solves dim B β x → Solves dim A b x
  piv : ∀ i, i < j → m i i ≠ 0

theorem det_swap {dim f t : ℕ} (hf : f < dim) (ht : t < dim) (hft : f ≠ t) {B B' : ℕ → ℕ → K}
    (h : ∀ a b, a < dim → b < dim → B' a b = if a = f then B t b else if a = t then B f b else B a b) :
    det dim B' = - det dim B := by
  have : (Matrix.of fun i k : Fin dim => B' i k) =
      Matrix.submatrix (Matrix.of fun i k : Fin dim => B i k) (Equiv.swap (⟨f, hf⟩ : Fin dim) ⟨t, ht⟩) id := by
    ext i k
    simp only [Matrix.submatrix_apply, Matrix.of_apply, id]
    rw [h i k i.2 k.2]
    by_cases h1 : (i : ℕ) = f
    · have : i = ⟨f, hf⟩ := Fin.ext h1
      rw [if_pos h1, this, Equiv.swap_apply_left]
    · by_cases h2 : (i : ℕ) = t
      · have : i = ⟨t, ht⟩ := Fin.ext h2
        rw [if_neg h1, if_pos h2, this, Equiv.swap_apply_right]
      · rw [if_neg h1, if_neg h2, Equiv.swap_apply_of_ne_of_ne]
        · intro h; exact h1 (congrArg Fin.val h)
        · intro h; exact h2 (congrArg Fin.val h)
  unfold det
  rw [this, Matrix.det_permute]
  rw [Equiv.Perm.sign_swap (by intro h; exact hft (congrArg Fin.val h))]
  simp

theorem Inv.swap {dim : ℕ} {A B m : ℕ → ℕ → K} {b β : ℕ → K} {j p : ℕ} {s : St V}
    (h : Inv R dim A b j s B m β) (hj : j < dim) (hp1 : j < p) (hp2 : p < dim) :
    ∃ B' m' β', Inv R dim A b j ⟨swapRows dim s.M j p, swapScalar s.b j p, s.swaps + 1⟩ B' m' β' ∧
      m' j j = m p j := by
  let sw : ℕ → ℕ := fun a => if a = j then p else if a = p then j else a
  have sw_lt : ∀ a, a < dim → sw a < dim := by
    intro a ha; simp only [sw]; split
    · exact hp2
    · split
      · exact hj
      · exact ha
  have sw_sw : ∀ a, sw (sw a) = a := by
    intro a; simp only [sw]; split_ifs <;> omega
  have sw_of_lt : ∀ a, a < j → sw a = a := by
    intro a ha; simp only [sw]; split_ifs <;> omega
  have sw_min : ∀ a, min (sw a) j = min a j := by
    intro a; simp only [sw]; split_ifs <;> omega
  have hne : j ≠ p := by omega
  refine ⟨fun a c => B (sw a) c, fun a c => m (sw a) c, fun a => β (sw a), ⟨?_, ?_, ?_, ?_, ?_, ?_⟩, ?_⟩
  · intro i k hi hk
    show R (swapRows dim s.M j p i k) (m (sw i) k)
    rw [swapRows_eq hne]
    simp only [sw]
    by_cases h1 : i = j
    · rw [if_pos ⟨hk, h1⟩, if_pos h1]; exact h.valM _ _ hp2 hk
    · rw [if_neg (by tauto), if_neg h1]
      by_cases h2 : i = p
      · rw [if_pos ⟨hk, h2⟩, if_pos h2]; exact h.valM _ _ hj hk
      · rw [if_neg (by tauto), if_neg h2]; exact h.valM _ _ hi hk
  · intro i hi
    show R (swapScalar s.b j p i) (β (sw i))
    rw [swapScalar_eq]
    simp only [sw]
    by_cases h1 : i = j
    · rw [if_neg (by omega), if_pos h1, if_pos h1]; exact h.valb _ hp2
    · by_cases h2 : i = p
      · rw [if_pos h2, if_neg h1, if_pos h2]; exact h.valb _ hj
      · rw [if_neg h2, if_neg h1, if_neg h1, if_neg h2]; exact h.valb _ hi
  · intro i k hi hk
    rw [h.lu (sw i) k (sw_lt i hi) hk, sw_min]
    congr 1
    · apply sum_congr rfl
      intro c hc
      rw [mem_range] at hc
      have hcj : c < j := by omega
      simp only [up, sw_of_lt c hcj]
    · simp only [up, sw_min]
  · show Lin.det dim (fun a c => B (sw a) c) = (-1) ^ (s.swaps + 1) * Lin.det dim A
    rw [det_swap hj hp2 hne (B := B)]
    · rw [h.det]; ring
    · intro a b' _ _
      simp only [sw]
      split
      · rfl
      · split <;> rfl
  · intro x hx
    apply h.sol x
    intro i hi
    have := hx (sw i) (sw_lt i hi)
    simp only [sw_sw] at this
    exact this
  · intro i hi
    rw [sw_of_lt i hi]; exact h.piv i hi
  · simp only [sw, if_true]

theorem Inv.elim {dim : ℕ} {A B m : ℕ → ℕ → K} {b β : ℕ → K} {j : ℕ} {s : St V} (hS : Sound S R)
    (h : Inv R dim A b j s B m β) (hj : j < dim) (hpiv : m j j ≠ 0) :
    ∃ m', Inv R dim A b (j + 1) ⟨loop (j + 1) dim (elimRow S dim j) s.M, s.b, s.swaps⟩ B m' β := by
  let m' : ℕ → ℕ → K := fun a c =>
    if j < a ∧ a < dim ∧ c = j then m a j / m j j
    else if j < a ∧ a < dim ∧ j < c ∧ c < dim then m a c - m a j / m j j * m j c
    else m a c
  have m'_le : ∀ a c, a ≤ j → m' a c = m a c := by
    intro a c ha; simp only [m']; rw [if_neg (by omega), if_neg (by omega)]
  have m'_lt : ∀ a c, c < j → m' a c = m a c := by
    intro a c ha; simp only [m']; rw [if_neg (by omega), if_neg (by omega)]
  refine ⟨m', ⟨?_, h.valb, ?_, h.det, h.sol, ?_⟩⟩
  · intro i k hi hk
    show R (loop (j + 1) dim (elimRow S dim j) s.M i k) (m' i k)
    rw [elimRows_eq S hj]
    simp only [m']
    by_cases h1 : j < i ∧ i < dim ∧ k = j
    · rw [if_pos h1, if_pos h1]
      exact hS.simplify (hS.div (h.valM _ _ hi hj) (h.valM _ _ hj hj) hpiv)
    · rw [if_neg h1, if_neg h1]
      by_cases h2 : j < i ∧ i < dim ∧ j < k ∧ k < dim
      · rw [if_pos h2, if_pos h2]
        exact hS.simplify (hS.sub (h.valM _ _ hi hk) (hS.mul
          (hS.simplify (hS.div (h.valM _ _ hi hj) (h.valM _ _ hj hj) hpiv)) (h.valM _ _ hj hk)))
      · rw [if_neg h2, if_neg h2]; exact h.valM _ _ hi hk
  · intro i k hi hk
    rw [h.lu i k hi hk]
    by_cases hij : i ≤ j
    · have e1 : min i (j + 1) = i := by omega
      have e2 : min i j = i := by omega
      rw [e1, e2]
      have e3 : ∀ c, c ≤ j → up m' (j + 1) c k = up m j c k := by
        intro c hc
        simp only [up, m'_le c k hc]
        have : min c (j + 1) = min c j := by omega
        rw [this]
      rw [e3 i hij]
      congr 1
      apply sum_congr rfl
      intro c hc
      rw [mem_range] at hc
      rw [e3 c (by omega), m'_le i c hij]
    · have e1 : min i (j + 1) = j + 1 := by omega
      have e2 : min i j = j := by omega
      rw [e1, e2, sum_range_succ]
      have e3 : ∀ c, c ≤ j → up m' (j + 1) c k = up m j c k := by
        intro c hc
        simp only [up, m'_le c k hc]
        have : min c (j + 1) = min c j := by omega
        rw [this]
      have e4 : ∑ c ∈ range j, m' i c * up m' (j + 1) c k = ∑ c ∈ range j, m i c * up m j c k := by
        apply sum_congr rfl
        intro c hc
        rw [mem_range] at hc
        rw [e3 c (by omega), m'_lt i c hc]
      rw [e4, e3 j le_rfl, add_assoc]
      congr 1
      -- the new term together with the new upper entry
      have hmij : m' i j = m i j / m j j := by
        show (if j < i ∧ i < dim ∧ j = j then _ else _) = _; rw [if_pos ⟨by omega, hi, rfl⟩]
      simp only [up, hmij, e1, e2, min_self]
      rcases lt_trichotomy k j with hk1 | hk1 | hk1
      · rw [if_pos hk1, if_pos hk1, if_pos (by omega)]; ring
      · subst hk1
        rw [if_neg (by omega), if_neg (by omega), if_pos (by omega)]
        field_simp
        ring
      · rw [if_neg (by omega), if_neg (by omega), if_neg (by omega)]
        have : m' i k = m i k - m i j / m j j * m j k := by
          simp only [m']
          rw [if_neg (by omega), if_pos ⟨by omega, hi, by omega, hk⟩]
        rw [this]; ring
  · intro i hi
    rw [m'_le i i (by omega)]
    rcases Nat.lt_or_ge i j with h1 | h1
    · exact h.piv i h1
    · have : i = j := by omega
      subst this; exact hpiv

/-- The matrix is the product of the two factors. -/
theorem Inv.det_eq {dim : ℕ} {A B m : ℕ → ℕ → K} {b β : ℕ → K} {j : ℕ} {s : St V}
    (h : Inv R dim A b j s B m β) : Lin.det dim B = Lin.det dim (up m j) := by
  let L : Matrix (Fin dim) (Fin dim) K := Matrix.of fun i k =>
    if (k : ℕ) < min (i : ℕ) j then m i k else if i = k then 1 else 0
  have hL : L.det = 1 := by
    rw [Matrix.det_of_isLowerTriangular]
    · apply Finset.prod_eq_one
      intro i _
      simp only [L, Matrix.of_apply]
      rw [if_neg (by omega)]; simp
    · intro i k hik
      have hik' : (i : ℕ) < k := hik
      simp only [L, Matrix.of_apply]
      rw [if_neg (by omega), if_neg]
      intro e; subst e; omega
  have hmul : (Matrix.of fun i k : Fin dim => B i k) = L * (Matrix.of fun i k : Fin dim => up m j i k) := by
    ext i k
    rw [Matrix.mul_apply]
    simp only [Matrix.of_apply]
    rw [h.lu i k i.2 k.2]
    have e1 : ∑ c : Fin dim, L i c * up m j c k =
        ∑ c ∈ range dim, (if c < min (i : ℕ) j then m i c else if (i : ℕ) = c then 1 else 0) * up m j c k := by
      rw [Finset.sum_range]
      apply sum_congr rfl
      intro c _
      simp only [L, Matrix.of_apply]
      by_cases hc : (c : ℕ) < min (i : ℕ) j
      · rw [if_pos hc, if_pos hc]
      · rw [if_neg hc, if_neg hc]
        by_cases hic : i = c
        · subst hic; simp
        · rw [if_neg hic, if_neg (by intro e; exact hic (Fin.ext e))]
    rw [e1]
    have hsub : range (min (i : ℕ) j) ⊆ range dim := by
      intro c hc; rw [mem_range] at hc ⊢; have := i.2; omega
    rw [← sum_sdiff hsub]
    have e2 : ∑ c ∈ range (min (i : ℕ) j), (if c < min (i : ℕ) j then m i c else if (i : ℕ) = c then 1 else 0)
        * up m j c k = ∑ c ∈ range (min (i : ℕ) j), m i c * up m j c k := by
      apply sum_congr rfl
      intro c hc; rw [mem_range] at hc; rw [if_pos hc]
    rw [e2, add_comm]
    congr 1
    rw [sum_eq_single (i : ℕ)]
    · rw [if_neg (by omega), if_pos rfl, one_mul]
    · intro c hc hne
      rw [mem_sdiff, mem_range, mem_range] at hc
      rw [if_neg hc.2, if_neg (fun e => hne e.symm), zero_mul]
    · intro hc
      exfalso; apply hc
      rw [mem_sdiff, mem_range, mem_range]
      exact ⟨i.2, by omega⟩
  unfold Lin.det
  rw [hmul, Matrix.det_mul, hL, one_mul]

/-- At the end the determinant is the product of the diagonal. -/
theorem Inv.det_final {dim : ℕ} {A B m : ℕ → ℕ → K} {b β : ℕ → K} {j : ℕ} {s : St V}
    (h : Inv R dim A b j s B m β) (hj : dim ≤ j + 1) :
    (-1) ^ s.swaps * Lin.det dim A = ∏ i ∈ range dim, m i i := by
  rw [← h.det, h.det_eq]
  unfold Lin.det
  rw [Matrix.det_of_isUpperTriangular]
  · rw [Finset.prod_range]
    apply prod_congr rfl
    intro i _
    simp only [up, Matrix.of_apply]
    rw [if_neg (by omega)]
  · intro i k hik
    have hik' : (k : ℕ) < i := hik
    simp only [up, Matrix.of_apply]
    rw [if_pos]
    have := i.2
    omega

/-- Without a pivot the determinant is zero. -/
theorem Inv.det_zero {dim : ℕ} {A B m : ℕ → ℕ → K} {b β : ℕ → K} {j : ℕ} {s : St V}
    (h : Inv R dim A b j s B m β) (hj : j < dim) (hz : ∀ i, j ≤ i → i < dim → m i j = 0) :
    Lin.det dim A = 0 := by
  have hB : Lin.det dim B = 0 := by
    rw [h.det_eq]
    unfold Lin.det
    rw [Matrix.twoBlockTriangular_det _ (fun i : Fin dim => (i : ℕ) < j)]
    · have : Matrix.det (Matrix.toSquareBlockProp (Matrix.of fun i k : Fin dim => up m j i k)
          (fun i : Fin dim => ¬ (i : ℕ) < j)) = 0 := by
        apply Matrix.det_eq_zero_of_column_eq_zero ⟨⟨j, hj⟩, by simp⟩
        intro i
        have hi : ¬ ((i : Fin dim) : ℕ) < j := i.2
        show up m j (i : Fin dim) j = 0
        simp only [up]
        rw [if_neg (by omega)]
        exact hz _ (by omega) i.1.2
      rw [this, mul_zero]
    · intro i hi k hk
      show up m j i k = 0
      simp only [up]
      rw [if_pos]
      omega
  have := h.det
  rw [hB] at this
  have hne : ((-1 : K)) ^ s.swaps ≠ 0 := pow_ne_zero _ (by norm_num)
  rcases mul_eq_zero.1 this.symm with h1 | h1
  · exact absurd h1 hne
  · exact h1

/-- Forward substitution. -/
theorem forward_ok {dim : ℕ} (hS : Sound S R) {M : ℕ → ℕ → V} {b : ℕ → V} {m : ℕ → ℕ → K} {β : ℕ → K}
    (hM : ∀ i k, i < dim → k < dim → R (M i k) (m i k)) (hb : ∀ i, i < dim → R (b i) (β i)) :
    ∃ y : ℕ → K, (∀ i, i < dim → R (forward S dim M b i) (y i)) ∧
      ∀ i, i < dim → y i + ∑ c ∈ range i, m i c * y c = β i := by
  have key := loop_inv (lo := 0) (hi := dim) (by omega)
    (f := fun i b => loop 0 i (fun j b => set1 b i (S.sub (b i) (S.mul (M i j) (b j)))) b) (s := b)
    (fun n b' => ∃ y : ℕ → K, (∀ i, i < n → R (b' i) (y i)) ∧
      (∀ i, i < n → y i + ∑ c ∈ range i, m i c * y c = β i) ∧
      ∀ i, n ≤ i → i < dim → R (b' i) (β i))
    ⟨β, by omega, by omega, fun i _ hi => hb i hi⟩
    (by
      intro i _ hi b' ⟨y, h1, h2, h3⟩
      have inner := loop_inv (lo := 0) (hi := i) (by omega)
        (f := fun j b => set1 b i (S.sub (b i) (S.mul (M i j) (b j)))) (s := b')
        (fun n b'' => R (b'' i) (β i - ∑ c ∈ range n, m i c * y c) ∧ ∀ a, a ≠ i → b'' a = b' a)
        ⟨by simpa using h3 i le_rfl hi, fun _ _ => rfl⟩
        (by
          intro c _ hc b'' ⟨g1, g2⟩
          refine ⟨?_, ?_⟩
          · simp only [set1, if_true]
            rw [sum_range_succ, ← sub_sub]
            refine hS.sub g1 (hS.mul (hM i c hi (by omega)) ?_)
            rw [g2 c (by omega)]; exact h1 c hc
          · intro a ha
            simp only [set1, if_neg ha]; exact g2 a ha)
      obtain ⟨g1, g2⟩ := inner
      refine ⟨fun a => if a = i then β i - ∑ c ∈ range i, m i c * y c else y a, ?_, ?_, ?_⟩
      · intro a ha
        by_cases hai : a = i
        · subst hai; simp only [if_true]; exact g1
        · simp only [if_neg hai]; rw [g2 a hai]; exact h1 a (by omega)
      · intro a ha
        have hs : ∀ n, n ≤ i → ∑ c ∈ range n, m a c * (if c = i then β i - ∑ c ∈ range i, m i c * y c else y c)
            = ∑ c ∈ range n, m a c * y c := by
          intro n hn
          apply sum_congr rfl
          intro c hc; rw [mem_range] at hc; rw [if_neg (by omega)]
        simp only
        rw [hs a (by omega)]
        by_cases hai : a = i
        · subst hai; simp
        · rw [if_neg hai]; exact h2 a (by omega)
      · intro a ha1 ha2
        rw [g2 a (by omega)]; exact h3 a (by omega) ha2)
  obtain ⟨y, h1, h2, _⟩ := key
  exact ⟨y, h1, h2⟩

/-- The state of the backward substitution: indices from `n` on are solved. -/
def BackInv (dim : ℕ) (m : ℕ → ℕ → K) (y : ℕ → K) (n : ℕ) (x : ℕ → V) : Prop :=
  ∃ z : ℕ → K, (∀ i, n ≤ i → i < dim → R (x i) (z i) ∧
      m i i * z i + ∑ c ∈ Finset.Ico (i + 1) dim, m i c * z c = y i) ∧
    ∀ i, i < n → R (x i) 0

theorem backStep_ok {dim i : ℕ} (hS : Sound S R) {M : ℕ → ℕ → V} {b x : ℕ → V} {m : ℕ → ℕ → K}
    {y : ℕ → K} (hi : i < dim) (hM : ∀ k, k < dim → R (M i k) (m i k))
    (hb : R (b i) (y i)) (hd : m i i ≠ 0) (hx : BackInv R dim m y (i + 1) x)
    {r : ℕ → V} (h : backStep S dim M b i x = .ok r) : BackInv R dim m y i r := by
  obtain ⟨z, h1, h2⟩ := hx
  have inner := loop_inv (lo := i + 1) (hi := dim) (by omega)
    (f := fun j x => set1 x i (S.sub (x i) (S.mul (M i j) (x j)))) (s := x)
    (fun n x' => R (x' i) (0 - ∑ c ∈ Finset.Ico (i + 1) n, m i c * z c) ∧ ∀ a, a ≠ i → x' a = x a)
    ⟨by simpa using h2 i (by omega), fun _ _ => rfl⟩
    (by
      intro c hc1 hc2 x' ⟨g1, g2⟩
      refine ⟨?_, ?_⟩
      · simp only [set1, if_true]
        rw [Finset.sum_Ico_succ_top hc1, ← sub_sub]
        refine hS.sub g1 (hS.mul (hM c hc2) ?_)
        rw [g2 c (by omega)]; exact (h1 c (by omega) hc2).1
      · intro a ha
        simp only [set1, if_neg ha]; exact g2 a ha)
  unfold backStep at h
  simp only at h
  split at h
  · cases h
  · simp only [Except.ok.injEq] at h
    subst h
    obtain ⟨g1, g2⟩ := inner
    set x' := loop (i + 1) dim (fun j x => set1 x i (S.sub (x i) (S.mul (M i j) (x j)))) x
    let zi := (y i + (0 - ∑ c ∈ Finset.Ico (i + 1) dim, m i c * z c)) / m i i
    refine ⟨fun a => if a = i then zi else z a, ?_, ?_⟩
    · intro a ha1 ha2
      have hs : ∑ c ∈ Finset.Ico (a + 1) dim, m a c * (if c = i then zi else z c) =
          ∑ c ∈ Finset.Ico (a + 1) dim, m a c * z c := by
        apply sum_congr rfl
        intro c hc; rw [Finset.mem_Ico] at hc; rw [if_neg (by omega)]
      simp only
      rw [hs]
      by_cases hai : a = i
      · subst hai
        refine ⟨?_, ?_⟩
        · simp only [set1, if_true]
          exact hS.simplify (hS.div (hS.add hb g1) (hS.simplify (hM a hi)) hd)
        · simp only [if_true, zi]
          field_simp
          ring
      · simp only [set1, if_neg hai]
        rw [g2 a hai]; exact h1 a (by omega) ha2
    · intro a ha
      simp only [set1]
      rw [if_neg (by omega), g2 a (by omega)]
      exact h2 a (by omega)

theorem back_ok {dim : ℕ} (hS : Sound S R) {M : ℕ → ℕ → V} {b : ℕ → V} {m : ℕ → ℕ → K}
    {y : ℕ → K} (hM : ∀ i k, i < dim → k < dim → R (M i k) (m i k))
    (hb : ∀ i, i < dim → R (b i) (y i)) (hd : ∀ i, i < dim → m i i ≠ 0) :
    ∀ n x r, n ≤ dim → BackInv R dim m y n x → loopDownM (backStep S dim M b) n x = .ok r →
      BackInv R dim m y 0 r := by
  intro n
  induction n with
  | zero => intro x r _ hx h; simp only [loopDownM, Except.ok.injEq] at h; subst h; exact hx
  | succ n ih =>
    intro x r hn hx h
    simp only [loopDownM, Except.bind_ok] at h
    obtain ⟨x', hx', h⟩ := h
    exact ih x' r (by omega) (backStep_ok S R hS (by omega) (fun k hk => hM n k (by omega) hk)
      (hb n (by omega)) (hd n (by omega)) hx hx') h

/-- Factors, forward and backward solution together solve the system. -/
theorem Inv.solves {dim : ℕ} {A B m : ℕ → ℕ → K} {b β y z : ℕ → K} {j : ℕ} {s : St V}
    (h : Inv R dim A b j s B m β) (hj : dim ≤ j + 1)
    (hy : ∀ i, i < dim → y i + ∑ c ∈ range i, m i c * y c = β i)
    (hz : ∀ i, i < dim → m i i * z i + ∑ c ∈ Finset.Ico (i + 1) dim, m i c * z c = y i) :
    Solves dim A b z := by
  apply h.sol
  intro i hi
  have hup : ∀ a, a < dim → ∑ k ∈ range dim, up m j a k * z k = y a := by
    intro a ha
    rw [← hz a ha]
    have e : ∀ k, up m j a k = if k < a then 0 else m a k := by
      intro k; simp only [up]; congr 1; apply propext; omega
    simp only [e]
    rw [← Finset.sum_range_add_sum_Ico _ ha.le, Finset.sum_eq_zero, zero_add,
      Finset.sum_eq_sum_Ico_succ_bot ha]
    · rw [if_neg (by omega)]
      congr 1
      apply sum_congr rfl
      intro c hc; rw [Finset.mem_Ico] at hc; rw [if_neg (by omega)]
    · intro k hk; rw [mem_range] at hk; rw [if_pos hk, zero_mul]
  have e1 : min i j = i := by omega
  calc ∑ k ∈ range dim, B i k * z k
      = ∑ k ∈ range dim, ((∑ c ∈ range i, m i c * (up m j c k * z k)) + up m j i k * z k) := by
        apply sum_congr rfl
        intro k hk
        rw [mem_range] at hk
        rw [h.lu i k hi hk, e1, add_mul, sum_mul]
        simp only [mul_assoc]
    _ = (∑ c ∈ range i, m i c * ∑ k ∈ range dim, up m j c k * z k) + y i := by
        rw [sum_add_distrib, hup i hi, sum_comm]
        simp only [mul_sum]
    _ = ∑ c ∈ range i, m i c * y c + y i := by
        congr 1
        apply sum_congr rfl
        intro c hc
        rw [mem_range] at hc
        rw [hup c (by omega)]
    _ = β i := by rw [add_comm]; exact hy i hi

theorem zeroLoop {dim : ℕ} (x : ℕ → V) : ∀ i, i < dim →
    loop 0 dim (fun i x => set1 x i S.zero) x i = S.zero := by
  have := loop_inv (lo := 0) (hi := dim) (by omega) (f := fun i x => set1 x i S.zero) (s := x)
    (fun n x' => ∀ i, i < n → x' i = S.zero) (by omega)
    (by
      intro i _ _ x' hx a ha
      simp only [set1]
      split
      · rfl
      · exact hx a (by omega))
  exact this

/-- `computeSolution` after an elimination with non-zero pivots. -/
theorem Inv.computeSolution {dim : ℕ} {A B m : ℕ → ℕ → K} {b β : ℕ → K} {j : ℕ} {s : St V}
    (hS : Sound S R) (h : Inv R dim A b j s B m β) (hj : dim ≤ j + 1)
    (hd : ∀ i, i < dim → m i i ≠ 0) {x r : ℕ → V}
    (hr : computeSolution S dim s.M s.b x = .ok r) :
    ∃ z, (∀ i, i < dim → R (r i) (z i)) ∧ Solves dim A b z := by
  obtain ⟨y, hy1, hy2⟩ := forward_ok S R hS h.valM h.valb
  have hinit : BackInv R dim m y dim (loop 0 dim (fun i x => set1 x i S.zero) x) :=
    ⟨y, by intro i h1 h2; omega, fun i hi => by rw [zeroLoop S x i hi]; exact hS.zero⟩
  obtain ⟨z, hz, _⟩ := back_ok S R hS h.valM hy1 hd dim _ r le_rfl hinit hr
  exact ⟨z, fun i hi => (hz i (by omega) hi).1, h.solves R hj hy2 (fun i hi => (hz i (by omega) hi).2)⟩

/-- Rows above the current one do not change any more. -/
theorem elimCol_frozen {algo : Algo} {dim j : ℕ} {s r : St V} (hj : j < dim)
    (h : elimCol S algo dim j s = .ok r) :
    ∀ a b, a < j → r.M a b = s.M a b := by
  intro a b ha
  unfold elimCol at h
  simp only [Except.bind_ok, Except.pure_ok] at h
  obtain ⟨p, hp, rfl⟩ := h
  obtain ⟨hp1, _⟩ := pivot_range S hj hp
  show loop (j + 1) dim (elimRow S dim j) _ a b = _
  rw [elimRows_eq S hj, if_neg (by omega), if_neg (by omega)]
  split
  · rfl
  · rename_i hne
    show swapRows dim s.M j p a b = _
    rw [swapRows_eq (fun e => hne e.symm), if_neg (by omega), if_neg (by omega)]

/-- The pivot row itself changes only by the swap. -/
theorem elimCol_row {algo : Algo} {dim j : ℕ} {s r : St V} (hj : j < dim)
    (hp : pivot S algo dim s.M j = .ok j) (h : elimCol S algo dim j s = .ok r) :
    ∀ b, r.M j b = s.M j b := by
  intro b
  unfold elimCol at h
  rw [hp] at h
  simp only [Except.bind_ok, Except.pure_ok] at h
  obtain ⟨p, e, rfl⟩ := h
  cases e
  show loop (j + 1) dim (elimRow S dim j) _ j b = _
  rw [elimRows_eq S hj, if_neg (by omega), if_neg (by omega)]
  simp

theorem elim_frozen {algo : Algo} {dim : ℕ} :
    ∀ n lo s r, dim - 1 - lo = n → loopM lo (dim - 1) (elimCol S algo dim) s = .ok r →
      ∀ a b, a < lo → r.M a b = s.M a b := by
  intro n
  induction n with
  | zero =>
    intro lo s r hn h a b _
    rw [loopM_of_le (by omega)] at h
    cases h; rfl
  | succ n ih =>
    intro lo s r hn h a b ha
    rw [loopM_front (by omega)] at h
    simp only [Except.bind_ok] at h
    obtain ⟨t, ht, h⟩ := h
    rw [ih (lo + 1) t r (by omega) h a b (by omega), elimCol_frozen S (by omega) ht a b ha]

/-- One column, when the chosen pivot has a value different from zero. -/
theorem Inv.elimCol {algo : Algo} {dim : ℕ} {A B m : ℕ → ℕ → K} {b β : ℕ → K} {j p : ℕ} {s : St V}
    (hS : Sound S R) (h : Inv R dim A b j s B m β) (hj : j < dim)
    (hp : pivot S algo dim s.M j = .ok p) (hp1 : j ≤ p) (hp2 : p < dim) (hne : m p j ≠ 0) :
    ∃ r B' m' β', Lin.elimCol S algo dim j s = .ok r ∧ Inv R dim A b (j + 1) r B' m' β' := by
  unfold Lin.elimCol
  rw [hp]
  by_cases hpj : p = j
  · subst hpj
    obtain ⟨m', hm'⟩ := h.elim S R hS hj hne
    refine ⟨_, B, m', β, ?_, hm'⟩
    simp [bind, Except.bind, pure, Except.pure]
  · obtain ⟨B', m', β', h', hpp⟩ := h.swap R hj (by omega) hp2
    obtain ⟨m'', hm''⟩ := h'.elim S R hS hj (by rw [hpp]; exact hne)
    refine ⟨_, B', m'', β', ?_, hm''⟩
    simp only [bind, Except.bind, pure, Except.pure, hpj, if_false]

theorem Inv.init {dim : ℕ} {A : ℕ → ℕ → K} {b : ℕ → K} {M : ℕ → ℕ → V} {bb : ℕ → V}
    (hM : ∀ i k, i < dim → k < dim → R (M i k) (A i k)) (hb : ∀ i, i < dim → R (bb i) (b i)) :
    Inv R dim A b 0 ⟨M, bb, 0⟩ A A b :=
  ⟨hM, hb, by intro i k _ _; simp [up], by simp, fun _ h => h, by omega⟩

/-- Elimination on scalars with a meaning: if the diagonal ends up with non-zero values then the
invariant holds at the end. -/
theorem eliminateGauss_ok {algo : Algo} {dim : ℕ} {A : ℕ → ℕ → K} {b : ℕ → K} {M : ℕ → ℕ → V}
    {bb : ℕ → V} {r : St V} (hS : Sound S R)
    (hM : ∀ i k, i < dim → k < dim → R (M i k) (A i k)) (hb : ∀ i, i < dim → R (bb i) (b i))
    (hr : eliminateGauss S algo dim M bb = .ok r)
    (hd : ∀ i, i + 1 < dim → ∀ v, R (r.M i i) v → v ≠ 0) :
    ∃ B m β, Inv R dim A b (dim - 1) r B m β := by
  have key : ∀ n lo s, dim - 1 - lo = n → lo ≤ dim - 1 →
      loopM lo (dim - 1) (Lin.elimCol S algo dim) s = .ok r →
      (∃ B m β, Inv R dim A b lo s B m β) → ∃ B m β, Inv R dim A b (dim - 1) r B m β := by
    intro n
    induction n with
    | zero =>
      intro lo s hn hlo h hi
      have : lo = dim - 1 := by omega
      rw [loopM_of_le (by omega)] at h
      cases h; rw [← this]; exact hi
    | succ n ih =>
      intro lo s hn hlo h ⟨B, m, β, hi⟩
      rw [loopM_front (by omega)] at h
      simp only [Except.bind_ok] at h
      obtain ⟨t, ht, h⟩ := h
      have hlod : lo < dim := by omega
      have hp : ∃ p, pivot S algo dim s.M lo = .ok p := by
        have ht' := ht
        unfold Lin.elimCol at ht'
        simp only [Except.bind_ok] at ht'
        obtain ⟨p, hp, _⟩ := ht'
        exact ⟨p, hp⟩
      obtain ⟨p, hp⟩ := hp
      obtain ⟨hp1, hp2⟩ := pivot_range S hlod hp
      -- the pivot entry is the final diagonal entry
      have hdiag : r.M lo lo = s.M p lo := by
        rw [elim_frozen S n (lo + 1) t r (by omega) h lo lo (by omega)]
        have ht' := ht
        unfold Lin.elimCol at ht'
        rw [hp] at ht'
        simp only [bind, Except.bind, pure, Except.pure, Except.ok.injEq] at ht'
        rw [← ht']
        show loop (lo + 1) dim (elimRow S dim lo) _ lo lo = _
        rw [elimRows_eq S hlod, if_neg (by omega), if_neg (by omega)]
        split
        · rename_i e; rw [e]
        · rename_i hne
          show swapRows dim s.M lo p lo lo = _
          rw [swapRows_eq (fun e => hne e.symm), if_pos ⟨hlod, rfl⟩]
      have hne : m p lo ≠ 0 := by
        apply hd lo (by omega)
        rw [hdiag]; exact hi.valM p lo hp2 hlod
      obtain ⟨r', B', m', β', h1, h2⟩ := hi.elimCol S R hS hlod hp hp1 hp2 hne
      rw [ht] at h1
      cases h1
      exact ih (lo + 1) t (by omega) (by omega) h ⟨B', m', β', h2⟩
  exact key _ 0 _ rfl (by omega) hr ⟨A, A, b, Inv.init R hM hb⟩

/-- The only exception. -/
theorem eliminateGauss_err {algo : Algo} {dim : ℕ} {M : ℕ → ℕ → V} {b : ℕ → V} {e : Err}
    (h : eliminateGauss S algo dim M b = .error e) : e = .invalidArgument := by
  unfold eliminateGauss at h
  rcases loopM_cases (hi := dim - 1) (f := elimCol S algo dim) (fun _ _ => True)
    (fun _ _ _ _ _ _ => trivial) (dim - 1) 0 ⟨M, b, 0⟩ (by omega) (by omega) trivial with
    ⟨r, hr, _⟩ | ⟨i, t, e', _, _, _, he, hr⟩
  · rw [hr] at h; cases h
  · rw [hr] at h
    cases h
    unfold elimCol at he
    cases hp : pivot S algo dim t.M i with
    | ok p => rw [hp] at he; cases he
    | error e'' =>
      rw [hp] at he
      cases he
      cases algo with
      | gauss =>
        rcases firstNonZeroFrom_cases S t.M i (dim - i) i with ⟨p, h1, _⟩ | ⟨h1, _⟩
        · simp only [pivot, firstNonZeroPivot] at hp; rw [h1] at hp; cases hp
        · simp only [pivot, firstNonZeroPivot] at hp; rw [h1] at hp; cases hp; rfl
      | gaussLCPivot => cases hp

theorem computeSolution_err {dim : ℕ} {M : ℕ → ℕ → V} {b x : ℕ → V} {e : Err}
    (h : computeSolution S dim M b x = .error e) : e = .invalidArgument := by
  unfold computeSolution at h
  generalize loop 0 dim (fun i x => set1 x i S.zero) x = y at h
  have : ∀ n y, loopDownM (backStep S dim M (forward S dim M b)) n y = .error e →
      e = .invalidArgument := by
    intro n
    induction n with
    | zero => intro y h; cases h
    | succ n ih =>
      intro y h
      simp only [loopDownM] at h
      cases hb : backStep S dim M (forward S dim M b) n y with
      | ok r => rw [hb] at h; exact ih r h
      | error e' =>
        rw [hb] at h
        cases h
        unfold backStep at hb
        simp only at hb
        split at hb
        · cases hb; rfl
        · cases hb
  exact this dim y h

/-- Product of the diagonal. -/
theorem detFromPlu_ok {dim : ℕ} (hS : Sound S R) {M : ℕ → ℕ → V} {m : ℕ → ℕ → K}
    (hM : ∀ i, i < dim → R (M i i) (m i i)) (n : ℕ) :
    R (detFromPlu S dim M n) ((-1) ^ n * ∏ i ∈ range dim, m i i) := by
  unfold detFromPlu
  apply hS.simplify
  apply loop_inv (lo := 0) (hi := dim) (by omega)
    (fun k d => R d ((-1) ^ n * ∏ i ∈ range k, m i i))
  · simp only [range_zero, prod_empty, mul_one]
    split
    · rename_i h
      rw [Even.neg_one_pow (Nat.even_iff.2 h)]; exact hS.one
    · rename_i h
      rw [Odd.neg_one_pow (Nat.odd_iff.2 (by omega))]; exact hS.minusOne
  · intro i _ hi d hd
    rw [prod_range_succ, ← mul_assoc]
    exact hS.mul hd (hM i hi)

end values

section exact

variable {K : Type} [Field K] [DecidableEq K] (comp : Option K → ℕ)

/-- Exact scalars: `none` is the undefined element, which every operation passes on; division by zero
gives it; it is not equal to zero. -/
def exactScalar : Scalar (Option K) where
  zero := some 0
  one := some 1
  minusOne := some (-1)
  add a b := do pure ((← a) + (← b))
  sub a b := do pure ((← a) - (← b))
  mul a b := do pure ((← a) * (← b))
  div a b := do
    let x ← a
    let y ← b
    if y = 0 then none else some (x / y)
  simplify := id
  isZero a := decide (a = some 0)
  complexity := comp

/-- Meaning of exact scalars. -/
def IsVal (v : Option K) (x : K) : Prop := v = some x

theorem exact_sound : Sound (exactScalar comp) (IsVal (K := K)) where
  zero := rfl
  one := rfl
  minusOne := rfl
  add := by rintro a b x y rfl rfl; rfl
  sub := by rintro a b x y rfl rfl; rfl
  mul := by rintro a b x y rfl rfl; rfl
  div := by rintro a b x y rfl rfl h; simp [exactScalar, IsVal, h]
  simplify := by rintro a x rfl; rfl

theorem exact_isZero {v : Option K} : (exactScalar comp).isZero v = true ↔ v = some 0 := by
  simp [exactScalar]

/-- Nothing defined below and right of `(j, j)`. -/
def Dead (dim j : ℕ) (M : ℕ → ℕ → Option K) : Prop :=
  ∀ a b, j ≤ a → j ≤ b → a < dim → b < dim → M a b = none

theorem elimCol_dead {algo : Algo} {dim j : ℕ} {s : St (Option K)} (hj : j < dim)
    (hc : ∀ v, comp v < unsignedMax) (hd : Dead dim j s.M) :
    ∃ r, elimCol (exactScalar comp) algo dim j s = .ok r ∧ Dead dim (j + 1) r.M ∧
      r.M j j = none := by
  have hp : ∃ p, pivot (exactScalar comp) algo dim s.M j = .ok p := by
    rcases pivot_cases (exactScalar comp) algo dim s.M j hj hc with ⟨p, h, _⟩ | ⟨h, _⟩
    · exact ⟨p, h⟩
    · have := h j le_rfl hj
      rw [hd j j le_rfl le_rfl hj hj] at this
      simp [exactScalar] at this
  obtain ⟨p, hp⟩ := hp
  obtain ⟨hp1, hp2⟩ := pivot_range (exactScalar comp) hj hp
  unfold elimCol
  rw [hp]
  refine ⟨_, rfl, ?_⟩
  have hswap : ∀ a b, j ≤ a → j ≤ b → a < dim → b < dim →
      (if p = j then s else ⟨swapRows dim s.M j p, swapScalar s.b j p, s.swaps + 1⟩ :
        St (Option K)).M a b = none := by
    intro a b h1 h2 h3 h4
    split
    · exact hd a b h1 h2 h3 h4
    · rename_i hne
      show swapRows dim s.M j p a b = none
      rw [swapRows_eq (fun e => hne e.symm)]
      split
      · exact hd _ _ hp1 h2 hp2 h4
      · split
        · exact hd _ _ le_rfl h2 hj h4
        · exact hd _ _ h1 h2 h3 h4
  refine ⟨?_, ?_⟩
  · intro a b h1 h2 h3 h4
    show loop (j + 1) dim (elimRow (exactScalar comp) dim j) _ a b = none
    rw [elimRows_eq _ hj, if_neg (by omega), if_pos ⟨by omega, h3, by omega, h4⟩,
      hswap a b (by omega) (by omega) h3 h4]
    rfl
  · show loop (j + 1) dim (elimRow (exactScalar comp) dim j) _ j j = none
    rw [elimRows_eq _ hj, if_neg (by omega), if_neg (by omega)]
    exact hswap j j le_rfl le_rfl hj hj

/-- After a zero pivot nothing is defined. -/
theorem elimCol_zero {algo : Algo} {dim j : ℕ} {s r : St (Option K)} (hj : j < dim)
    (hp : pivot (exactScalar comp) algo dim s.M j = .ok j) (hz : s.M j j = some 0)
    (h : elimCol (exactScalar comp) algo dim j s = .ok r) :
    Dead dim (j + 1) r.M ∧ r.M j j = some 0 := by
  unfold elimCol at h
  rw [hp] at h
  simp only [bind, Except.bind, pure, Except.pure, if_true, Except.ok.injEq] at h
  subst h
  refine ⟨?_, ?_⟩
  · intro a b h1 h2 h3 h4
    show loop (j + 1) dim (elimRow (exactScalar comp) dim j) _ a b = none
    rw [elimRows_eq _ hj, if_neg (by omega), if_pos ⟨by omega, h3, by omega, h4⟩, hz]
    cases s.M a b <;> cases s.M a j <;> simp [exactScalar]
  · show loop (j + 1) dim (elimRow (exactScalar comp) dim j) _ j j = some 0
    rw [elimRows_eq _ hj, if_neg (by omega), if_neg (by omega)]
    exact hz

/-- The possible outcomes of the elimination on exact scalars. -/
theorem eliminateGauss_exact (algo : Algo) (dim : ℕ) (A : ℕ → ℕ → K) (b : ℕ → K)
    (M : ℕ → ℕ → Option K) (bb : ℕ → Option K) (hc : ∀ v, comp v < unsignedMax)
    (hM : ∀ i k, i < dim → k < dim → M i k = some (A i k)) (hb : ∀ i, i < dim → bb i = some (b i)) :
    (∃ r B m β, eliminateGauss (exactScalar comp) algo dim M bb = .ok r ∧
      Inv IsVal dim A b (dim - 1) r B m β) ∨
    (algo = .gauss ∧ det dim A = 0 ∧
      eliminateGauss (exactScalar comp) algo dim M bb = .error .invalidArgument) ∨
    (algo = .gaussLCPivot ∧ det dim A = 0 ∧ ∃ r j,
      eliminateGauss (exactScalar comp) algo dim M bb = .ok r ∧ j + 1 < dim ∧ r.M j j = some 0 ∧
      r.M (dim - 1) (dim - 1) = none) := by
  have dead : ∀ n lo s, dim - 1 - lo = n → lo ≤ dim - 1 → 0 < dim → Dead dim lo s.M →
      ∃ r, loopM lo (dim - 1) (elimCol (exactScalar comp) algo dim) s = .ok r ∧
        r.M (dim - 1) (dim - 1) = none := by
    intro n
    induction n with
    | zero =>
      intro lo s hn hlo hdim hd
      refine ⟨s, loopM_of_le (by omega) _ _, hd _ _ (by omega) (by omega) (by omega) (by omega)⟩
    | succ n ih =>
      intro lo s hn hlo hdim hd
      obtain ⟨t, ht, hd', _⟩ := elimCol_dead comp (algo := algo) (by omega : lo < dim) hc hd
      obtain ⟨r, hr⟩ := ih (lo + 1) t (by omega) (by omega) hdim hd'
      refine ⟨r, ?_, hr.2⟩
      rw [loopM_front (by omega), ht]
      exact hr.1
  have key : ∀ n lo s, dim - 1 - lo = n → lo ≤ dim - 1 →
      (∃ B m β, Inv IsVal dim A b lo s B m β) →
      (∃ r B m β, loopM lo (dim - 1) (elimCol (exactScalar comp) algo dim) s = .ok r ∧
        Inv IsVal dim A b (dim - 1) r B m β) ∨
      (algo = .gauss ∧ det dim A = 0 ∧
        loopM lo (dim - 1) (elimCol (exactScalar comp) algo dim) s = .error .invalidArgument) ∨
      (algo = .gaussLCPivot ∧ det dim A = 0 ∧ ∃ r j,
        loopM lo (dim - 1) (elimCol (exactScalar comp) algo dim) s = .ok r ∧ j + 1 < dim ∧
        r.M j j = some 0 ∧ r.M (dim - 1) (dim - 1) = none) := by
    intro n
    induction n with
    | zero =>
      intro lo s hn hlo ⟨B, m, β, hi⟩
      have : lo = dim - 1 := by omega
      refine Or.inl ⟨s, B, m, β, loopM_of_le (by omega) _ _, ?_⟩
      rw [← this]; exact hi
    | succ n ih =>
      intro lo s hn hlo ⟨B, m, β, hi⟩
      have hlod : lo < dim := by omega
      rw [loopM_front (by omega)]
      rcases pivot_cases (exactScalar comp) algo dim s.M lo hlod hc with
        ⟨p, hp, hp1, hp2, hz⟩ | ⟨hz, hrest⟩
      · have hne : m p lo ≠ 0 := by
          intro e
          have := hi.valM p lo hp2 hlod
          rw [e] at this
          rw [(exact_isZero comp).2 this] at hz
          cases hz
        obtain ⟨r, B', m', β', h1, h2⟩ := hi.elimCol (exactScalar comp) IsVal (exact_sound comp)
          hlod hp hp1 hp2 hne
        rw [h1]
        exact ih (lo + 1) r (by omega) (by omega) ⟨B', m', β', h2⟩
      · have hz' : ∀ i, lo ≤ i → i < dim → m i lo = 0 := by
          intro i h1 h2
          have a := (exact_isZero comp).1 (hz i h1 h2)
          have b := hi.valM i lo h2 hlod
          unfold IsVal at b
          rw [a] at b
          exact (Option.some.inj b).symm
        have hdet := hi.det_zero IsVal hlod hz'
        rcases hrest with ⟨ha, hp⟩ | ⟨ha, hp⟩
        · right; left
          refine ⟨ha, hdet, ?_⟩
          unfold elimCol
          rw [hp]; rfl
        · right; right
          refine ⟨ha, hdet, ?_⟩
          have hcol : ∃ t, elimCol (exactScalar comp) algo dim lo s = .ok t := by
            unfold elimCol
            rw [hp]
            exact ⟨_, rfl⟩
          obtain ⟨t, ht⟩ := hcol
          have hz0 := (exact_isZero comp).1 (hz lo le_rfl hlod)
          obtain ⟨hd, ht0⟩ := elimCol_zero comp hlod hp hz0 ht
          obtain ⟨r, hr, hr'⟩ := dead _ (lo + 1) t rfl (by omega) (by omega) hd
          refine ⟨r, lo, ?_, by omega, ?_, hr'⟩
          · rw [ht]; exact hr
          · rw [elim_frozen (exactScalar comp) _ (lo + 1) t r rfl hr lo lo (by omega)]
            exact ht0
  exact key _ 0 _ rfl (by omega) ⟨A, A, b, Inv.init IsVal hM hb⟩

theorem backStep_cases {dim i : ℕ} {M : ℕ → ℕ → Option K} {b x : ℕ → Option K} :
    (M i i ≠ some 0 ∧ ∃ r, backStep (exactScalar comp) dim M b i x = .ok r) ∨
    (M i i = some 0 ∧ backStep (exactScalar comp) dim M b i x = .error .invalidArgument) := by
  by_cases h : M i i = some 0
  · right
    refine ⟨h, ?_⟩
    unfold backStep
    simp [exactScalar, h]
  · left
    refine ⟨h, ?_⟩
    unfold backStep
    simp [exactScalar, h]

theorem back_cases {dim : ℕ} {M : ℕ → ℕ → Option K} {b : ℕ → Option K} : ∀ n x,
    ((∀ i, i < n → M i i ≠ some 0) ∧
      ∃ r, loopDownM (backStep (exactScalar comp) dim M b) n x = .ok r) ∨
    ((∃ i, i < n ∧ M i i = some 0) ∧
      loopDownM (backStep (exactScalar comp) dim M b) n x = .error .invalidArgument) := by
  intro n
  induction n with
  | zero => intro x; left; exact ⟨by omega, x, rfl⟩
  | succ n ih =>
    intro x
    simp only [loopDownM]
    rcases backStep_cases comp (dim := dim) (i := n) (M := M) (b := b) (x := x) with
      ⟨h1, r, h2⟩ | ⟨h1, h2⟩
    · rw [h2]
      rcases ih r with ⟨g1, g2⟩ | ⟨⟨i, hi, g1⟩, g2⟩
      · left
        refine ⟨?_, g2⟩
        intro i hi
        rcases Nat.lt_or_ge i n with h | h
        · exact g1 i h
        · have : i = n := by omega
          subst this; exact h1
      · right; exact ⟨⟨i, by omega, g1⟩, g2⟩
    · right
      rw [h2]
      exact ⟨⟨n, by omega, h1⟩, rfl⟩

/-- Elimination followed by substitution. -/
theorem solve_exact (algo : Algo) (dim : ℕ) (A : ℕ → ℕ → K) (b : ℕ → K)
    (M : ℕ → ℕ → Option K) (bb x : ℕ → Option K) (hc : ∀ v, comp v < unsignedMax)
    (hM : ∀ i k, i < dim → k < dim → M i k = some (A i k)) (hb : ∀ i, i < dim → bb i = some (b i)) :
    (det dim A ≠ 0 ∧ ∃ r z, (do
        let s ← eliminateGauss (exactScalar comp) algo dim M bb
        computeSolution (exactScalar comp) dim s.M s.b x) = .ok r ∧
        (∀ i, i < dim → r i = some (z i)) ∧ Solves dim A b z) ∨
    (det dim A = 0 ∧ (do
        let s ← eliminateGauss (exactScalar comp) algo dim M bb
        computeSolution (exactScalar comp) dim s.M s.b x) = .error .invalidArgument) := by
  rcases eliminateGauss_exact comp algo dim A b M bb hc hM hb with
    ⟨r, B, m, β, hr, hi⟩ | ⟨_, hd, hr⟩ | ⟨_, hd, r, j, hr, hj, hz, _⟩
  · rw [hr]
    show _ ∨ (_ ∧ computeSolution _ _ _ _ _ = _)
    have hdet := hi.det_final IsVal (by omega)
    have hne : ((-1 : K)) ^ r.swaps ≠ 0 := pow_ne_zero _ (by norm_num)
    rcases back_cases comp (dim := dim) (M := r.M) (b := forward (exactScalar comp) dim r.M r.b) dim
      (loop 0 dim (fun i x => set1 x i (exactScalar comp).zero) x) with ⟨h1, q, h2⟩ | ⟨⟨i, hi', h1⟩, h2⟩
    · left
      have hd : ∀ i, i < dim → m i i ≠ 0 := by
        intro i hi' e
        have := hi.valM i i hi' hi'
        rw [e] at this
        exact h1 i hi' this
      refine ⟨?_, q, ?_⟩
      · intro e
        rw [e, mul_zero] at hdet
        exact (Finset.prod_ne_zero_iff.2 (fun i hi' => hd i (Finset.mem_range.1 hi'))) hdet.symm
      · obtain ⟨z, hz1, hz2⟩ := hi.computeSolution (exactScalar comp) IsVal (exact_sound comp)
          (by omega) hd h2
        exact ⟨z, h2, hz1, hz2⟩
    · right
      refine ⟨?_, h2⟩
      have : m i i = 0 := by
        have := hi.valM i i hi' hi'
        unfold IsVal at this
        rw [h1] at this
        exact (Option.some.inj this).symm
      rw [Finset.prod_eq_zero (f := fun i => m i i) (Finset.mem_range.2 hi') this] at hdet
      rcases mul_eq_zero.1 hdet with h | h
      · exact absurd h hne
      · exact h
  · right
    rw [hr]
    exact ⟨hd, rfl⟩
  · right
    refine ⟨hd, ?_⟩
    rw [hr]
    rcases back_cases comp (dim := dim) (M := r.M) (b := forward (exactScalar comp) dim r.M r.b) dim
      (loop 0 dim (fun i x => set1 x i (exactScalar comp).zero) x) with ⟨h1, _⟩ | ⟨_, h2⟩
    · exact absurd hz (h1 j (by omega))
    · exact h2

end exact

end Tsym.Lin
