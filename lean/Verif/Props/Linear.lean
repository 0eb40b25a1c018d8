import Verif.SolveApi
import Verif.Krfl
import Mathlib.LinearAlgebra.Matrix.ToLinearEquiv

/-!
# Properties of linear systems: C23, C24, C25, C26, C27

Two levels. *Exact*: entries are elements of any field, with an undefined element as the result of a
division by zero (`exactScalar`); the complexity function, which only steers the choice of pivots, is
arbitrary below the maximum of `unsigned`. *Symbolic*: any scalars whose operations respect a
relation "has the value" (`Sound`), for each assignment of numbers to the symbols; the equations hold
for all assignments under which no pivot has the value zero.
-/

set_option autoImplicit false

namespace Tsym.Lin

section exact

variable {K : Type} [Field K] [DecidableEq K]

/-- C23, exact entries. -/
theorem C23_solve (comp : Option K → ℕ) (hc : ∀ v, comp v < unsignedMax) (algo : Algo) (dim : ℕ)
    (skip : ℕ → Bool) (A : ℕ → ℕ → K) (b : ℕ → K) (M : ℕ → ℕ → Option K) (r x : ℕ → Option K)
    (hM : ∀ i k, Kept skip dim i → Kept skip dim k → M i k = some (A i k))
    (hr : ∀ i, Kept skip dim i → r i = some (b i)) :
    ((subMatrix skip dim A).det ≠ 0 → ∃ x' z, solve (exactScalar comp) M r x skip dim algo = .ok x' ∧
      (∀ i, Kept skip dim i → x' i = some (z i)) ∧ SolvesKept skip dim A b z ∧
      (∀ z', SolvesKept skip dim A b z' → ∀ i, Kept skip dim i → z' i = z i) ∧
      ∀ i, ¬ Kept skip dim i → x' i = x i) ∧
    ((subMatrix skip dim A).det = 0 →
      solve (exactScalar comp) M r x skip dim algo = .error .invalidArgument) := by
  have key := solve_exact comp algo (keep skip dim).length
    (fun i k => A (kp skip dim i) (kp skip dim k)) (fun i => b (kp skip dim i))
    (mat (exactScalar comp) (toStdVec2 M skip dim dim) (keep skip dim).length)
    (vec (exactScalar comp) (toStdVec1 r skip dim)) (fun _ => (exactScalar comp).zero) hc
    (fun i k hi hk => by rw [mat_toStdVec2 _ _ _ _ _ _ hi hk]; exact hM _ _ (kp_mem hi) (kp_mem hk))
    (fun i hi => by rw [vec_toStdVec1 _ _ _ _ _ hi]; exact hr _ (kp_mem hi))
  rw [det_keep] at key
  constructor
  · intro hd
    rcases key with ⟨_, q, z, hq, hz, hs⟩ | ⟨hd', _⟩
    · simp only [Except.bind_ok] at hq
      obtain ⟨s, hs1, hs2⟩ := hq
      obtain ⟨x', rest, h1, h2, h3⟩ := fromStdVec1_ok
        ((List.range (keep skip dim).length).map q) x skip dim (by simp)
      obtain ⟨w, hw⟩ := exists_of_kp skip dim 0 z
      have hsw : SolvesKept skip dim A b w := by
        rw [← solves_keep]
        intro i hi
        rw [← hs i hi]
        apply Finset.sum_congr rfl
        intro k hk
        simp only [hw k (Finset.mem_range.1 hk)]
      refine ⟨x', w, ?_, ?_, hsw, ?_, h3⟩
      · unfold solve detailSolve
        simp only [length_toStdVec1, hs1, hs2, bind, Except.bind, pure, Except.pure, h1]
      · rintro i ⟨hi, hi'⟩
        obtain ⟨k, hk, rfl⟩ := kp_surj hi hi'
        rw [map_keep_eq h2 hk, hz k hk, hw k hk]
      · rintro z' hz' i ⟨hi, hi'⟩
        obtain ⟨k, hk, rfl⟩ := kp_surj hi hi'
        rw [← det_keep] at hd
        have h0 := Matrix.eq_zero_of_mulVec_eq_zero
          (M := Matrix.of fun i k : Fin (keep skip dim).length => A (kp skip dim i) (kp skip dim k))
          (v := fun k => z' (kp skip dim k) - w (kp skip dim k)) hd (by
            funext i
            have e1 := (solves_keep skip dim A b z').2 hz' i i.2
            have e2 := (solves_keep skip dim A b w).2 hsw i i.2
            rw [Finset.sum_range] at e1 e2
            simp only [Matrix.mulVec, dotProduct, Matrix.of_apply, mul_sub,
              Finset.sum_sub_distrib]
            rw [e1, e2, sub_self]; rfl)
        have := congrFun h0 ⟨k, hk⟩
        exact sub_eq_zero.1 this
    · exact absurd hd' hd
  · intro hd
    rcases key with ⟨hd', _⟩ | ⟨_, he⟩
    · exact absurd hd hd'
    · unfold solve detailSolve
      simp only [length_toStdVec1]
      cases hs : eliminateGauss (exactScalar comp) algo (keep skip dim).length
          (mat (exactScalar comp) (toStdVec2 M skip dim dim) (keep skip dim).length)
          (vec (exactScalar comp) (toStdVec1 r skip dim)) with
      | error e =>
        rw [hs] at he
        exact he
      | ok s =>
        rw [hs] at he
        have he' : computeSolution (exactScalar comp) (keep skip dim).length s.M s.b
          (fun _ => (exactScalar comp).zero) = .error .invalidArgument := he
        simp only [bind, Except.bind, he']

/-- C24, exact entries. -/
theorem C24_determinant (comp : Option K → ℕ) (hc : ∀ v, comp v < unsignedMax) (algo : Algo) (dim : ℕ)
    (skip : ℕ → Bool) (A : ℕ → ℕ → K) (M : ℕ → ℕ → Option K)
    (hM : ∀ i k, Kept skip dim i → Kept skip dim k → M i k = some (A i k)) :
    (∀ d, determinant (exactScalar comp) M skip dim algo = .ok (some d) →
      d = (subMatrix skip dim A).det) ∧
    ((subMatrix skip dim A).det ≠ 0 →
      determinant (exactScalar comp) M skip dim algo = .ok (some (subMatrix skip dim A).det)) := by
  have hdet : ∀ {r : St (Option K)} {B m β}, Inv IsVal (keep skip dim).length
      (fun i k => A (kp skip dim i) (kp skip dim k)) (fun _ => 0) ((keep skip dim).length - 1) r B m β →
      detFromPlu (exactScalar comp) (keep skip dim).length r.M r.swaps =
        some (subMatrix skip dim A).det := by
    intro r B m β hi
    have h1 := detFromPlu_ok (exactScalar comp) IsVal (exact_sound comp)
      (fun i hi' => hi.valM i i hi' hi') r.swaps (dim := (keep skip dim).length)
    rw [← hi.det_final IsVal (by omega), ← mul_assoc, ← mul_pow] at h1
    simp only [mul_neg, mul_one, neg_neg, one_pow, one_mul] at h1
    rw [det_keep] at h1
    exact h1
  have key := eliminateGauss_exact comp algo (keep skip dim).length
    (fun i k => A (kp skip dim i) (kp skip dim k)) (fun _ => 0)
    (mat (exactScalar comp) (toStdVec2 M skip dim dim) (keep skip dim).length)
    (fun _ => (exactScalar comp).zero) hc
    (fun i k hi hk => by rw [mat_toStdVec2 _ _ _ _ _ _ hi hk]; exact hM _ _ (kp_mem hi) (kp_mem hk))
    (fun i hi => rfl)
  unfold determinant detailDeterminant
  rw [countFalse_eq]
  rcases key with ⟨r, B, m, β, hr, hi⟩ | ⟨_, hd, hr⟩ | ⟨_, hd, r, j, hr, hj, hz, hn⟩
  · rw [hr]
    show (∀ d, Except.ok (detFromPlu _ _ _ _) = Except.ok (some d) → _) ∧
      (_ → Except.ok (detFromPlu _ _ _ _) = _)
    rw [hdet hi]
    refine ⟨?_, fun _ => rfl⟩
    intro d h
    cases h; rfl
  · rw [det_keep] at hd
    rw [hr]
    refine ⟨?_, fun h => absurd hd h⟩
    intro d h; cases h
  · rw [det_keep] at hd
    refine ⟨?_, fun h => absurd hd h⟩
    intro d h
    rw [hr] at h
    have h' : detFromPlu (exactScalar comp) (keep skip dim).length r.M r.swaps = some d := by
      simp only [bind, Except.bind, pure, Except.pure, Except.ok.injEq] at h
      exact h
    -- a product with an undefined factor is undefined
    exfalso
    have hn' : detFromPlu (exactScalar comp) (keep skip dim).length r.M r.swaps = none := by
      unfold detFromPlu
      have e : (keep skip dim).length = ((keep skip dim).length - 1) + 1 := by omega
      conv_lhs => rw [e]
      rw [loop_succ (by omega), hn]
      show id (do pure ((← (_ : Option K)) * (← (none : Option K)))) = none
      simp
    rw [hn'] at h'
    cases h'

/-- C25, exact entries. -/
theorem C25_invert (comp : Option K → ℕ) (hc : ∀ v, comp v < unsignedMax) (algo : Algo) (dim : ℕ)
    (skip : ℕ → Bool) (A : ℕ → ℕ → K) (M : ℕ → ℕ → Option K)
    (hM : ∀ i k, Kept skip dim i → Kept skip dim k → M i k = some (A i k)) :
    ((subMatrix skip dim A).det ≠ 0 → ∃ M' Z, invert (exactScalar comp) M skip dim algo = .ok M' ∧
      (∀ i k, Kept skip dim i → Kept skip dim k → M' i k = some (Z i k)) ∧
      subMatrix skip dim Z = (subMatrix skip dim A)⁻¹ ∧
      ∀ i k, ¬ (Kept skip dim i ∧ Kept skip dim k) → M' i k = M i k) ∧
    ((subMatrix skip dim A).det = 0 →
      invert (exactScalar comp) M skip dim algo = .error .invalidArgument) := by
  set n := (keep skip dim).length with hn
  set A' : ℕ → ℕ → K := fun i k => A (kp skip dim i) (kp skip dim k) with hA'
  have col := fun c : ℕ => solve_exact comp algo n A' (fun j => if c = j then 1 else 0)
    (mat (exactScalar comp) (toStdVec2 M skip dim dim) n)
    (fun j => if c = j then (exactScalar comp).one else (exactScalar comp).zero)
    (fun _ => (exactScalar comp).zero) hc
    (fun i k hi hk => by rw [mat_toStdVec2 _ _ _ _ _ _ hi hk]; exact hM _ _ (kp_mem hi) (kp_mem hk))
    (fun i hi => by split <;> rfl)
  have hd0 : det n A' = (subMatrix skip dim A).det := det_keep skip dim A
  rw [hd0] at col
  constructor
  · intro hd
    have key := loopM_ok (hi := n)
      (f := invertColumn (exactScalar comp) (toStdVec2 M skip dim dim) n algo)
      (fun c inv => ∃ Z : ℕ → ℕ → K, ∀ k, k < c → (∀ i, i < n → inv i k = some (Z i k)) ∧
        Solves n A' (fun j => if k = j then 1 else 0) (fun i => Z i k))
      (by
        intro c hc' inv ⟨Z, hZ⟩
        rcases col c with ⟨_, q, z, hq, hz, hs⟩ | ⟨h, _⟩
        · simp only [Except.bind_ok] at hq
          obtain ⟨s, hs1, hs2⟩ := hq
          refine ⟨loop 0 n (fun r inv => set inv r c (q r)) inv, ?_, ?_⟩
          · unfold invertColumn
            simp only [hs1, hs2, bind, Except.bind, pure, Except.pure]
          · have hl := loop_inv (lo := 0) (hi := n) (by omega) (f := fun r inv => set inv r c (q r))
              (s := inv) (fun m inv' => ∀ a b, inv' a b = if b = c ∧ a < m then q a else inv a b)
              (by intro a b; rw [if_neg (by omega)])
              (by
                intro i _ _ inv' h a b
                simp only [set]
                by_cases hab : a = i ∧ b = c
                · rw [if_pos hab, if_pos ⟨hab.2, by omega⟩, hab.1]
                · rw [if_neg hab, h]
                  have : (b = c ∧ a < i) ↔ (b = c ∧ a < i + 1) := by
                    constructor
                    · rintro ⟨h1, h2⟩; exact ⟨h1, by omega⟩
                    · rintro ⟨h1, h2⟩
                      refine ⟨h1, ?_⟩
                      rcases Nat.lt_or_ge a i with h3 | h3
                      · exact h3
                      · exact absurd ⟨by omega, h1⟩ hab
                  simp only [this])
            refine ⟨fun i k => if k = c then z i else Z i k, ?_⟩
            intro k hk
            by_cases hkc : k = c
            · subst hkc
              refine ⟨?_, ?_⟩
              · intro i hi
                rw [hl i k, if_pos ⟨rfl, hi⟩, hz i hi]; simp
              · simpa using hs
            · obtain ⟨g1, g2⟩ := hZ k (by omega)
              refine ⟨?_, ?_⟩
              · intro i hi
                rw [hl i k, if_neg (by tauto), g1 i hi]; simp [hkc]
              · simpa [hkc] using g2
        · exact absurd h hd)
      n 0 (fun _ _ => (exactScalar comp).zero) (by omega) (by omega) ⟨fun _ _ => 0, by omega⟩
    obtain ⟨inv, hinv, Z, hZ⟩ := key
    obtain ⟨M', rest, h1, h2, h3⟩ := fromStdVec2_ok
      ((List.range n).flatMap (fun i => (List.range n).map (inv i))) M skip dim
      (by simp [hn])
    obtain ⟨W, hW⟩ := exists_of_kp skip dim (fun _ => 0) (fun i =>
      (exists_of_kp skip dim 0 (fun k => Z i k)).choose)
    have hW' : ∀ i k, i < n → k < n → W (kp skip dim i) (kp skip dim k) = Z i k := by
      intro i k hi hk
      rw [hW i hi]
      exact (exists_of_kp skip dim 0 (fun k => Z i k)).choose_spec k hk
    refine ⟨M', W, ?_, ?_, ?_, h3⟩
    · unfold invert detailInvert
      rw [countFalse_eq, ← hn]
      simp only [hinv, bind, Except.bind, pure, Except.pure, h1]
    · rintro i k ⟨hi, hi'⟩ ⟨hk, hk'⟩
      obtain ⟨a, ha, rfl⟩ := kp_surj hi hi'
      obtain ⟨c, hc', rfl⟩ := kp_surj hk hk'
      rw [flatMap_keep_eq h2 ha hc', (hZ c hc').1 a ha, hW' a c ha hc']
    · symm
      apply Matrix.inv_eq_right_inv
      have : (subMatrix skip dim A * subMatrix skip dim W).submatrix (keepEquiv skip dim)
          (keepEquiv skip dim) = 1 := by
        rw [← Matrix.submatrix_mul_equiv _ _ _ (keepEquiv skip dim)]
        ext i k
        have hs := (hZ k k.2).2 i i.2
        rw [Finset.sum_range] at hs
        rw [Matrix.mul_apply, Matrix.one_apply]
        have e : (if i = k then (1 : K) else 0) = if (k : ℕ) = (i : ℕ) then 1 else 0 := by
          by_cases h : i = k
          · subst h; simp
          · rw [if_neg h, if_neg (fun e => h (Fin.ext e.symm))]
        rw [e]
        refine Eq.trans ?_ hs
        apply Finset.sum_congr rfl
        intro l _
        show A (kp skip dim i) (kp skip dim l) * W (kp skip dim l) (kp skip dim k) = _
        rw [hW' l k l.2 k.2]
      have h2 := congrArg (fun Q => Q.submatrix (keepEquiv skip dim).symm (keepEquiv skip dim).symm) this
      simpa using h2
  · intro hd
    unfold invert detailInvert
    rw [countFalse_eq, ← hn]
    have hpos : 0 < n := by
      rcases Nat.eq_zero_or_pos n with h | h
      · exfalso
        rw [← hd0] at hd
        rw [h] at hd
        simp [det] at hd
      · exact h
    rw [loopM_front hpos]
    rcases col 0 with ⟨hd', _⟩ | ⟨_, he⟩
    · exact absurd hd hd'
    · have : invertColumn (exactScalar comp) (toStdVec2 M skip dim dim) n algo 0
          (fun _ _ => (exactScalar comp).zero) = .error .invalidArgument := by
        unfold invertColumn
        cases hs : eliminateGauss (exactScalar comp) algo n
            (mat (exactScalar comp) (toStdVec2 M skip dim dim) n)
            (fun j => if 0 = j then (exactScalar comp).one else (exactScalar comp).zero) with
        | error e =>
          rw [hs] at he
          cases he
          simp only [hs, bind, Except.bind]
        | ok s =>
          rw [hs] at he
          have he' : computeSolution (exactScalar comp) n s.M s.b
            (fun _ => (exactScalar comp).zero) = .error .invalidArgument := he
          simp only [hs, bind, Except.bind, he']
      rw [this]
      rfl

/-- C26 for `solve` and `invert`: an exception for each singular matrix. -/
theorem C26_solve_invert_partial (comp : Option K → ℕ) (hc : ∀ v, comp v < unsignedMax) (algo : Algo)
    (dim : ℕ) (skip : ℕ → Bool) (A : ℕ → ℕ → K) (b : ℕ → K) (M : ℕ → ℕ → Option K)
    (r x : ℕ → Option K) (hM : ∀ i k, Kept skip dim i → Kept skip dim k → M i k = some (A i k))
    (hr : ∀ i, Kept skip dim i → r i = some (b i)) (hd : (subMatrix skip dim A).det = 0) :
    solve (exactScalar comp) M r x skip dim algo = .error .invalidArgument ∧
      invert (exactScalar comp) M skip dim algo = .error .invalidArgument :=
  ⟨(C23_solve comp hc algo dim skip A b M r x hM hr).2 hd,
    (C25_invert comp hc algo dim skip A M hM).2 hd⟩

/-- C26 for `determinant`: a singular matrix gives an exception (first pivot rule only), the undefined
element (second rule only) or zero, but never another value. -/
theorem C26_determinant_partial (comp : Option K → ℕ) (hc : ∀ v, comp v < unsignedMax) (algo : Algo)
    (dim : ℕ) (skip : ℕ → Bool) (A : ℕ → ℕ → K) (M : ℕ → ℕ → Option K)
    (hM : ∀ i k, Kept skip dim i → Kept skip dim k → M i k = some (A i k))
    (hd : (subMatrix skip dim A).det = 0) :
    (algo = .gauss ∧ determinant (exactScalar comp) M skip dim algo = .error .invalidArgument) ∨
    (algo = .gaussLCPivot ∧ determinant (exactScalar comp) M skip dim algo = .ok none) ∨
    determinant (exactScalar comp) M skip dim algo = .ok (some 0) := by
  have key := eliminateGauss_exact comp algo (keep skip dim).length
    (fun i k => A (kp skip dim i) (kp skip dim k)) (fun _ => 0)
    (mat (exactScalar comp) (toStdVec2 M skip dim dim) (keep skip dim).length)
    (fun _ => (exactScalar comp).zero) hc
    (fun i k hi hk => by rw [mat_toStdVec2 _ _ _ _ _ _ hi hk]; exact hM _ _ (kp_mem hi) (kp_mem hk))
    (fun i hi => rfl)
  have hdef := (C24_determinant comp hc algo dim skip A M hM).1
  rcases h : determinant (exactScalar comp) M skip dim algo with e | d
  · left
    unfold determinant detailDeterminant at h
    rw [countFalse_eq] at h
    rcases key with ⟨r, B, m, β, hr, hi⟩ | ⟨ha, _, hr⟩ | ⟨_, _, r, j, hr, _⟩
    · rw [hr] at h; cases h
    · rw [hr] at h; cases h; exact ⟨ha, rfl⟩
    · rw [hr] at h; cases h
  · cases d with
    | some d => right; right; rw [hdef d h, hd]
    | none =>
      right; left
      unfold determinant detailDeterminant at h
      rw [countFalse_eq] at h
      rcases key with ⟨r, B, m, β, hr, hi⟩ | ⟨ha, _, hr⟩ | ⟨ha, _, r, j, hr, _⟩
      · exfalso
        rw [hr] at h
        have h1 := detFromPlu_ok (exactScalar comp) IsVal (exact_sound comp)
          (fun i hi' => hi.valM i i hi' hi') r.swaps (dim := (keep skip dim).length)
        simp only [bind, Except.bind, pure, Except.pure, Except.ok.injEq] at h
        unfold IsVal at h1
        rw [h] at h1
        cases h1
      · rw [hr] at h; cases h
      · exact ⟨ha, rfl⟩

end exact

/-! ## C27 -/

/-- C27, reading: for any scalars, `solve`, `determinant` and `invert` give the same for inputs that
agree on the kept rows and columns (for `invert`: they write the same values to the kept entries). -/
theorem C27_reads {V : Type} (S : Scalar V) (algo : Algo) (dim : ℕ) (skip : ℕ → Bool)
    (A A' : ℕ → ℕ → V) (b b' x : ℕ → V)
    (hA : ∀ i k, Kept skip dim i → Kept skip dim k → A i k = A' i k)
    (hb : ∀ i, Kept skip dim i → b i = b' i) :
    solve S A b x skip dim algo = solve S A' b' x skip dim algo ∧
    determinant S A skip dim algo = determinant S A' skip dim algo ∧
    ((∃ e, invert S A skip dim algo = .error e ∧ invert S A' skip dim algo = .error e) ∨
      ∃ R R', invert S A skip dim algo = .ok R ∧ invert S A' skip dim algo = .ok R' ∧
        ∀ i k, Kept skip dim i → Kept skip dim k → R i k = R' i k) := by
  have h2 : toStdVec2 A skip dim dim = toStdVec2 A' skip dim dim := by
    rw [toStdVec2_eq, toStdVec2_eq]
    apply List.flatMap_congr
    intro i hi
    apply List.map_congr_left
    intro k hk
    exact hA i k (mem_keep.1 hi) (mem_keep.1 hk)
  have h1 : toStdVec1 b skip dim = toStdVec1 b' skip dim := by
    rw [toStdVec1_eq, toStdVec1_eq]
    apply List.map_congr_left
    intro i hi
    exact hb i (mem_keep.1 hi)
  refine ⟨?_, ?_, ?_⟩
  · unfold solve; rw [h1, h2]
  · unfold determinant; rw [h2]
  · unfold invert
    rw [h2, countFalse_eq]
    cases hd : detailInvert S (toStdVec2 A' skip dim dim) (keep skip dim).length algo with
    | error e => left; exact ⟨e, rfl, rfl⟩
    | ok r =>
      right
      have hlen : r.length = (keep skip dim).length * (keep skip dim).length := by
        unfold detailInvert at hd
        simp only [Except.bind_ok, Except.pure_ok] at hd
        obtain ⟨inv, _, rfl⟩ := hd
        simp
      obtain ⟨d, rest, g1, g2, _⟩ := fromStdVec2_ok r A skip dim hlen
      obtain ⟨d', rest', g1', g2', _⟩ := fromStdVec2_ok r A' skip dim hlen
      refine ⟨d, d', ?_, ?_, ?_⟩
      · simp only [bind, Except.bind, pure, Except.pure, g1]
      · simp only [bind, Except.bind, pure, Except.pure, g1']
      · rintro i k ⟨hi, hi'⟩ ⟨hk, hk'⟩
        obtain ⟨a, ha, rfl⟩ := kp_surj hi hi'
        obtain ⟨c, hc, rfl⟩ := kp_surj hk hk'
        have e1 := flatMap_getElem? (keep skip dim).length (fun i => (keep skip dim).map (d i)) (by simp)
          (keep skip dim) a c ha hc
        have e2 := flatMap_getElem? (keep skip dim).length (fun i => (keep skip dim).map (d' i)) (by simp)
          (keep skip dim) a c ha hc
        rw [g2] at e1
        rw [g2', e1] at e2
        simp only [List.getElem?_map, List.getElem?_eq_getElem hc, Option.map_some,
          Option.some.injEq] at e2
        rw [kp_eq ha, kp_eq hc]
        exact e2

/-- C27, writing: for any scalars, entries outside the kept rows and columns are not changed, and
the only error is the exception for singular matrices (copying back never runs past the end of the
result). -/
theorem C27_writes {V : Type} (S : Scalar V) (algo : Algo) (dim : ℕ) (skip : ℕ → Bool)
    (A : ℕ → ℕ → V) (b x : ℕ → V) :
    (∀ x', solve S A b x skip dim algo = .ok x' → ∀ i, ¬ Kept skip dim i → x' i = x i) ∧
    (∀ A', invert S A skip dim algo = .ok A' →
      ∀ i k, ¬ (Kept skip dim i ∧ Kept skip dim k) → A' i k = A i k) ∧
    (∀ e, solve S A b x skip dim algo = .error e → e = .invalidArgument) ∧
    (∀ e, invert S A skip dim algo = .error e → e = .invalidArgument) := by
  have hl1 : ∀ r, detailSolve S (toStdVec2 A skip dim dim) (toStdVec1 b skip dim)
      (toStdVec1 b skip dim).length algo = .ok r → r.length = (keep skip dim).length := by
    intro r hr
    unfold detailSolve at hr
    simp only [Except.bind_ok, Except.pure_ok] at hr
    obtain ⟨s, _, y, _, rfl⟩ := hr
    simp [length_toStdVec1]
  have hl2 : ∀ r, detailInvert S (toStdVec2 A skip dim dim) (countFalse skip dim) algo = .ok r →
      r.length = (keep skip dim).length * (keep skip dim).length := by
    intro r hr
    unfold detailInvert at hr
    simp only [Except.bind_ok, Except.pure_ok] at hr
    obtain ⟨inv, _, rfl⟩ := hr
    simp [countFalse_eq]
  refine ⟨?_, ?_, ?_, ?_⟩
  · intro x' h
    unfold solve at h
    simp only [Except.bind_ok, Except.pure_ok] at h
    obtain ⟨r, hr, ⟨d, rest⟩, hd, rfl⟩ := h
    obtain ⟨d', rest', g1, _, g3⟩ := fromStdVec1_ok r x skip dim (hl1 r hr)
    rw [hd] at g1
    cases g1
    exact g3
  · intro A' h
    unfold invert at h
    simp only [Except.bind_ok, Except.pure_ok] at h
    obtain ⟨r, hr, ⟨d, rest⟩, hd, rfl⟩ := h
    obtain ⟨d', rest', g1, _, g3⟩ := fromStdVec2_ok r A skip dim (hl2 r hr)
    rw [hd] at g1
    cases g1
    exact g3
  · intro e h
    unfold solve at h
    cases hr : detailSolve S (toStdVec2 A skip dim dim) (toStdVec1 b skip dim)
      (toStdVec1 b skip dim).length algo with
    | error e' =>
      simp only [hr, bind, Except.bind] at h
      cases h
      unfold detailSolve at hr
      cases hs : eliminateGauss S algo (toStdVec1 b skip dim).length
          (mat S (toStdVec2 A skip dim dim) (toStdVec1 b skip dim).length)
          (vec S (toStdVec1 b skip dim)) with
      | error e' => rw [hs] at hr; cases hr; exact eliminateGauss_err S hs
      | ok s =>
        rw [hs] at hr
        cases hy : computeSolution S (toStdVec1 b skip dim).length s.M s.b (fun _ => S.zero) with
        | error e' =>
          simp only [hy, bind, Except.bind] at hr
          cases hr; exact computeSolution_err S hy
        | ok y =>
          simp only [hy, bind, Except.bind] at hr
          cases hr
    | ok r =>
      obtain ⟨d', rest', g1, _, g3⟩ := fromStdVec1_ok r x skip dim (hl1 r hr)
      simp only [hr, bind, Except.bind, g1, pure, Except.pure] at h
      cases h
  · intro e h
    unfold invert at h
    cases hr : detailInvert S (toStdVec2 A skip dim dim) (countFalse skip dim) algo with
    | error e' =>
      simp only [hr, bind, Except.bind] at h
      cases h
      unfold detailInvert at hr
      rcases loopM_cases (hi := countFalse skip dim)
        (f := invertColumn S (toStdVec2 A skip dim dim) (countFalse skip dim) algo) (fun _ _ => True)
        (fun _ _ _ _ _ _ => trivial) (countFalse skip dim) 0 (fun _ _ => S.zero)
        (by omega) (by omega) trivial with
        ⟨r, hr', _⟩ | ⟨i, t, e'', _, _, _, he, hr'⟩
      · rw [hr'] at hr; cases hr
      · rw [hr'] at hr
        cases hr
        unfold invertColumn at he
        simp only at he
        cases hs : eliminateGauss S algo (countFalse skip dim)
            (mat S (toStdVec2 A skip dim dim) (countFalse skip dim))
            (fun j => if i = j then S.one else S.zero) with
        | error e' => rw [hs] at he; cases he; exact eliminateGauss_err S hs
        | ok s =>
          rw [hs] at he
          cases hy : computeSolution S (countFalse skip dim) s.M s.b (fun _ => S.zero) with
          | error e' =>
            simp only [hy, bind, Except.bind] at he
            cases he; exact computeSolution_err S hy
          | ok y =>
            simp only [hy, bind, Except.bind] at he
            cases he
    | ok r =>
      obtain ⟨d', rest', g1, _, g3⟩ := fromStdVec2_ok r A skip dim (hl2 r hr)
      simp only [hr, bind, Except.bind, g1, pure, Except.pure] at h
      cases h

/-! ## Symbolic entries -/

section symbolic

variable {V K ι : Type} [Field K]

/-- C23, symbolic entries. If `solve` returns, there are pivots, none of them equal to zero as an
expression after simplification, such that the result solves the system for every assignment `σ`
under which no pivot has the value zero. -/
theorem C23_solve_symbolic (S : Scalar V) (R : ι → V → K → Prop) (hS : ∀ σ, Sound S (R σ))
    (algo : Algo) (dim : ℕ) (skip : ℕ → Bool)
    (A : ℕ → ℕ → V) (b x x' : ℕ → V) (h : solve S A b x skip dim algo = .ok x') :
    ∃ p : ℕ → V, (∀ i, i < countFalse skip dim → S.isZero (S.simplify (p i)) = false) ∧
      ∀ σ (a : ℕ → ℕ → K) (c : ℕ → K),
        (∀ i k, Kept skip dim i → Kept skip dim k → R σ (A i k) (a i k)) →
        (∀ i, Kept skip dim i → R σ (b i) (c i)) →
        (∀ i, i < countFalse skip dim → ∀ v, R σ (p i) v → v ≠ 0) →
        ∃ z : ℕ → K, (∀ i, Kept skip dim i → R σ (x' i) (z i)) ∧ SolvesKept skip dim a c z := by
  unfold solve at h
  simp only [Except.bind_ok, Except.pure_ok] at h
  obtain ⟨r, hr, ⟨d, rest⟩, hd, rfl⟩ := h
  unfold detailSolve at hr
  simp only [Except.bind_ok, Except.pure_ok, length_toStdVec1] at hr
  obtain ⟨s, hs, y, hy, rfl⟩ := hr
  rw [countFalse_eq]
  refine ⟨fun i => s.M i i, ?_, ?_⟩
  · -- the substitution has checked the diagonal
    have : ∀ n x r, loopDownM (backStep S (keep skip dim).length s.M
        (forward S (keep skip dim).length s.M s.b)) n x = .ok r →
        ∀ i, i < n → S.isZero (S.simplify (s.M i i)) = false := by
      intro n
      induction n with
      | zero => intro _ _ _ i hi; omega
      | succ n ih =>
        intro x r h i hi
        simp only [loopDownM, Except.bind_ok] at h
        obtain ⟨t, ht, h⟩ := h
        rcases Nat.lt_or_ge i n with hlt | hge
        · exact ih t r h i hlt
        · have : i = n := by omega
          subst this
          unfold backStep at ht
          simp only at ht
          split at ht
          · cases ht
          · rename_i hz; simpa using hz
    exact this _ _ _ hy
  · intro σ a c hA hb hp
    obtain ⟨B, m, β, hi⟩ := eliminateGauss_ok S (R σ) (hS σ)
      (A := fun i k => a (kp skip dim i) (kp skip dim k)) (b := fun i => c (kp skip dim i))
      (fun i k hi hk => by rw [mat_toStdVec2 _ _ _ _ _ _ hi hk]; exact hA _ _ (kp_mem hi) (kp_mem hk))
      (fun i hi => by rw [vec_toStdVec1 _ _ _ _ _ hi]; exact hb _ (kp_mem hi))
      hs (fun i hi => hp i (by omega))
    obtain ⟨z, hz1, hz2⟩ := hi.computeSolution S (R σ) (hS σ) (by omega)
      (fun i hi' => hp i hi' _ (hi.valM i i hi' hi')) hy
    obtain ⟨d', rest', g1, g2, _⟩ := fromStdVec1_ok
      ((List.range (keep skip dim).length).map y) x skip dim (by simp)
    rw [hd] at g1
    cases g1
    obtain ⟨w, hw⟩ := exists_of_kp skip dim 0 z
    refine ⟨w, ?_, ?_⟩
    · rintro i ⟨hi, hi'⟩
      obtain ⟨k, hk, rfl⟩ := kp_surj hi hi'
      show R σ (d (kp skip dim k)) _
      rw [map_keep_eq g2 hk, hw k hk]; exact hz1 k hk
    · rw [← solves_keep]
      intro i hi
      rw [← hz2 i hi]
      apply Finset.sum_congr rfl
      intro k hk
      simp only [hw k (Finset.mem_range.1 hk)]

/-- C24, symbolic entries. If `determinant` returns, there are pivots such that the result has the
value of the determinant for every assignment under which no pivot but the last has the value zero.
For the first pivot rule no such pivot is equal to zero as an expression. -/
theorem C24_determinant_symbolic (S : Scalar V) (R : ι → V → K → Prop) (hS : ∀ σ, Sound S (R σ))
    (algo : Algo) (dim : ℕ) (skip : ℕ → Bool)
    (A : ℕ → ℕ → V) (d : V) (h : determinant S A skip dim algo = .ok d) :
    ∃ p : ℕ → V, (algo = .gauss → ∀ i, i + 1 < countFalse skip dim → S.isZero (p i) = false) ∧
      ∀ σ (a : ℕ → ℕ → K), (∀ i k, Kept skip dim i → Kept skip dim k → R σ (A i k) (a i k)) →
        (∀ i, i + 1 < countFalse skip dim → ∀ v, R σ (p i) v → v ≠ 0) →
        R σ d (subMatrix skip dim a).det := by
  unfold determinant detailDeterminant at h
  rw [countFalse_eq] at h ⊢
  simp only [Except.bind_ok, Except.pure_ok] at h
  obtain ⟨s, hs, rfl⟩ := h
  refine ⟨fun i => s.M i i, ?_, ?_⟩
  · rintro rfl
    have : ∀ n lo t, (keep skip dim).length - 1 - lo = n →
        loopM lo ((keep skip dim).length - 1) (elimCol S .gauss (keep skip dim).length) t = .ok s →
        ∀ i, lo ≤ i → i + 1 < (keep skip dim).length → S.isZero (s.M i i) = false := by
      intro n
      induction n with
      | zero => intro lo t hn _ i h1 h2; omega
      | succ n ih =>
        intro lo t hn hl i h1 h2
        rw [loopM_front (by omega)] at hl
        simp only [Except.bind_ok] at hl
        obtain ⟨u, hu, hl⟩ := hl
        rcases Nat.eq_or_lt_of_le h1 with e | e
        · subst e
          have hlt : lo < (keep skip dim).length := by omega
          rw [elim_frozen S n (lo + 1) u s (by omega) hl lo lo (by omega)]
          unfold elimCol at hu
          simp only [Except.bind_ok, Except.pure_ok] at hu
          obtain ⟨p, hp, rfl⟩ := hu
          rcases firstNonZeroFrom_cases S t.M lo ((keep skip dim).length - lo) lo with ⟨q, hq1, hq2, hq3, hq4⟩ | ⟨hq, _⟩
          · change firstNonZeroFrom S t.M lo _ lo = _ at hp
            rw [hp] at hq1
            cases hq1
            show S.isZero (loop (lo + 1) (keep skip dim).length (elimRow S (keep skip dim).length lo) _ lo lo)
              = false
            rw [elimRows_eq S hlt, if_neg (by omega), if_neg (by omega)]
            split
            · rename_i e; rw [e] at hq4; exact hq4
            · rename_i hne
              show S.isZero (swapRows (keep skip dim).length t.M lo p lo lo) = false
              rw [swapRows_eq (fun e => hne e.symm), if_pos ⟨hlt, rfl⟩]
              exact hq4
          · change firstNonZeroFrom S t.M lo _ lo = _ at hp
            rw [hp] at hq; cases hq
        · exact ih (lo + 1) u (by omega) hl i e h2
    intro i hi
    exact this _ 0 _ rfl hs i (by omega) hi
  · intro σ a hA hp
    obtain ⟨B, m, β, hi⟩ := eliminateGauss_ok S (R σ) (hS σ)
      (A := fun i k => a (kp skip dim i) (kp skip dim k)) (b := fun i => 0)
      (fun i k hi hk => by rw [mat_toStdVec2 _ _ _ _ _ _ hi hk]; exact hA _ _ (kp_mem hi) (kp_mem hk))
      (fun i hi => (hS σ).zero)
      hs (fun i hi => hp i hi)
    have h1 := detFromPlu_ok S (R σ) (hS σ)
      (fun i hi' => hi.valM i i hi' hi') s.swaps (dim := (keep skip dim).length)
    rw [← hi.det_final (R σ) (by omega), ← mul_assoc, ← mul_pow] at h1
    simp only [mul_neg, mul_one, neg_neg, one_pow, one_mul] at h1
    rw [det_keep] at h1
    exact h1

end symbolic

/-! ## Witnesses -/

/-- Complexity for the examples. -/
def unitComp : Option ℚ → ℕ := fun _ => 1

theorem unitComp_lt : ∀ v, unitComp v < unsignedMax := by intro v; simp [unitComp, unsignedMax]

/-- A matrix with a zero at the first pivot, and a skipped second row and column. -/
def exA : ℕ → ℕ → ℚ := fun i k => ([[0, 7, 2], [7, 7, 7], [3, 7, 4]].getD i []).getD k 0
/-- The second row and column are skipped. -/
def exSkip : ℕ → Bool := fun i => i == 1
/-- A right hand side. -/
def exB : ℕ → ℚ := fun i => [4, 7, 11].getD i 0

/-- The system needs a row swap; its determinant, so the hypothesis of C23, C24, C25 holds. -/
example : (subMatrix exSkip 3 exA).det = -6 ∧ (subMatrix exSkip 3 exA).det ≠ 0 := by
  have h : (subMatrix exSkip 3 exA).det = -6 :=
    ((C24_determinant unitComp unitComp_lt .gauss 3 exSkip exA (fun i k => some (exA i k))
      (fun _ _ _ _ => rfl)).1 (-6) (by decide +kernel)).symm
  exact ⟨h, by rw [h]; norm_num⟩

example : (solve (exactScalar unitComp) (fun i k => some (exA i k)) (fun i => some (exB i))
    (fun _ => none) exSkip 3 .gauss).toOption.map (fun x => [x 0, x 1, x 2]) =
    some [some 1, none, some 2] := by decide +kernel

example : (invert (exactScalar unitComp) (fun i k => some (exA i k)) exSkip 3
    .gaussLCPivot).toOption.map (fun x => [[x 0 0, x 0 1, x 0 2], [x 1 0, x 1 1, x 1 2],
      [x 2 0, x 2 1, x 2 2]]) =
    some [[some (-2/3), some 7, some (1/3)], [some 7, some 7, some 7], [some (1/2), some 7, some 0]] := by
  decide +kernel

/-- The hypotheses of the symbolic theorems hold for exact scalars and the same system. -/
example : ∃ x', solve (exactScalar unitComp) (fun i k => some (exA i k)) (fun i => some (exB i))
      (fun _ => none) exSkip 3 .gauss = .ok x' ∧
    (∀ _ : Unit, Sound (exactScalar unitComp) IsVal) := by
  have h : (subMatrix exSkip 3 exA).det = -6 :=
    ((C24_determinant unitComp unitComp_lt .gauss 3 exSkip exA (fun i k => some (exA i k))
      (fun _ _ _ _ => rfl)).1 (-6) (by decide +kernel)).symm
  obtain ⟨x', _, h1, _⟩ := (C23_solve unitComp unitComp_lt .gauss 3 exSkip exA exB _ _ (fun _ => none)
    (fun _ _ _ _ => rfl) (fun _ _ => rfl)).1 (by rw [h]; norm_num)
  exact ⟨x', h1, fun _ => exact_sound unitComp⟩

/-- A singular matrix, as in C26. -/
example : (subMatrix defaultSkip 2 (fun _ _ => (0 : ℚ))).det = 0 := by
  rw [show subMatrix defaultSkip 2 (fun _ _ => (0 : ℚ)) = 0 from rfl]
  haveI : Nonempty {i : Fin 2 // defaultSkip i = false} := ⟨⟨⟨0, by omega⟩, rfl⟩⟩
  exact Matrix.det_zero

/-- C26 is false for `determinant`: the singular 1×1 matrix (0) gives 0 and no exception, under both
rules. -/
theorem C26_false_determinant (algo : Algo) :
    determinant (exactScalar unitComp) (fun _ _ => some 0) defaultSkip 1 algo = .ok (some 0) := by
  cases algo <;> decide +kernel

/-- With the default rule the result for a singular matrix may also be the undefined element. -/
theorem C26_false_determinant_undefined :
    determinant (exactScalar unitComp) (fun _ _ => some 0) defaultSkip 2 .gaussLCPivot = .ok none := by
  decide +kernel

end Tsym.Lin
