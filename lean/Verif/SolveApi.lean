import Verif.SolveThm
import Verif.LinSpec
import Mathlib.Data.Fintype.EquivFin

/-!
# Helper lemmas: the interface of the linear solver

Copying between user containers and working vectors, with skip fields.
-/

set_option autoImplicit false

namespace Tsym.Lin

open Finset

variable {V : Type}

/-- The indices that take part, in order. -/
def keep (skip : ℕ → Bool) (dim : ℕ) : List ℕ := (List.range dim).filter (fun i => !skip i)

/-- The `k`-th of them. -/
def kp (skip : ℕ → Bool) (dim k : ℕ) : ℕ := ((keep skip dim)[k]?).getD 0

theorem mem_keep {skip : ℕ → Bool} {dim i : ℕ} : i ∈ keep skip dim ↔ i < dim ∧ skip i = false := by
  simp [keep]

theorem keep_zero (skip : ℕ → Bool) : keep skip 0 = [] := rfl

theorem keep_succ (skip : ℕ → Bool) (n : ℕ) :
    keep skip (n + 1) = keep skip n ++ (if skip n then [] else [n]) := by
  unfold keep
  rw [List.range_succ, List.filter_append]
  cases h : skip n <;> simp [h]

theorem keep_nodup (skip : ℕ → Bool) (n : ℕ) : (keep skip n).Nodup :=
  List.Nodup.filter _ List.nodup_range

theorem countFalse_eq (skip : ℕ → Bool) (dim : ℕ) : countFalse skip dim = (keep skip dim).length := by
  simp [countFalse, keep, List.countP_eq_length_filter]

theorem kp_eq {skip : ℕ → Bool} {dim k : ℕ} (hk : k < (keep skip dim).length) :
    kp skip dim k = (keep skip dim)[k] := by
  simp [kp, hk]

theorem kp_mem {skip : ℕ → Bool} {dim k : ℕ} (hk : k < (keep skip dim).length) :
    kp skip dim k < dim ∧ skip (kp skip dim k) = false := by
  rw [kp_eq hk, ← mem_keep]; exact List.getElem_mem hk

theorem kp_inj {skip : ℕ → Bool} {dim k l : ℕ} (hk : k < (keep skip dim).length)
    (hl : l < (keep skip dim).length) (h : kp skip dim k = kp skip dim l) : k = l := by
  rw [kp_eq hk, kp_eq hl] at h
  exact (List.Nodup.getElem_inj_iff (keep_nodup skip dim)).1 h

theorem kp_surj {skip : ℕ → Bool} {dim i : ℕ} (hi : i < dim) (hs : skip i = false) :
    ∃ k, k < (keep skip dim).length ∧ kp skip dim k = i := by
  obtain ⟨k, hk, h⟩ := List.getElem_of_mem (mem_keep.2 ⟨hi, hs⟩)
  exact ⟨k, hk, by rw [kp_eq hk, h]⟩

theorem toStdVec1_eq (src : ℕ → V) (skip : ℕ → Bool) (dim : ℕ) :
    toStdVec1 src skip dim = (keep skip dim).map src := by
  unfold toStdVec1
  apply loop_inv (lo := 0) (hi := dim) (by omega) (fun n l => l = (keep skip n).map src) rfl
  rintro i _ _ l rfl
  rw [keep_succ]
  cases skip i <;> simp

theorem toStdVec2_row (row : ℕ → V) (skip : ℕ → Bool) (cols : ℕ) (l : List V) :
    loop 0 cols (fun j l => if skip j then l else l ++ [row j]) l = l ++ (keep skip cols).map row := by
  apply loop_inv (lo := 0) (hi := cols) (by omega) (fun n l' => l' = l ++ (keep skip n).map row)
    (by simp [keep])
  rintro i _ _ l rfl
  rw [keep_succ]
  cases skip i <;> simp

theorem toStdVec2_eq (src : ℕ → ℕ → V) (skip : ℕ → Bool) (rows cols : ℕ) :
    toStdVec2 src skip rows cols = (keep skip rows).flatMap (fun i => (keep skip cols).map (src i)) := by
  unfold toStdVec2
  apply loop_inv (lo := 0) (hi := rows) (by omega)
    (fun n l => l = (keep skip n).flatMap (fun i => (keep skip cols).map (src i))) rfl
  rintro i _ _ l rfl
  rw [keep_succ]
  cases skip i with
  | true => simp
  | false => simp only [Bool.false_eq_true, if_false, toStdVec2_row]; simp

theorem flatMap_getElem? (n : ℕ) (f : ℕ → List V) (hf : ∀ a, (f a).length = n) :
    ∀ (l : List ℕ) (i k : ℕ) (hi : i < l.length), k < n →
      (l.flatMap f)[i * n + k]? = (f l[i])[k]? := by
  intro l
  induction l with
  | nil => intro i k hi; simp at hi
  | cons a l ih =>
    intro i k hi hk
    rw [List.flatMap_cons]
    cases i with
    | zero =>
      rw [List.getElem?_append_left (by rw [hf]; omega)]
      simp
    | succ i =>
      rw [List.getElem?_append_right (by rw [hf]; rw [Nat.succ_mul]; omega), hf]
      have : (i + 1) * n + k - n = i * n + k := by rw [Nat.succ_mul]; omega
      rw [this, ih i k (by simpa using hi) hk]
      simp

theorem mat_toStdVec2 (S : Scalar V) (src : ℕ → ℕ → V) (skip : ℕ → Bool) (dim i k : ℕ)
    (hi : i < (keep skip dim).length) (hk : k < (keep skip dim).length) :
    mat S (toStdVec2 src skip dim dim) (keep skip dim).length i k =
      src (kp skip dim i) (kp skip dim k) := by
  unfold mat
  rw [toStdVec2_eq, flatMap_getElem? _ _ (by simp) _ i k hi hk, kp_eq hi, kp_eq hk]
  simp [hk]

theorem vec_toStdVec1 (S : Scalar V) (src : ℕ → V) (skip : ℕ → Bool) (dim i : ℕ)
    (hi : i < (keep skip dim).length) :
    vec S (toStdVec1 src skip dim) i = src (kp skip dim i) := by
  unfold vec
  rw [toStdVec1_eq, kp_eq hi]
  simp [hi]

theorem length_toStdVec1 (src : ℕ → V) (skip : ℕ → Bool) (dim : ℕ) :
    (toStdVec1 src skip dim).length = (keep skip dim).length := by simp [toStdVec1_eq]

/-- A loop whose steps succeed. -/
theorem loopM_ok {α : Type} {hi : ℕ} {f : ℕ → α → Except Err α} (P : ℕ → α → Prop)
    (hs : ∀ i, i < hi → ∀ s, P i s → ∃ r, f i s = .ok r ∧ P (i + 1) r) :
    ∀ n lo s, hi - lo = n → lo ≤ hi → P lo s → ∃ r, loopM lo hi f s = .ok r ∧ P hi r := by
  intro n
  induction n with
  | zero =>
    intro lo s hn hle hp
    have : lo = hi := by omega
    subst this
    exact ⟨s, loopM_of_le le_rfl f s, hp⟩
  | succ n ih =>
    intro lo s hn hle hp
    obtain ⟨r, hr, hr'⟩ := hs lo (by omega) s hp
    rw [loopM_front (by omega), hr]
    exact ih (lo + 1) r (by omega) (by omega) hr'

theorem keep_length_mono (skip : ℕ → Bool) {a b : ℕ} (h : a ≤ b) :
    (keep skip a).length ≤ (keep skip b).length := by
  induction b with
  | zero => have : a = 0 := by omega
            subst this; exact le_rfl
  | succ n ih =>
    rcases Nat.lt_or_ge a (n + 1) with h1 | h1
    · refine (ih (by omega)).trans ?_
      rw [keep_succ, List.length_append]; omega
    · have : a = n + 1 := by omega
      subst this; exact le_rfl

/-- Writing one row (or a vector) consumes as many values as there are kept indices. -/
theorem writeRow_ok {W : Type} (wr : W → ℕ → V → W) (rd : W → ℕ → V) (skip : ℕ → Bool) (dim : ℕ)
    (hwr : ∀ w j v a, rd (wr w j v) a = if a = j then v else rd w a) (src : List V) (w : W)
    (hlen : (keep skip dim).length ≤ src.length) :
    ∃ r, loopM 0 dim (fun j (s : W × List V) =>
      if skip j then .ok s
      else match s.2 with
        | [] => .error .ub
        | v :: vs => .ok (wr s.1 j v, vs)) (w, src) = .ok r ∧
      r.2 = src.drop (keep skip dim).length ∧
      (keep skip dim).map (rd r.1) = src.take (keep skip dim).length ∧
      (∀ a, a ∉ keep skip dim → rd r.1 a = rd w a) ∧
      (∃ g : List (ℕ × V), (∀ q ∈ g, q.1 ∈ keep skip dim) ∧
        r.1 = g.foldl (fun w q => wr w q.1 q.2) w) := by
  apply loopM_ok (fun n (r : W × List V) => r.2 = src.drop (keep skip n).length ∧
      (keep skip n).map (rd r.1) = src.take (keep skip n).length ∧
      (∀ a, a ∉ keep skip n → rd r.1 a = rd w a) ∧
      (∃ g : List (ℕ × V), (∀ q ∈ g, q.1 ∈ keep skip n) ∧
        r.1 = g.foldl (fun w q => wr w q.1 q.2) w)) ?_ dim 0 (w, src) (by omega) (by omega)
  · exact ⟨by simp [keep], by simp [keep], fun _ _ => rfl, [], by simp, rfl⟩
  · rintro j hj ⟨d, rest⟩ ⟨h1, h2, h3, g, hg1, hg2⟩
    simp only at h1 h2 h3 hg2
    rw [keep_succ]
    cases hsk : skip j with
    | true =>
      refine ⟨(d, rest), by simp, ?_⟩
      simp only [if_true, List.append_nil]
      exact ⟨h1, h2, h3, g, hg1, hg2⟩
    | false =>
      have hlt : (keep skip j).length < src.length := by
        have := keep_length_mono skip (show j + 1 ≤ dim by omega)
        rw [keep_succ] at this
        simp [hsk] at this
        omega
      have hdrop : src.drop (keep skip j).length =
          src[(keep skip j).length] :: src.drop ((keep skip j).length + 1) :=
        List.drop_eq_getElem_cons hlt
      rw [hdrop] at h1
      subst h1
      refine ⟨(wr d j src[(keep skip j).length], src.drop ((keep skip j).length + 1)), by simp, ?_⟩
      have hjn : j ∉ keep skip j := by rw [mem_keep]; omega
      refine ⟨by simp, ?_, ?_, g ++ [(j, src[(keep skip j).length])], ?_, ?_⟩
      · have e : (keep skip j).map (rd (wr d j src[(keep skip j).length])) =
            (keep skip j).map (rd d) := by
          apply List.map_congr_left
          intro a ha
          rw [hwr, if_neg]
          rintro rfl; exact hjn ha
        simp only [Bool.false_eq_true, if_false, List.map_append, List.map_cons, List.map_nil,
          List.length_append, List.length_cons, List.length_nil, zero_add]
        rw [e, h2, hwr, if_pos rfl, List.take_succ_eq_append_getElem hlt]
      · intro a ha
        simp only [Bool.false_eq_true, if_false, List.mem_append, List.mem_singleton, not_or] at ha
        rw [hwr, if_neg ha.2, h3 a ha.1]
      · intro q hq
        simp only [Bool.false_eq_true, if_false, List.mem_append, List.mem_singleton] at hq ⊢
        rcases hq with hq | rfl
        · exact Or.inl (hg1 q hq)
        · exact Or.inr rfl
      · rw [List.foldl_append, ← hg2]; rfl

theorem fromStdVec1_ok (src : List V) (dest : ℕ → V) (skip : ℕ → Bool) (dim : ℕ)
    (hlen : src.length = (keep skip dim).length) :
    ∃ d rest, fromStdVec1 src dest skip dim = .ok (d, rest) ∧ (keep skip dim).map d = src ∧
      ∀ a, ¬ (a < dim ∧ skip a = false) → d a = dest a := by
  obtain ⟨r, h1, _, h3, h4, _⟩ := writeRow_ok (W := ℕ → V) (fun w j v => set1 w j v) (fun w => w) skip dim
    (fun w j v a => rfl) src dest hlen.ge
  refine ⟨r.1, r.2, h1, ?_, ?_⟩
  · rw [← hlen, List.take_length] at h3; exact h3
  · intro a ha; exact h4 a (by rw [mem_keep]; exact ha)

theorem fromStdVec2_ok (src : List V) (dest : ℕ → ℕ → V) (skip : ℕ → Bool) (dim : ℕ)
    (hlen : src.length = (keep skip dim).length * (keep skip dim).length) :
    ∃ d rest, fromStdVec2 src dest skip dim dim = .ok (d, rest) ∧
      (keep skip dim).flatMap (fun i => (keep skip dim).map (d i)) = src ∧
      ∀ a b, ¬ ((a < dim ∧ skip a = false) ∧ (b < dim ∧ skip b = false)) → d a b = dest a b := by
  have key := loopM_ok (hi := dim) (f := fun i (s : (ℕ → ℕ → V) × List V) =>
    if skip i then .ok s
    else loopM 0 dim (fun j (s : (ℕ → ℕ → V) × List V) =>
      if skip j then .ok s
      else match s.2 with
        | [] => .error .ub
        | v :: vs => .ok (set s.1 i j v, vs)) s)
    (fun n r => r.2 = src.drop ((keep skip n).length * (keep skip dim).length) ∧
      (keep skip n).flatMap (fun i => (keep skip dim).map (r.1 i)) =
        src.take ((keep skip n).length * (keep skip dim).length) ∧
      ∀ a b, ¬ (a ∈ keep skip n ∧ b ∈ keep skip dim) → r.1 a b = dest a b)
    (by
      rintro i hi ⟨d, rest⟩ ⟨h1, h2, h3⟩
      simp only at h1 h2 h3
      rw [keep_succ]
      cases hsk : skip i with
      | true =>
        refine ⟨(d, rest), by simp, ?_⟩
        simp only [if_true, List.append_nil]
        exact ⟨h1, h2, h3⟩
      | false =>
        have hle : (keep skip i).length + 1 ≤ (keep skip dim).length := by
          have := keep_length_mono skip (show i + 1 ≤ dim by omega)
          rw [keep_succ] at this
          simpa [hsk] using this
        have hmul := Nat.mul_le_mul_right (keep skip dim).length hle
        rw [Nat.succ_mul] at hmul
        obtain ⟨r, g1, g2, g3, g4, g, gg1, gg2⟩ := writeRow_ok (W := ℕ → ℕ → V)
          (fun w j v => set w i j v) (fun w => w i) skip dim
          (fun w j v a => by simp [set]) rest d (by rw [h1, List.length_drop]; omega)
        have hother : ∀ a b, a ≠ i → r.1 a b = d a b := by
          intro a b ha
          rw [gg2]
          have hb : ∀ (g : List (ℕ × V)) (d : ℕ → ℕ → V),
              (g.foldl (fun w q => set w i q.1 q.2) d) a b = d a b := by
            intro g
            induction g with
            | nil => intro d; rfl
            | cons q g ih =>
              intro d
              rw [List.foldl_cons, ih]
              simp only [set]
              rw [if_neg (by tauto)]
          exact hb g d
        have hin : i ∉ keep skip i := by rw [mem_keep]; omega
        refine ⟨r, by simpa using g1, ?_, ?_, ?_⟩
        · rw [g2, h1, List.drop_drop]
          simp [Nat.succ_mul]
        · simp only [Bool.false_eq_true, if_false, List.flatMap_append, List.flatMap_cons,
            List.flatMap_nil, List.append_nil, List.length_append, List.length_cons,
            List.length_nil, zero_add]
          have e : (keep skip i).flatMap (fun i => (keep skip dim).map (r.1 i)) =
              (keep skip i).flatMap (fun i => (keep skip dim).map (d i)) := by
            apply List.flatMap_congr
            intro a ha
            apply List.map_congr_left
            intro b _
            apply hother
            rintro rfl; exact hin ha
          rw [e, h2, g3, h1, Nat.succ_mul, List.take_add]
        · intro a b hab
          simp only [Bool.false_eq_true, if_false, List.mem_append, List.mem_singleton] at hab
          by_cases ha : a = i
          · subst ha
            rw [g4 b (by tauto)]
            exact h3 a b (by tauto)
          · rw [hother a b ha]
            exact h3 a b (by tauto))
    dim 0 (dest, src) (by omega) (by omega) ⟨by simp [keep], by simp [keep], fun _ _ _ => rfl⟩
  obtain ⟨r, h1, _, h3, h4⟩ := key
  refine ⟨r.1, r.2, h1, ?_, ?_⟩
  · rw [h3, ← hlen, List.take_length]
  · intro a b hab
    apply h4
    rw [mem_keep, mem_keep]; exact hab

/-! ### The specification on kept indices -/

section spec

variable {K : Type} [Field K]

theorem sum_keep (skip : ℕ → Bool) (dim : ℕ) (f : ℕ → K) :
    ∑ k ∈ range (keep skip dim).length, f (kp skip dim k) =
      ∑ k ∈ (range dim).filter (fun k => skip k = false), f k := by
  apply sum_bij (fun k _ => kp skip dim k)
  · intro k hk
    rw [mem_range] at hk
    rw [mem_filter, mem_range]
    exact kp_mem hk
  · intro k hk l hl h
    rw [mem_range] at hk hl
    exact kp_inj hk hl h
  · intro i hi
    rw [mem_filter, mem_range] at hi
    obtain ⟨k, hk, h⟩ := kp_surj hi.1 hi.2
    exact ⟨k, mem_range.2 hk, h⟩
  · intro _ _; rfl

/-- The kept indices as a type. -/
noncomputable def keepEquiv (skip : ℕ → Bool) (dim : ℕ) :
    Fin (keep skip dim).length ≃ {i : Fin dim // skip i = false} :=
  Equiv.ofBijective (fun k => ⟨⟨kp skip dim k, (kp_mem k.2).1⟩, (kp_mem k.2).2⟩) (by
    constructor
    · intro k l h
      have : kp skip dim k = kp skip dim l := congrArg (fun q => (q.1 : ℕ)) h
      exact Fin.ext (kp_inj k.2 l.2 this)
    · rintro ⟨i, hi⟩
      obtain ⟨k, hk, h⟩ := kp_surj i.2 hi
      exact ⟨⟨k, hk⟩, Subtype.ext (Fin.ext h)⟩)

theorem det_keep (skip : ℕ → Bool) (dim : ℕ) (A : ℕ → ℕ → K) :
    det (keep skip dim).length (fun i k => A (kp skip dim i) (kp skip dim k)) =
      (subMatrix skip dim A).det := by
  rw [← Matrix.det_submatrix_equiv_self (keepEquiv skip dim)]
  rfl

theorem solves_keep (skip : ℕ → Bool) (dim : ℕ) (A : ℕ → ℕ → K) (b x : ℕ → K) :
    Solves (keep skip dim).length (fun i k => A (kp skip dim i) (kp skip dim k))
      (fun i => b (kp skip dim i)) (fun i => x (kp skip dim i)) ↔ SolvesKept skip dim A b x := by
  constructor
  · intro h i hi hs
    obtain ⟨k, hk, rfl⟩ := kp_surj hi hs
    rw [← sum_keep skip dim (fun l => A (kp skip dim k) l * x l)]
    exact h k hk
  · intro h i hi
    have := h _ (kp_mem hi).1 (kp_mem hi).2
    rw [← sum_keep skip dim (fun l => A (kp skip dim i) l * x l)] at this
    exact this

end spec

/-- A function on positions as a function on indices. -/
theorem exists_of_kp {W : Type} (skip : ℕ → Bool) (dim : ℕ) (w0 : W) (z : ℕ → W) :
    ∃ x : ℕ → W, ∀ k, k < (keep skip dim).length → x (kp skip dim k) = z k := by
  classical
  refine ⟨fun i => if h : ∃ k, k < (keep skip dim).length ∧ kp skip dim k = i then z h.choose else w0, ?_⟩
  intro k hk
  have h : ∃ k', k' < (keep skip dim).length ∧ kp skip dim k' = kp skip dim k := ⟨k, hk, rfl⟩
  simp only
  rw [dif_pos h]
  congr 1
  exact kp_inj h.choose_spec.1 hk h.choose_spec.2

theorem map_keep_eq {d : ℕ → V} {skip : ℕ → Bool} {dim : ℕ} {x : ℕ → V}
    (h : (keep skip dim).map d = (List.range (keep skip dim).length).map x) {k : ℕ}
    (hk : k < (keep skip dim).length) : d (kp skip dim k) = x k := by
  have h1 : ((keep skip dim).map d)[k]? = some (d (kp skip dim k)) := by
    rw [List.getElem?_map, List.getElem?_eq_getElem hk, kp_eq hk]; rfl
  rw [h] at h1
  simp [hk] at h1
  exact h1.symm

theorem flatMap_keep_eq {d : ℕ → ℕ → V} {skip : ℕ → Bool} {dim : ℕ} {x : ℕ → ℕ → V}
    (h : (keep skip dim).flatMap (fun i => (keep skip dim).map (d i)) =
      (List.range (keep skip dim).length).flatMap
        (fun i => (List.range (keep skip dim).length).map (x i))) {i k : ℕ}
    (hi : i < (keep skip dim).length) (hk : k < (keep skip dim).length) :
    d (kp skip dim i) (kp skip dim k) = x i k := by
  have h1 := flatMap_getElem? (keep skip dim).length (fun i => (keep skip dim).map (d i)) (by simp)
    (keep skip dim) i k hi hk
  have h2 := flatMap_getElem? (keep skip dim).length
    (fun i => (List.range (keep skip dim).length).map (x i)) (by simp)
    (List.range (keep skip dim).length) i k (by simpa using hi) hk
  rw [h, h2] at h1
  rw [kp_eq hi, kp_eq hk]
  simp [hk] at h1
  exact h1.symm

end Tsym.Lin
