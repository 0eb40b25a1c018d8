import Verif.PolyExp

set_option autoImplicit false
set_option linter.unusedSectionVars false
set_option linter.unusedSimpArgs false
set_option linter.unusedVariables false

/-!
# What the sign queries answer for expanded polynomials
-/

namespace Tsym

open Expr

variable {D : Type} [Flt D] [ExactLt D] {cfg : Cfg D}

/-- The answers of the sign queries: 1 for positive, -1 for negative, 0 for neither. -/
structure Sg (cfg : Cfg D) (e : Expr D) (v : ℤ) : Prop where
  pos : Tot cfg (fun E => isPos E e) (decide (v = 1))
  neg : Tot cfg (fun E => isNeg E e) (decide (v = -1))

/-- The sign of a coefficient. -/
def sgq (q : ℚ) : ℤ := if q < 0 then -1 else if 0 < q then 1 else 0

theorem sgq_pos {q : ℚ} : sgq q = 1 ↔ 0 < q := by
  unfold sgq; split
  · constructor
    · intro h; cases h
    · intro h; linarith
  · split <;> simp [*]

theorem sgq_neg {q : ℚ} : sgq q = -1 ↔ q < 0 := by
  unfold sgq; split
  · simp [*]
  · split <;> simp [*]

theorem sgq_cases (q : ℚ) : sgq q = -1 ∨ sgq q = 0 ∨ sgq q = 1 := by
  unfold sgq; split
  · simp
  · split <;> simp

theorem sgq_zero {q : ℚ} : sgq q = 0 ↔ q = 0 := by
  unfold sgq; split
  · constructor
    · intro h; cases h
    · intro h; linarith
  · split
    · constructor
      · intro h; cases h
      · intro h; linarith
    · rename_i h h'
      exact ⟨fun _ => le_antisymm (not_lt.1 h') (not_lt.1 h), fun _ => rfl⟩

theorem sg_num (q : ℚ) : Sg cfg (.num (.rat q)) (sgq q) := by
  have h0 : (0 : Number D) = .rat 0 := rfl
  constructor
  · simp only [isPos, h0, lt_rat]
    rw [show decide (sgq q = 1) = decide (0 < q) from decide_eq_decide.2 sgq_pos]
    exact tot_pure _
  · simp only [isNeg, h0, lt_rat]
    rw [show decide (sgq q = -1) = decide (q < 0) from decide_eq_decide.2 sgq_neg]
    exact tot_pure _

/-- The sign of a power of a symbol. -/
def sgx (x : Sym × ℕ) : ℤ := if x.1.positive || x.2 % 2 == 0 then 1 else 0

theorem sg_symFac (x : Sym × ℕ) : Sg cfg (symFac x) (sgx x) := by
  have hn : ¬ sgx x = -1 := by unfold sgx; split <;> simp
  have hp : decide (sgx x = 1) = (x.1.positive || x.2 % 2 == 0) := by
    unfold sgx; cases x.1.positive || x.2 % 2 == 0 <;> simp
  constructor
  · rw [hp]
    unfold symFac fac
    split
    · rename_i h
      simp only at h
      simp only [isPos]
      rw [h, show (1 % 2 == 0) = false from rfl, Bool.or_false]
      exact tot_pure _
    · rename_i h
      simp only [isPos]
      refine tot_bind (tot_whenTrue (tot_isPos (a := x.1.positive) (by simp only [isPos]; exact tot_pure _))) ?_
      cases hx : x.1.positive with
      | true => simp only [if_true, Bool.true_or]; exact tot_pure _
      | false =>
        simp only [Bool.false_eq_true, if_false, Bool.false_or]
        refine tot_bind (tot_lift (a := some (.rat x.2)) (by simp [int, numEval, pure, Except.pure])) ?_
        have : ((Number.rat (x.2 : ℚ) : Number D).isRational && (Number.rat (x.2 : ℚ) : Number D).numerator % 2 == 0) = (x.2 % 2 == 0) := by
          simp only [Number.isRational, Number.numerator, Bool.true_and, Rat.num_natCast]
          rw [Bool.eq_iff_iff]
          simp only [beq_iff_eq]
          omega
        simp only [this]
        exact tot_pure _
  · simp only [hn, decide_false]
    unfold symFac fac
    split <;> (simp only [isNeg]; exact tot_pure _)

theorem tot_signOfProduct_sg {l : List (Expr D × ℤ)} (h : ∀ a ∈ l, Sg cfg a.1 a.2 ∧ (a.2 = -1 ∨ a.2 = 0 ∨ a.2 = 1)) (acc : ℤ) :
    Tot cfg (fun E => signOfProduct E acc (l.map Prod.fst)) (acc * (l.map Prod.snd).prod) := by
  induction l generalizing acc with
  | nil => simp only [List.map_nil, signOfProduct, List.prod_nil, mul_one]; exact tot_pure _
  | cons a l ih =>
    have ih := ih fun x hx => h x (by simp [hx])
    obtain ⟨⟨hp, hn⟩, hv⟩ := h a (by simp)
    simp only [List.map_cons, signOfProduct, List.prod_cons]
    refine tot_bind (tot_whenTrue (tot_isPos hp)) ?_
    by_cases h1 : a.2 = 1
    · simp only [h1, decide_true, if_true, one_mul]; exact ih acc
    · simp only [h1, decide_false, Bool.false_eq_true, if_false]
      refine tot_bind (tot_whenTrue (tot_isNeg hn)) ?_
      by_cases h2 : a.2 = -1
      · simp only [h2, decide_true, if_true]
        rw [← mul_assoc]; exact ih _
      · have h3 : a.2 = 0 := by tauto
        simp only [h2, decide_false, Bool.false_eq_true, if_false, h3, zero_mul, mul_zero]
        exact tot_pure _

/-- The sign of a monomial. -/
def sgm (q : ℚ) (K : Key) : ℤ := sgq q * (K.map sgx).prod

theorem prod_sgx (K : Key) : (K.map sgx).prod = if ∀ x ∈ K, x.1.positive = true ∨ x.2 % 2 = 0 then 1 else 0 := by
  induction K with
  | nil => simp
  | cons x K ih =>
    rw [List.map_cons, List.prod_cons, ih]
    simp only [List.forall_mem_cons]
    by_cases h : x.1.positive = true ∨ x.2 % 2 = 0
    · have : sgx x = 1 := by
        unfold sgx
        rw [if_pos]
        simpa only [Bool.or_eq_true, beq_iff_eq] using h
      rw [this, one_mul]
      by_cases h' : ∀ x ∈ K, x.1.positive = true ∨ x.2 % 2 = 0
      · rw [if_pos h', if_pos ⟨h, h'⟩]
      · rw [if_neg h', if_neg fun hh => h' hh.2]
    · have : sgx x = 0 := by
        unfold sgx
        rw [if_neg]
        simpa only [Bool.or_eq_true, beq_iff_eq] using h
      rw [this, zero_mul, if_neg fun hh => h hh.1]

theorem sgm_pos {q : ℚ} {K : Key} : sgm q K = 1 ↔ 0 < q ∧ ∀ x ∈ K, x.1.positive = true ∨ x.2 % 2 = 0 := by
  rw [sgm, prod_sgx]
  split
  · rename_i h; rw [mul_one, sgq_pos]; exact ⟨fun h' => ⟨h', h⟩, fun h' => h'.1⟩
  · rename_i h; rw [mul_zero]; exact ⟨fun h' => absurd h' (by decide), fun h' => absurd h'.2 h⟩

theorem sgm_neg {q : ℚ} {K : Key} : sgm q K = -1 ↔ q < 0 ∧ ∀ x ∈ K, x.1.positive = true ∨ x.2 % 2 = 0 := by
  rw [sgm, prod_sgx]
  split
  · rename_i h; rw [mul_one, sgq_neg]; exact ⟨fun h' => ⟨h', h⟩, fun h' => h'.1⟩
  · rename_i h; rw [mul_zero]; exact ⟨fun h' => absurd h' (by decide), fun h' => absurd h'.2 h⟩

theorem sg_mexpr (q : ℚ) (K : Key) : Sg cfg (mexpr q (K.facs : List (Expr D × ℕ))) (sgm q K) := by
  rcases mexpr_cases q (K.facs : List (Expr D × ℕ)) with ⟨h, e⟩ | ⟨f, h, hq, e⟩ | ⟨hP, _, e⟩
  · rw [e]
    have : K = [] := by simpa [Key.facs] using h
    subst this
    simpa [sgm] using sg_num q
  · match K, h with
    | [x], h =>
      have h : f = (.sym x.1, x.2) := by simpa [Key.facs] using h.symm
      rw [e, hq, h]
      have : sgm 1 [x] = sgx x := by simp [sgm, sgq]
      rw [this]
      exact sg_symFac x
  · rw [e]
    let l : List (Expr D × ℤ) := (if q = 1 then [] else [(.num (.rat q), sgq q)]) ++ K.map fun x => (symFac x, sgx x)
    have hl : l.map Prod.fst = rl q K.facs := by
      simp only [l, rl, List.map_append, List.map_map]
      rw [Key.facs_map]
      congr 1
      split <;> rfl
    have hv : (l.map Prod.snd).prod = sgm q K := by
      simp only [l, sgm, List.map_append, List.map_map, List.prod_append]
      congr 1
      split
      · rename_i h; rw [h]; rfl
      · simp
    have := tot_signOfProduct_sg (cfg := cfg) (l := l) (by
      intro a ha
      rcases List.mem_append.1 ha with ha | ha
      · split at ha
        · simp at ha
        · rw [List.mem_singleton.1 ha]; exact ⟨sg_num q, sgq_cases q⟩
      · obtain ⟨x, _, rfl⟩ := List.mem_map.1 ha
        refine ⟨sg_symFac x, ?_⟩
        simp only
        unfold sgx; split <;> simp) 1
    rw [hl, hv, one_mul] at this
    constructor
    · simp only [isPos]; exact tot_bind this (tot_pure _)
    · simp only [isNeg]; exact tot_bind this (tot_pure _)

/-- The symbolic parts of a sum. -/
theorem tot_symbolic_sg {l : List (Expr D × ℤ)} (h : ∀ a ∈ l, Sg cfg a.1 a.2 ∧ numEval a.1 = .ok none) (acc : ℤ)
    (ha : acc = -1 ∨ acc = 0 ∨ acc = 1) :
    ∃ w : ℤ, Tot cfg (fun E => signOfSymbolicParts E acc (l.map Prod.fst)) w ∧ (w = -1 ∨ w = 0 ∨ w = 1) ∧
      (w = 1 ↔ (acc = 1 ∨ acc = 0 ∧ l ≠ []) ∧ ∀ a ∈ l, a.2 = 1) ∧ (w = -1 ↔ (acc = -1 ∨ acc = 0 ∧ l ≠ []) ∧ ∀ a ∈ l, a.2 = -1) := by
  induction l generalizing acc with
  | nil =>
    refine ⟨acc, by simp only [List.map_nil, signOfSymbolicParts]; exact tot_pure _, ha, by simp, by simp⟩
  | cons a l ih =>
    have ih := ih fun x hx => h x (by simp [hx])
    obtain ⟨⟨hp, hn⟩, hev⟩ := h a (by simp)
    simp only [List.map_cons, signOfSymbolicParts]
    by_cases h1 : (decide (a.2 = 1) && decide (0 ≤ acc)) = true
    · obtain ⟨w, hw, hv, h3, h4⟩ := ih 1 (by simp)
      refine ⟨w, tot_bind (tot_lift hev) (tot_bind (tot_whenTrue (tot_isPos hp)) ?_), hv, ?_, ?_⟩
      · simp only [h1, if_true]; exact hw
      · simp only [Bool.and_eq_true, decide_eq_true_eq] at h1
        rw [h3]
        simp only [List.forall_mem_cons, h1.1, true_and, true_or]
        constructor
        · intro h; exact ⟨by rcases ha with rfl | rfl | rfl <;> simp at h1 ⊢, h⟩
        · intro h; exact h.2
      · simp only [Bool.and_eq_true, decide_eq_true_eq] at h1
        rw [h4]
        simp [h1.1]
    · by_cases h2 : (decide (a.2 = -1) && decide (acc ≤ 0)) = true
      · obtain ⟨w, hw, hv, h3, h4⟩ := ih (-1) (by simp)
        refine ⟨w, tot_bind (tot_lift hev) (tot_bind (tot_whenTrue (tot_isPos hp)) ?_), hv, ?_, ?_⟩
        · simp only [h1, Bool.false_eq_true, if_false]
          refine tot_bind (tot_whenTrue (tot_isNeg hn)) ?_
          simp only [h2, if_true]; exact hw
        · simp only [Bool.and_eq_true, decide_eq_true_eq] at h2
          rw [h3]
          simp [h2.1]
        · simp only [Bool.and_eq_true, decide_eq_true_eq] at h2
          rw [h4]
          simp only [List.forall_mem_cons, h2.1, true_and, true_or]
          constructor
          · intro h; exact ⟨by rcases ha with rfl | rfl | rfl <;> simp at h2 ⊢, h⟩
          · intro h; exact h.2
      · refine ⟨0, tot_bind (tot_lift hev) (tot_bind (tot_whenTrue (tot_isPos hp)) ?_), by simp, ?_, ?_⟩
        · simp only [h1, Bool.false_eq_true, if_false]
          refine tot_bind (tot_whenTrue (tot_isNeg hn)) ?_
          simp only [h2, Bool.false_eq_true, if_false]; exact tot_pure _
        · simp only [Bool.and_eq_true, decide_eq_true_eq, not_and] at h1
          simp only [List.forall_mem_cons]
          constructor
          · intro h; cases h
          · rintro ⟨h3, h4, -⟩
            exact absurd (by rcases h3 with rfl | ⟨rfl, -⟩ <;> simp) (h1 h4)
        · simp only [Bool.and_eq_true, decide_eq_true_eq, not_and] at h2
          simp only [List.forall_mem_cons]
          constructor
          · intro h; cases h
          · rintro ⟨h3, h4, -⟩
            exact absurd (by rcases h3 with rfl | ⟨rfl, -⟩ <;> simp) (h2 h4)

theorem sign_sgq (q : ℚ) : (Number.rat q : Number D).sign = .ok (sgq q) := by
  have h0 : (0 : Number D) = .rat 0 := rfl
  unfold Number.sign sgq
  rw [h0, lt_rat, lt_rat]
  by_cases h1 : q < 0
  · simp [h1]
  · by_cases h2 : 0 < q
    · simp [h1, h2]
    · have : q = 0 := le_antisymm (not_lt.1 h2) (not_lt.1 h1)
      subst this
      simp [eqv_rat.2 rfl]

theorem numericParts_none {l : List (Expr D)} (h : ∀ a ∈ l, numEval a = .ok none) (q : ℚ) :
    signOfNumericParts (.rat q : Number D) l = .ok (sgq q) := by
  induction l with
  | nil => exact sign_sgq q
  | cons a l ih =>
    simp only [signOfNumericParts, h a (by simp)]
    exact ih fun x hx => h x (by simp [hx])

/-- The sign queries of an expanded polynomial with its list of monomials. -/
theorem EL.signs {L : List (Mono D)} (h : EL L) : ∃ v, Sg cfg (sumOf (L.map em)) v ∧
    (v = 1 ↔ L ≠ [] ∧ ∀ m ∈ L, ∀ K, IsKey m.2 K → sgm m.1 K = 1) ∧ (v = -1 ↔ L ≠ [] ∧ ∀ m ∈ L, ∀ K, IsKey m.2 K → sgm m.1 K = -1) := by
  match L, h with
  | [], h =>
    refine ⟨0, ?_, by simp, by simp⟩
    have := sg_num (cfg := cfg) 0
    rwa [← zero_eq] at this
  | [m], h =>
    obtain ⟨K, hK⟩ := h.ks.key m (by simp)
    refine ⟨sgm m.1 K, ?_, ?_, ?_⟩
    · have := sg_mexpr (cfg := cfg) m.1 K
      rwa [← hK.2.2] at this
    all_goals
      simp only [ne_eq, List.cons_ne_self, not_false_eq_true, List.mem_singleton, forall_eq, true_and]
      constructor
      · intro h J hJ; rwa [hJ.unique hK]
      · intro h; exact h K hK
  | m :: n :: L, h =>
    have hsl := h.sl (cfg := cfg) (B := fun _ => True) (by simp)
    have hb := pbase_sum hsl (by simp)
    -- the symbolic parts
    have key : ∀ x ∈ m :: n :: L, ∃ K, IsKey x.2 K := h.ks.key
    choose! k hk using key
    have tail : ∀ x ∈ n :: L, numEval (em x) = .ok none := fun x hx =>
      mexpr_eval (hsl.sm x (by simp only [List.mem_cons] at hx ⊢; tauto)).facs (hsl.tail x hx)
    have sg : ∀ x ∈ m :: n :: L, Sg cfg (em x) (sgm x.1 (k x)) := by
      intro x hx
      have := sg_mexpr (cfg := cfg) (D := D) x.1 (k x)
      rwa [← (hk x hx).2.2] at this
    have hall : ∀ v : ℤ, (∀ x ∈ m :: n :: L, ∀ K, IsKey x.2 K → sgm x.1 K = v) ↔ ∀ x ∈ m :: n :: L, sgm x.1 (k x) = v := by
      intro v
      constructor
      · intro h x hx; exact h x hx _ (hk x hx)
      · intro h x hx K hK; rw [hK.unique (hk x hx)]; exact h x hx
    let f : Mono D → Expr D × ℤ := fun x => (em x, sgm x.1 (k x))
    have hf : ∀ M : List (Mono D), (M.map f).map Prod.fst = M.map em := by
      intro M; rw [List.map_map]; rfl
    have goal : ∃ u : ℤ, Tot cfg (fun E => signOfSum E ((m :: n :: L).map em)) u ∧
        (u = 1 ↔ ∀ x ∈ m :: n :: L, sgm x.1 (k x) = 1) ∧ (u = -1 ↔ ∀ x ∈ m :: n :: L, sgm x.1 (k x) = -1) := by
      by_cases hm : m.2 = []
      · -- a number first
        have hev : numEval (em m) = .ok (some (.rat m.1)) := by
          rw [show numEval (em m) = _ from mexpr_eval' (hsl.sm m (by simp)).facs]; simp [hm]
        have hkm : k m = [] := by
          have := (hk m (by simp)).2.2
          rw [hm] at this
          simpa [Key.facs] using this.symm
        have hsm : sgm m.1 (k m) = sgq m.1 := by rw [hkm]; simp [sgm]
        obtain ⟨w, hw, hv, h3, h4⟩ := tot_symbolic_sg (cfg := cfg) (l := (n :: L).map f) (by
          intro a ha
          obtain ⟨x, hx, rfl⟩ := List.mem_map.1 ha
          exact ⟨sg x (by simp only [List.mem_cons] at hx ⊢; tauto), tail x hx⟩) 0 (by simp)
        rw [hf] at hw
        have hnum : signOfNumericParts (0 : Number D) ((m :: n :: L).map em) = .ok (sgq m.1) := by
          rw [List.map_cons, signOfNumericParts, hev]
          have : ((0 : Number D).add (.rat m.1)) = .rat m.1 := by
            rw [show (0 : Number D) = .rat 0 from rfl]; simp [Number.add]
          simp only [bind, Except.bind, this]
          refine numericParts_none ?_ _
          intro a ha
          obtain ⟨x, hx, rfl⟩ := List.mem_map.1 ha
          exact tail x hx
        refine ⟨_, tot_bind (tot_lift hnum) (tot_bind (a := w) ?_ (tot_pure _)), ?_, ?_⟩
        · simp only [List.map_cons (l := n :: L), signOfSymbolicParts]
          exact tot_bind (tot_lift hev) hw
        · have hne : sgq m.1 ≠ 0 := fun e => h.ne m (by simp) (sgq_zero.1 e)
          simp only [hne, if_false]
          have h3' : w = 1 ↔ ∀ x ∈ n :: L, sgm x.1 (k x) = 1 := by
            rw [h3]
            simp only [List.forall_mem_map, f]
            simp
          rw [List.forall_mem_cons, ← h3', hsm]
          rcases sgq_cases m.1 with e | e | e <;> rcases hv with rfl | rfl | rfl <;> simp [e] at hne ⊢
        · have hne : sgq m.1 ≠ 0 := fun e => h.ne m (by simp) (sgq_zero.1 e)
          simp only [hne, if_false]
          have h4' : w = -1 ↔ ∀ x ∈ n :: L, sgm x.1 (k x) = -1 := by
            rw [h4]
            simp only [List.forall_mem_map, f]
            simp
          rw [List.forall_mem_cons, ← h4', hsm]
          rcases sgq_cases m.1 with e | e | e <;> rcases hv with rfl | rfl | rfl <;> simp [e] at hne ⊢
      · have all : ∀ x ∈ m :: n :: L, numEval (em x) = .ok none := by
          intro x hx
          rcases List.mem_cons.1 hx with rfl | hx
          · exact mexpr_eval (hsl.sm x (by simp)).facs hm
          · exact tail x hx
        obtain ⟨w, hw, hv, h3, h4⟩ := tot_symbolic_sg (cfg := cfg) (l := (m :: n :: L).map f) (by
          intro a ha
          obtain ⟨x, hx, rfl⟩ := List.mem_map.1 ha
          exact ⟨sg x hx, all x hx⟩) 0 (by simp)
        rw [hf] at hw
        have hnum : signOfNumericParts (0 : Number D) ((m :: n :: L).map em) = .ok (sgq 0) := by
          refine numericParts_none ?_ _
          intro a ha
          obtain ⟨x, hx, rfl⟩ := List.mem_map.1 ha
          exact all x hx
        refine ⟨w, ?_, ?_, ?_⟩
        · refine tot_bind (tot_lift hnum) (tot_bind hw ?_)
          have : sgq 0 = 0 := by simp [sgq]
          simp only [this, if_true, zero_add]
          exact tot_pure _
        · rw [h3]; simp only [List.forall_mem_map, f]; simp
        · rw [h4]; simp only [List.forall_mem_map, f]; simp
    obtain ⟨u, hu, h1, h2⟩ := goal
    refine ⟨u, ⟨?_, ?_⟩, ?_, ?_⟩
    · show Tot cfg (fun E => isPos E (.sum ((m :: n :: L).map em))) _
      simp only [isPos]
      exact tot_bind (tot_lift hb.eval) (tot_bind hu (tot_pure _))
    · show Tot cfg (fun E => isNeg E (.sum ((m :: n :: L).map em))) _
      simp only [isNeg]
      exact tot_bind (tot_lift hb.eval) (tot_bind hu (tot_pure _))
    · rw [h1, ← hall]; simp
    · rw [h2, ← hall]; simp

/-- The monomials with an even power or a positive symbol in each factor. -/
def evenOrPos (d : Sym →₀ ℕ) : Prop := ∀ s, d s ≠ 0 → s.positive = true ∨ d s % 2 = 0

theorem Key.evenOrPos {K : Key} (h1 : K.Ok) (h2 : K.Sorted) :
    (∀ x ∈ K, x.1.positive = true ∨ x.2 % 2 = 0) ↔ evenOrPos K.fs := by
  constructor
  · intro h s hs
    have : (s, K.fs s) ∈ K := by
      rw [h2.count h1, Key.fs_count]
      rw [Key.fs_count] at hs
      exact ⟨rfl, hs⟩
    exact h _ this
  · intro h x hx
    have := (h2.count h1 x).1 hx
    rw [← Key.fs_count] at this
    have h3 := h x.1 (by rw [this.1]; exact this.2)
    rwa [this.1] at h3

/-- The answers for an expanded polynomial, from its coefficients. -/
theorem EP.signs {e : Expr D} (h : EP e) : ∃ v, Sg cfg e v ∧
    (v = 1 ↔ poly e ≠ 0 ∧ ∀ d ∈ (poly e).support, 0 < (poly e).coeff d ∧ evenOrPos d) ∧
    (v = -1 ↔ poly e ≠ 0 ∧ ∀ d ∈ (poly e).support, (poly e).coeff d < 0 ∧ evenOrPos d) := by
  obtain ⟨L, hL, rfl⟩ := h
  obtain ⟨v, hv, h1, h2⟩ := hL.signs (cfg := cfg)
  rw [sumOf_poly]
  have hne : L ≠ [] ↔ psum L ≠ 0 := by
    rw [not_iff_not]
    constructor
    · rintro rfl; simp
    · intro e
      exact hL.unique EL.nil (by simpa using e)
  have supp : ∀ d, d ∈ (psum L).support ↔ ∃ m ∈ L, ∃ K, IsKey m.2 K ∧ K.fs = d := by
    intro d
    constructor
    · intro hd
      by_contra hh
      push Not at hh
      have : ∀ M : List (Mono D), (∀ m ∈ M, m ∈ L) → (psum M).coeff d = 0 := by
        intro M hM
        induction M with
        | nil => simp
        | cons n M ih =>
          obtain ⟨J, hJ⟩ := hL.ks.key n (hM n (by simp))
          rw [psum_cons, MvPolynomial.coeff_add, hJ.poly, MvPolynomial.coeff_monomial, ih fun x hx => hM x (by simp [hx]), add_zero,
            if_neg (hh n (hM n (by simp)) J hJ)]
      exact (MvPolynomial.mem_support_iff.1 hd) (this L fun _ h => h)
    · rintro ⟨m, hm, K, hK, rfl⟩
      rw [MvPolynomial.mem_support_iff]
      have := (hL.coeff hK).1 hm
      rw [this.1]; exact this.2
  refine ⟨v, hv, ?_, ?_⟩
  · rw [h1, hne]
    refine and_congr_right fun _ => ⟨fun h d hd => ?_, fun h m hm K hK => ?_⟩
    · obtain ⟨m, hm, K, hK, rfl⟩ := (supp d).1 hd
      have h3 := sgm_pos.1 (h m hm K hK)
      rw [((hL.coeff hK).1 hm).1]
      exact ⟨h3.1, (Key.evenOrPos hK.1 hK.2.1).1 h3.2⟩
    · have h3 := h K.fs ((supp _).2 ⟨m, hm, K, hK, rfl⟩)
      rw [((hL.coeff hK).1 hm).1] at h3
      exact sgm_pos.2 ⟨h3.1, (Key.evenOrPos hK.1 hK.2.1).2 h3.2⟩
  · rw [h2, hne]
    refine and_congr_right fun _ => ⟨fun h d hd => ?_, fun h m hm K hK => ?_⟩
    · obtain ⟨m, hm, K, hK, rfl⟩ := (supp d).1 hd
      have h3 := sgm_neg.1 (h m hm K hK)
      rw [((hL.coeff hK).1 hm).1]
      exact ⟨h3.1, (Key.evenOrPos hK.1 hK.2.1).1 h3.2⟩
    · have h3 := h K.fs ((supp _).2 ⟨m, hm, K, hK, rfl⟩)
      rw [((hL.coeff hK).1 hm).1] at h3
      exact sgm_neg.2 ⟨h3.1, (Key.evenOrPos hK.1 hK.2.1).2 h3.2⟩

end Tsym
