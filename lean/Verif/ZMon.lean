import Verif.ZSimpl

set_option autoImplicit false
set_option linter.unusedSectionVars false
set_option linter.unusedSimpArgs false
set_option linter.unusedVariables false

/-!
# Numbers times powers with integer exponents
-/

namespace Tsym

namespace Zf

open Expr

variable {D : Type} [Flt D] [LawfulFlt D] {cfg : Cfg D}

/-- A number times factors. -/
def mexpr (q : ℚ) (P : List (Expr D × ℤ)) : Expr D := prodOf (rl q P)

theorem prodOf_rl1 (q : ℚ) (P : List (Expr D × ℤ)) : prodOf (rl1 q P) = mexpr q P := by
  unfold rl1 mexpr
  split
  · rename_i h; rw [h.1, h.2]; simp [rl_one, prodOf, one_eq]
  · rfl

/-- What a monomial can look like. -/
theorem mexpr_cases (q : ℚ) (P : List (Expr D × ℤ)) :
    (P = [] ∧ mexpr q P = .num (.rat q)) ∨ (∃ f, P = [f] ∧ q = 1 ∧ mexpr q P = fac f) ∨
    (P ≠ [] ∧ 2 ≤ (rl q P).length ∧ mexpr q P = .prod (rl q P)) := by
  by_cases hq : q = 1
  · subst hq
    match P with
    | [] => left; simp [mexpr, rl_one, prodOf, one_eq]
    | [f] => right; left; exact ⟨f, rfl, rfl, by simp [mexpr, rl_one, prodOf]⟩
    | f :: g :: P => right; right; simp [mexpr, rl_one, prodOf]
  · match P with
    | [] => left; simp [mexpr, rl_ne hq, prodOf]
    | f :: P => right; right; simp [mexpr, rl_ne hq, prodOf]

theorem factors_mexpr {q : ℚ} {P : List (Expr D × ℤ)} (hP : ZFs cfg P) : factors (mexpr q P) = rl1 q P := by
  rcases mexpr_cases q P with ⟨h, e⟩ | ⟨f, h, hq, e⟩ | ⟨h, h2, e⟩
  · subst h; rw [e]; unfold rl1 rl; split
    · rename_i h; simp [factors, h.1]
    · rename_i h; simp [factors]; intro h'; exact absurd ⟨h', rfl⟩ h
  · subst h; subst hq; rw [e, hP.cons.1.factors]; simp [rl1, rl_one]
  · rw [e]; simp [rl1, h, factors]

theorem fOf_rl1 {P : List (Expr D × ℤ)} (h : ZFs cfg P) (q : ℚ) : fOf (rl1 q P) = P := by
  unfold rl1; split
  · rename_i e; rw [e.2, fOf_num, fOf_nil]
  · exact fOf_rl h q

theorem qs_rl1 {P : List (Expr D × ℤ)} (h : ZFs cfg P) (q : ℚ) : qs (rl1 q P) = q := by
  unfold rl1; split
  · rename_i e; rw [e.1, qs_num, qs_nil, mul_one]
  · exact qs_rl h q

/-- A monomial determines its parts. -/
theorem mexpr_inj {p q : ℚ} {P Q : List (Expr D × ℤ)} (hP : ZFs cfg P) (hQ : ZFs cfg Q)
    (h : mexpr p P = mexpr q Q) : p = q ∧ P = Q := by
  have := congrArg factors h
  rw [factors_mexpr hP, factors_mexpr hQ] at this
  exact ⟨by rw [← qs_rl1 hP p, this, qs_rl1 hQ], by rw [← fOf_rl1 hP p, this, fOf_rl1 hQ]⟩

theorem rl_good {q : ℚ} {P : List (Expr D × ℤ)} (h : ZFs cfg P) : ∀ e ∈ rl q P, Expr.Good e := by
  intro e he
  unfold rl at he
  rcases List.mem_append.1 he with he | he
  · split at he
    · simp at he
    · simp only [List.mem_singleton] at he; rw [he]; exact good_ratE q
  · obtain ⟨f, hf, rfl⟩ := List.mem_map.1 he; exact (h f hf).good

theorem mexpr_good {q : ℚ} {P : List (Expr D × ℤ)} (h : ZFs cfg P) : Expr.Good (mexpr q P) := by
  rcases mexpr_cases q P with ⟨_, e⟩ | ⟨f, rfl, _, e⟩ | ⟨_, h2, e⟩
  · rw [e]; exact good_ratE q
  · rw [e]; exact h.cons.1.good
  · rw [e]
    refine Good.of_ops (by simp) (by simp) (by simp) (by simp) ?_ (by simp) ?_
    · intro l hl
      rcases hl with hl | hl <;> simp at hl
      rw [← hl]; exact h2
    · intro o ho; exact rl_good h o (by simpa [operands] using ho)

theorem mexpr_exact {q : ℚ} {P : List (Expr D × ℤ)} (h : ZFs cfg P) : Exact (mexpr q P) := (mexpr_good h).exact

theorem mexpr_isUndefined {q : ℚ} {P : List (Expr D × ℤ)} (h : ZFs cfg P) : (mexpr q P).isUndefined = false := by
  rcases mexpr_cases q P with ⟨rfl, e⟩ | ⟨f, rfl, rfl, e⟩ | ⟨_, _, e⟩
  · rw [e]; rfl
  · rw [e]; exact h.cons.1.isUndefined
  · rw [e]; rfl

theorem mexpr_isZero {q : ℚ} (hq : q ≠ 0) {P : List (Expr D × ℤ)} (h : ZFs cfg P) : (mexpr q P).isZero = false := by
  rcases mexpr_cases q P with ⟨rfl, e⟩ | ⟨f, rfl, rfl, e⟩ | ⟨_, _, e⟩
  · rw [e, isZero_ratE]; simp [hq]
  · rw [e]; exact h.cons.1.isZero
  · rw [e]; rfl

theorem mexpr_isNumeric {q : ℚ} {P : List (Expr D × ℤ)} (h : ZFs cfg P) : (mexpr q P).isNumeric = decide (P = []) := by
  rcases mexpr_cases q P with ⟨rfl, e⟩ | ⟨f, rfl, rfl, e⟩ | ⟨hP, _, e⟩
  · rw [e]; rfl
  · rw [e, h.cons.1.isNumeric]; simp
  · rw [e]; simp [hP, Expr.isNumeric]

theorem mexpr_isOne {q : ℚ} {P : List (Expr D × ℤ)} (h : ZFs cfg P) (hP : P ≠ []) : (mexpr q P).isOne = false := by
  rcases mexpr_cases q P with ⟨rfl, e⟩ | ⟨f, rfl, rfl, e⟩ | ⟨hP, _, e⟩
  · exact absurd rfl hP
  · rw [e, h.cons.1.isOne]
  · rw [e]; rfl

theorem mexpr_isConst {q : ℚ} {P : List (Expr D × ℤ)} (h : ZFs cfg P) : (mexpr q P).isConst = decide (P = []) := by
  rcases mexpr_cases q P with ⟨rfl, e⟩ | ⟨f, rfl, rfl, e⟩ | ⟨hP, _, e⟩
  · rw [e]; rfl
  · rw [e, h.cons.1.isConst]; simp
  · rw [e, isConst]
    obtain ⟨f, P, rfl⟩ := List.exists_cons_of_ne_nil hP
    rw [allConst_false (e := fac f) (by simp [rl]) h.cons.1.isConst]
    simp

theorem mexpr_eval {q : ℚ} {P : List (Expr D × ℤ)} (h : ZFs cfg P) (hP : P ≠ []) : numEval (mexpr q P) = .ok none := by
  rcases mexpr_cases q P with ⟨rfl, e⟩ | ⟨f, rfl, rfl, e⟩ | ⟨hP, _, e⟩
  · exact absurd rfl hP
  · rw [e, h.cons.1.eval]
  · rw [e, numEval]
    obtain ⟨f, P, rfl⟩ := List.exists_cons_of_ne_nil hP
    have := h.cons.1.eval
    unfold rl
    split
    · simp [numEvalProd, this]; rfl
    · simp only [List.map_cons, List.cons_append, List.nil_append, numEvalProd, numEval]
      simp [this, pure, Except.pure, bind, Except.bind]

/-- The product would be expanded. -/
def Nx (q : ℚ) (P : List (Expr D × ℤ)) : Prop := q ≠ 1 ∧ ∃ l, P = [(.sum l, 1)]

theorem needsExpansion_rl {q : ℚ} {P : List (Expr D × ℤ)} (h : ZFs cfg P) : needsExpansion (rl q P) = true ↔ Nx q P := by
  have hc : constElements (P.map fac) = [] := by
    unfold constElements
    rw [List.filter_eq_nil_iff]
    intro e he
    obtain ⟨f, hf, rfl⟩ := List.mem_map.1 he
    simp [(h f hf).isConst]
  have hn : nonConstElements (P.map fac) = P.map fac := by
    unfold nonConstElements
    rw [List.filter_eq_self]
    intro e he
    obtain ⟨f, hf, rfl⟩ := List.mem_map.1 he
    simp [(h f hf).isConst]
  by_cases hq : q = 1
  · subst hq
    rw [rl_one, needsExpansion, hc]
    simp [Nx]
  · rw [rl_ne hq, needsExpansion]
    have c1 : constElements (.num (.rat q) :: P.map fac) = [.num (.rat q)] := by
      unfold constElements at hc ⊢
      rw [List.filter_cons_of_pos (by rfl), hc]
    have c2 : nonConstElements (.num (.rat q) :: P.map fac) = P.map fac := by
      unfold nonConstElements at hn ⊢
      rw [List.filter_cons_of_neg (by simp [isConst]), hn]
    rw [c1, c2]
    simp only [List.isEmpty_cons, Bool.false_eq_true, if_false, List.length_map, Nx, ne_eq, hq, not_false_eq_true, true_and]
    constructor
    · intro hh
      split at hh
      · rename_i hany
        simp only [beq_iff_eq] at hh
        obtain ⟨f, rfl⟩ := List.length_eq_one_iff.1 hh
        simp only [List.map_cons, List.map_nil, List.any_cons, List.any_nil, Bool.or_false] at hany
        rw [h.cons.1.isSum] at hany
        simp only [Bool.and_eq_true, decide_eq_true_eq] at hany
        obtain ⟨b, k⟩ := f
        simp only at hany
        obtain ⟨rfl, hb⟩ := hany
        cases b <;> simp [Expr.isSum] at hb
        exact ⟨_, rfl⟩
      · simp [Expr.isSum] at hh
    · rintro ⟨l, rfl⟩
      simp [fac, Expr.isSum]

/-- The operands of a list of monomials. -/
theorem flat_items {M : List (ℚ × List (Expr D × ℤ))} (h : ∀ m ∈ M, m.1 ≠ 0 ∧ ZFs cfg m.2) :
    (∀ e ∈ (M.map fun m => mexpr m.1 m.2).flatMap factors, Item cfg e) ∧
    fOf ((M.map fun m => mexpr m.1 m.2).flatMap factors) = M.flatMap (·.2) ∧
    qs ((M.map fun m => mexpr m.1 m.2).flatMap factors) = (M.map (·.1)).prod := by
  induction M with
  | nil => simp [fOf, qs]
  | cons m M ih =>
    obtain ⟨i1, i2, i3⟩ := ih fun x hx => h x (by simp [hx])
    obtain ⟨h1, h2⟩ := h m (by simp)
    simp only [List.map_cons, List.flatMap_cons, factors_mexpr h2, List.prod_cons]
    refine ⟨?_, ?_, ?_⟩
    · intro e he
      rcases List.mem_append.1 he with he | he
      · exact rl1_items h1 h2 e he
      · exact i1 e he
    · rw [fOf_append, i2, fOf_rl1 h2]
    · rw [qs_append, i3, qs_rl1 h2]

/-- Product::create for monomials. -/
theorem tot_prodCreate (hc : cfg.Ok) {Ms : List (ℚ × List (Expr D × ℤ))} (h : ∀ m ∈ Ms, m.1 ≠ 0 ∧ ZFs cfg m.2)
    (hl : Ms.length ≠ 1) : ∃ R, Nf cfg (Ms.flatMap (·.2)) R ∧
      (¬ Nx (Ms.map (·.1)).prod R →
        Tot cfg (fun E => prodCreate E (Ms.map fun m => mexpr m.1 m.2)) (mexpr (Ms.map (·.1)).prod R)) ∧
      (Nx (Ms.map (·.1)).prod R → ∀ r,
        Tot cfg (fun E => expandAsProduct E (rl (Ms.map (·.1)).prod R)) r →
        Tot cfg (fun E => prodCreate E (Ms.map fun m => mexpr m.1 m.2)) r) := by
  obtain ⟨i1, i2, i3⟩ := flat_items h
  obtain ⟨R, r, hR, hT, hr⟩ := tot_simplProd_items hc i1
  rw [i2] at hR
  rw [i3] at hr
  have hU : (Ms.map fun m => mexpr m.1 m.2).any isUndefined = false := by
    rw [List.any_eq_false]
    intro e he
    obtain ⟨m, hm, rfl⟩ := List.mem_map.1 he
    simp [mexpr_isUndefined (h m hm).2]
  have hZ : (Ms.map fun m => mexpr m.1 m.2).any isZero = false := by
    rw [List.any_eq_false]
    intro e he
    obtain ⟨m, hm, rfl⟩ := List.mem_map.1 he
    simp [mexpr_isZero (h m hm).1 (h m hm).2]
  generalize (Ms.map (·.1)).prod = q at *
  have hM : ∀ x, (Ms.map fun m => mexpr m.1 m.2) ≠ [x] := by
    intro x hx
    have := congrArg List.length hx
    simp at this
    exact hl this
  have start : ∀ v, Tot cfg (fun E => (match r with
      | [] => pure one
      | [r] => pure r
      | r => if needsExpansion r then E.expandAsProduct r else pure (.prod r) : M D (Expr D))) v →
      Tot cfg (fun E => prodCreate E (Ms.map fun m => mexpr m.1 m.2)) v := by
    intro v hv
    simp only [prodCreate, hU, hZ, Bool.false_eq_true, if_false]
    exact tot_bind (tot_prodSimplify hT) hv
  have hr' : prodOf r = mexpr q R := by
    rcases hr with rfl | rfl
    · rfl
    · exact prodOf_rl1 q R
  have hlong : ∀ a b t, r = a :: b :: t → r = rl q R := by
    intro a b t e
    rcases hr with hr | hr
    · exact hr
    · unfold rl1 at hr
      split at hr
      · rw [hr] at e; simp at e
      · exact hr
  refine ⟨R, hR, fun hn => start _ ?_, fun hn v hv => start _ ?_⟩
  · rw [← hr']
    match r, hlong with
    | [], _ => exact tot_pure _
    | [x], _ => exact tot_pure _
    | a :: b :: t, hlong =>
      have : needsExpansion (a :: b :: t) = false := by
        rw [hlong a b t rfl, ← Bool.not_eq_true, needsExpansion_rl hR.facs]; exact hn
      simp only [this, Bool.false_eq_true, if_false, prodOf]
      exact tot_pure _
  · have e : r = rl q R := by
      obtain ⟨h1, l, rfl⟩ := hn
      rcases hr with hr | hr
      · exact hr
      · rw [hr, rl1]; simp [h1]
    subst e
    obtain ⟨x, y, t, ht⟩ : ∃ x y t, rl q R = x :: y :: t := by
      obtain ⟨h1, l, rfl⟩ := hn
      exact ⟨_, _, [], by rw [rl_ne h1]; rfl⟩
    have hne := (needsExpansion_rl (q := q) hR.facs).2 hn
    rw [ht] at hne hv ⊢
    simp only [hne, if_true]
    exact tot_expandAsProduct hv

end Zf

end Tsym
