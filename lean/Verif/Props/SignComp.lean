import Verif.Props.TrigPoly
import Verif.InvTab

/-!
# C83: the sign queries of composed expressions
-/

set_option autoImplicit false
set_option linter.unusedSectionVars false

namespace Tsym

open Expr

/-! ## Specification -/

/-- The sign queries of an expression always answer, without conditions: yes to isPositive for the sign 1, yes to isNegative
for the sign -1, and no to both for the sign 0 ("not known"). -/
def HasSign {D : Type} [Flt D] (cfg : Cfg D) (a : Expr D) (v : SignType) : Prop :=
  Yields cfg (fun E => Api.isPositive E a) (decide (v = 1)) ∧ Yields cfg (fun E => Api.isNegative E a) (decide (v = -1))

/-- The sign of a sum of a number and of parts with known signs: known only if all parts and the number have this sign, where
the number may be zero. -/
def signOfParts (c : ℚ) (l : List SignType) : SignType :=
  if (∀ v ∈ l, v = 1) ∧ 0 ≤ c then 1 else if (∀ v ∈ l, v = -1) ∧ c ≤ 0 then -1 else 0

/-! ## Proofs -/

section

variable {D : Type} [Flt D] [LawfulFlt D] {cfg : Cfg D}

theorem hasSign_of {a : Expr D} {v : SignType} (h1 : Tot cfg (fun E => isPos E a) (decide (v = 1)))
    (h2 : Tot cfg (fun E => isNeg E a) (decide (v = -1))) : HasSign cfg a v :=
  ⟨Tot.yields (tot_isPos h1) (Api.isPositive_mono a id fun _ _ h => h), Tot.yields (tot_isNeg h2) (Api.isNegative_mono a id fun _ _ h => h)⟩

theorem HasSign.pos {a : Expr D} {v : SignType} (h : HasSign cfg a v) : Tot cfg (fun E => E.isPos a) (decide (v = 1)) := h.1.1
theorem HasSign.neg {a : Expr D} {v : SignType} (h : HasSign cfg a v) : Tot cfg (fun E => E.isNeg a) (decide (v = -1)) := h.2.1

theorem sign_cases (v : SignType) : v = 1 ∨ v = -1 ∨ v = 0 := by cases v <;> decide

theorem tot_signOfProduct_comp {l : List (Expr D)} {sg : Expr D → SignType} (h : ∀ a ∈ l, HasSign cfg a (sg a)) (u : SignType) (hu : u ≠ 0) :
    Tot cfg (fun E => signOfProduct E (u : ℤ) l) ((u * (l.map sg).prod : SignType) : ℤ) := by
  induction l generalizing u with
  | nil => simp only [signOfProduct, List.map_nil, List.prod_nil, mul_one]; exact tot_pure _
  | cons a l ih =>
    have ha := h a (by simp)
    have ih := ih fun b hb => h b (by simp [hb])
    simp only [signOfProduct]
    refine tot_bind (tot_whenTrue ha.pos) ?_
    rcases sign_cases (sg a) with e | e | e
    · simpa [e] using ih u hu
    · simp only [e, decide_false, List.map_cons, List.prod_cons, show ¬ ((-1 : SignType) = 1) from by decide, Bool.false_eq_true, if_false]
      refine tot_bind (tot_whenTrue ha.neg) ?_
      have := ih (-u) (by simpa using hu)
      rcases sign_cases u with e' | e' | e'
      · simpa [e, e'] using this
      · simpa [e, e'] using this
      · exact absurd e' hu
    · simp only [e, decide_false, List.map_cons, List.prod_cons, show ¬ ((0 : SignType) = 1) from by decide, Bool.false_eq_true, if_false]
      refine tot_bind (tot_whenTrue ha.neg) ?_
      simp only [e, show ¬ ((0 : SignType) = -1) from by decide, decide_false, Bool.false_eq_true, if_false, zero_mul, mul_zero]
      exact tot_pure _

theorem sign_int_one (v : SignType) : ((v : ℤ) = 1) ↔ v = 1 := by cases v <;> decide
theorem sign_int_neg (v : SignType) : ((v : ℤ) = -1) ↔ v = -1 := by cases v <;> decide

theorem tot_symbolicParts_comp {l : List (Expr D)} {sg : Expr D → SignType} (h : ∀ a ∈ l, numEval a = .ok none ∧ HasSign cfg a (sg a))
    (u : SignType) :
    Tot cfg (fun E => signOfSymbolicParts E (u : ℤ) l)
      (if l = [] then (u : ℤ) else if (∀ a ∈ l, sg a = 1) ∧ u ≠ -1 then 1 else if (∀ a ∈ l, sg a = -1) ∧ u ≠ 1 then -1 else 0) := by
  induction l generalizing u with
  | nil => simp only [signOfSymbolicParts, if_true]; exact tot_pure _
  | cons a l ih =>
    obtain ⟨hn, ha⟩ := h a (by simp)
    have ih := ih fun b hb => h b (by simp [hb])
    simp only [signOfSymbolicParts]
    refine tot_bind (tot_lift hn) ?_
    refine tot_bind (tot_whenTrue ha.pos) ?_
    rw [if_neg (by simp)]
    have i1 := ih 1
    have i2 := ih (-1)
    have hneg := tot_whenTrue ha.neg
    rcases sign_cases (sg a) with e | e | e
    · by_cases hu : u = -1
      · subst hu
        simp only [e, decide_true, Bool.true_and, show decide ((0 : ℤ) ≤ ((-1 : SignType) : ℤ)) = false from by decide, Bool.false_eq_true, if_false]
        refine tot_bind hneg ?_
        rw [e]
        have hb : ¬ ∀ x ∈ a :: l, sg x = -1 := fun hx => by have := hx a (by simp); rw [e] at this; cases this
        simp only [show ¬ ((1 : SignType) = -1) from by decide, decide_false, Bool.false_and, Bool.false_eq_true, if_false, ne_eq, not_true,
          and_false, hb, false_and]
        exact tot_pure _
      · have h0 : decide ((0 : ℤ) ≤ (u : ℤ)) = true := by
          rcases sign_cases u with r | r | r
          · subst r; decide
          · exact absurd r hu
          · subst r; decide
        have hb : ¬ ∀ x ∈ a :: l, sg x = -1 := fun hx => by have := hx a (by simp); rw [e] at this; cases this
        simp only [e, decide_true, Bool.true_and, h0, if_true, hb, false_and, if_false]
        refine cast (congrArg _ ?_) i1
        by_cases hl : l = []
        · subst hl; simp [e, hu]
        · simp [hl, e, hu]
    · by_cases hu : u = 1
      · subst hu
        simp only [e, show ¬ ((-1 : SignType) = 1) from by decide, decide_false, Bool.false_and, Bool.false_eq_true, if_false]
        refine tot_bind hneg ?_
        have hb : ¬ ∀ x ∈ a :: l, sg x = 1 := fun hx => by have := hx a (by simp); rw [e] at this; cases this
        simp only [e, decide_true, Bool.true_and, show decide (((1 : SignType) : ℤ) ≤ 0) = false from by decide, Bool.false_eq_true, if_false,
          ne_eq, not_true, and_false, hb, false_and]
        exact tot_pure _
      · have h0 : decide ((u : ℤ) ≤ 0) = true := by
          rcases sign_cases u with r | r | r
          · exact absurd r hu
          · subst r; decide
          · subst r; decide
        have hb : ¬ ∀ x ∈ a :: l, sg x = 1 := fun hx => by have := hx a (by simp); rw [e] at this; cases this
        simp only [e, show ¬ ((-1 : SignType) = 1) from by decide, decide_false, Bool.false_and, Bool.false_eq_true, if_false, hb, false_and]
        refine tot_bind hneg ?_
        simp only [e, decide_true, Bool.true_and, h0, if_true]
        refine cast (congrArg _ ?_) i2
        by_cases hl : l = []
        · subst hl; simp [e, hu]
        · have h1 : ¬ ((∀ x ∈ l, sg x = 1) ∧ (-1 : SignType) ≠ -1) := by simp
          rw [if_neg hl, if_neg h1]
          simp [e, hu, show ¬ ((-1 : SignType) = 1) from by decide]
    · simp only [e, show ¬ ((0 : SignType) = 1) from by decide, decide_false, Bool.false_and, Bool.false_eq_true, if_false]
      refine tot_bind hneg ?_
      have hb : ¬ ∀ x ∈ a :: l, sg x = -1 := fun hx => by have := hx a (by simp); rw [e] at this; cases this
      have hb' : ¬ ∀ x ∈ a :: l, sg x = 1 := fun hx => by have := hx a (by simp); rw [e] at this; cases this
      simp only [e, show ¬ ((0 : SignType) = -1) from by decide, decide_false, Bool.false_and, Bool.false_eq_true, if_false, hb, hb', false_and]
      exact tot_pure _

theorem numericParts_symb {l : List (Expr D)} (h : ∀ a ∈ l, numEval a = .ok none) (x : Number D) : signOfNumericParts x l = x.sign := by
  induction l with
  | nil => rfl
  | cons a l ih =>
    simp only [signOfNumericParts, h a (by simp)]
    exact ih fun b hb => h b (by simp [hb])

theorem numericParts_num {l : List (Expr D)} (h : ∀ a ∈ l, numEval a = .ok none) (c : ℚ) :
    signOfNumericParts 0 (.num (.rat c) :: l) = .ok (sgq c) := by
  have : signOfNumericParts (0 : Number D) (.num (.rat c) :: l) = signOfNumericParts ((0 : Number D).add (.rat c)) l := rfl
  rw [this, numericParts_symb h]
  have : (0 : Number D).add (.rat c) = .rat c := by rw [Number.zero_def]; simp [Number.add]
  rw [this, sign_sgq]

theorem numericParts_zero {l : List (Expr D)} (h : ∀ a ∈ l, numEval a = .ok none) : signOfNumericParts (0 : Number D) l = .ok 0 := by
  rw [numericParts_symb h, Number.zero_def, sign_sgq]; rfl

theorem numEvalSum_none {l : List (Expr D)} (hl : l ≠ []) (h : ∀ a ∈ l, numEval a = .ok none) (x : Number D) : numEvalSum x l = .ok none := by
  match l, hl with
  | a :: l, _ => simp only [numEvalSum, h a (by simp)]; rfl

theorem sign_of_sum (c : ℚ) (P Q : Prop) [Decidable P] [Decidable Q] (hex : ¬ (P ∧ Q)) :
    (if sgq c = 0 then sgq c + (if P then 1 else if Q then -1 else 0)
      else if 1 < sgq c + (if P then 1 else if Q then -1 else 0) then 1
      else if sgq c + (if P then 1 else if Q then -1 else 0) < -1 then -1 else 0)
      = ((if P ∧ 0 ≤ c then 1 else if Q ∧ c ≤ 0 then -1 else 0 : SignType) : ℤ) := by
  unfold sgq
  by_cases h1 : P
  · have h2 : ¬ Q := fun h2 => hex ⟨h1, h2⟩
    simp only [h1, h2, if_true, if_false, true_and, false_and]
    rcases lt_trichotomy c 0 with hc | hc | hc
    · simp [hc, not_le.2 hc]
    · simp [hc]
    · simp [hc, hc.le, not_lt.2 hc.le]
  · simp only [h1, if_false, false_and]
    by_cases h2 : Q
    · simp only [h2, if_true, true_and]
      rcases lt_trichotomy c 0 with hc | hc | hc
      · simp [hc, hc.le]
      · simp [hc]
      · simp [hc, not_le.2 hc, not_lt.2 hc.le]
    · simp only [h2, if_false, false_and]
      rcases lt_trichotomy c 0 with hc | hc | hc
      · simp [hc]
      · simp [hc]
      · simp [hc, not_lt.2 hc.le]

theorem tot_signOfSum_comp {l m : List (Expr D)} {sg : Expr D → SignType} {c : ℚ} (hne : l ≠ [])
    (h : ∀ a ∈ l, numEval a = .ok none ∧ HasSign cfg a (sg a)) (hm : m = l ∧ c = 0 ∨ m = .num (.rat c) :: l) :
    Tot cfg (fun E => signOfSum E m) (signOfParts c (l.map sg) : ℤ) := by
  have hn : signOfNumericParts (0 : Number D) m = .ok (sgq c) := by
    rcases hm with ⟨rfl, rfl⟩ | rfl
    · exact numericParts_zero fun a ha => (h a ha).1
    · exact numericParts_num (fun a ha => (h a ha).1) c
  have hs : Tot cfg (fun E => signOfSymbolicParts E 0 m) (if ∀ a ∈ l, sg a = 1 then 1 else if ∀ a ∈ l, sg a = -1 then -1 else 0) := by
    have := tot_symbolicParts_comp (cfg := cfg) h 0
    simp only [hne, if_false, ne_eq, show ¬ ((0 : SignType) = -1) from by decide, show ¬ ((0 : SignType) = 1) from by decide,
      not_false_eq_true, and_true] at this
    rcases hm with ⟨rfl, rfl⟩ | rfl
    · exact this
    · simp only [signOfSymbolicParts]
      exact tot_bind (tot_lift (a := some (.rat c)) rfl) this
  unfold signOfSum
  refine tot_bind (tot_lift hn) (tot_bind hs ?_)
  have hv : (if sgq c = 0 then sgq c + (if ∀ a ∈ l, sg a = 1 then 1 else if ∀ a ∈ l, sg a = -1 then -1 else 0)
      else if 1 < sgq c + (if ∀ a ∈ l, sg a = 1 then 1 else if ∀ a ∈ l, sg a = -1 then -1 else 0) then 1
      else if sgq c + (if ∀ a ∈ l, sg a = 1 then 1 else if ∀ a ∈ l, sg a = -1 then -1 else 0) < -1 then -1 else 0)
      = (signOfParts c (l.map sg) : ℤ) := by
    have hex : ¬ ((∀ a ∈ l, sg a = 1) ∧ ∀ a ∈ l, sg a = -1) := by
      rintro ⟨h1, h2⟩
      match l, hne with
      | a :: l, _ => have := (h1 a (by simp)).symm.trans (h2 a (by simp)); cases this
    unfold signOfParts
    simp only [List.forall_mem_map]
    exact sign_of_sum c _ _ hex
  rw [← hv]
  exact tot_pure _

/-! ## C83 -/

/-- C83. The signs of numbers, symbols, constants and Undefined. -/
theorem C83_atoms (q : ℚ) (s : Sym) (k : Cst) :
    HasSign cfg (.num (.rat q) : Expr D) (SignType.sign q) ∧ HasSign cfg (.sym s : Expr D) (if s.positive then 1 else 0) ∧
    HasSign cfg (.cst k : Expr D) 1 ∧ HasSign cfg (.undef : Expr D) 0 := by
  refine ⟨?_, ?_, ?_, ?_⟩
  · have h1 := tot_isPos_num (cfg := cfg) (D := D) q
    have h2 := tot_isNeg_num (cfg := cfg) (D := D) q
    rw [← decide_eq_decide.2 (sign_eq_one_iff (a := q))] at h1
    rw [← decide_eq_decide.2 (sign_eq_neg_one_iff (a := q))] at h2
    exact ⟨Tot.yields h1 (Api.isPositive_mono _ id fun _ _ h => h), Tot.yields h2 (Api.isNegative_mono _ id fun _ _ h => h)⟩
  · refine hasSign_of ?_ ?_
    · have := tot_isPos_sym (cfg := cfg) (D := D) s
      cases hs : s.positive <;> simpa [hs] using this
    · have := tot_isNeg_sym (cfg := cfg) (D := D) s
      cases hs : s.positive <;> simpa [hs] using this
  · exact hasSign_of (tot_pure _) (tot_pure _)
  · exact hasSign_of (tot_pure _) (tot_pure _)

/-- C83. The sign of a product is the product of the signs of the factors. -/
theorem C83_product (l : List (Expr D)) (sg : Expr D → SignType) (h : ∀ a ∈ l, HasSign cfg a (sg a)) : HasSign cfg (.prod l) (l.map sg).prod := by
  have := tot_signOfProduct_comp h 1 (by decide)
  rw [one_mul] at this
  refine hasSign_of ?_ ?_
  · simp only [isPos]
    refine tot_bind this ?_
    rw [decide_eq_decide.2 (sign_int_one _)]
    exact tot_pure _
  · simp only [isNeg]
    refine tot_bind this ?_
    rw [decide_eq_decide.2 (sign_int_neg _)]
    exact tot_pure _

/-- C83. The sign of a sum of expressions without a numerical value, with a number at its beginning. It is known if and only if
all summands, and the number unless it is zero, have the same sign. -/
theorem C83_sum_number (c : ℚ) (l : List (Expr D)) (sg : Expr D → SignType) (hne : l ≠ [])
    (h : ∀ a ∈ l, numEval a = .ok none ∧ HasSign cfg a (sg a)) : HasSign cfg (.sum (.num (.rat c) :: l)) (signOfParts c (l.map sg)) := by
  have hs := tot_signOfSum_comp (cfg := cfg) (m := .num (.rat c) :: l) (c := c) hne h (.inr rfl)
  have hn : numEval (.sum (.num (.rat c) :: l)) = .ok (none : Option (Number D)) := by
    have : numEval (.sum (.num (.rat c) :: l)) = numEvalSum ((0 : Number D).add (.rat c)) l := rfl
    rw [this]; exact numEvalSum_none hne (fun a ha => (h a ha).1) _
  refine hasSign_of ?_ ?_
  · simp only [isPos]
    refine tot_bind (tot_lift hn) (tot_bind hs ?_)
    rw [decide_eq_decide.2 (sign_int_one _)]
    exact tot_pure _
  · simp only [isNeg]
    refine tot_bind (tot_lift hn) (tot_bind hs ?_)
    rw [decide_eq_decide.2 (sign_int_neg _)]
    exact tot_pure _

/-- C83. The same without a number. -/
theorem C83_sum (l : List (Expr D)) (sg : Expr D → SignType) (hne : l ≠ [])
    (h : ∀ a ∈ l, numEval a = .ok none ∧ HasSign cfg a (sg a)) : HasSign cfg (.sum l) (signOfParts 0 (l.map sg)) := by
  have hs := tot_signOfSum_comp (cfg := cfg) (m := l) (c := 0) hne h (.inl ⟨rfl, rfl⟩)
  have hn : numEval (.sum l) = .ok (none : Option (Number D)) := numEvalSum_none hne (fun a ha => (h a ha).1) _
  refine hasSign_of ?_ ?_
  · simp only [isPos]
    refine tot_bind (tot_lift hn) (tot_bind hs ?_)
    rw [decide_eq_decide.2 (sign_int_one _)]
    exact tot_pure _
  · simp only [isNeg]
    refine tot_bind (tot_lift hn) (tot_bind hs ?_)
    rw [decide_eq_decide.2 (sign_int_neg _)]
    exact tot_pure _

/-- C83. A power with a rational exponent is positive if and only if its base is or the numerator of the exponent is even. It is
never negative. -/
theorem C83_power (b : Expr D) (v : SignType) (q : ℚ) (h : HasSign cfg b v) :
    HasSign cfg (.pow b (.num (.rat q))) (if v = 1 ∨ Even q.num then 1 else 0) := by
  have hx : ∀ (p : Prop) [Decidable p], decide ((if p then (1 : SignType) else 0) = 1) = decide p := by intro p _; by_cases hp : p <;> simp [hp]
  have hy : ∀ (p : Prop) [Decidable p], decide ((if p then (1 : SignType) else 0) = -1) = false := by intro p _; by_cases hp : p <;> simp [hp]
  refine hasSign_of ?_ ?_
  · rw [hx]
    simp only [isPos]
    refine tot_bind (tot_whenTrue h.pos) ?_
    by_cases hv : v = 1
    · simp only [hv, decide_true, if_true, true_or]; exact tot_pure _
    · simp only [hv, decide_false, Bool.false_eq_true, if_false, false_or]
      refine tot_bind (tot_lift (a := some (.rat q)) rfl) ?_
      have : decide (Even q.num) = ((Number.rat q : Number D).isRational && (Number.rat q : Number D).numerator % 2 == 0) := by
        rw [Bool.eq_iff_iff]; simp only [Number.isRational, Number.numerator, Int.even_iff, decide_eq_true_eq, Bool.true_and, beq_iff_eq]
      rw [this]
      exact tot_pure _
  · rw [hy]
    simp only [isNeg]
    exact tot_pure _

/-- C83. The sign of an arc tangent is that of its argument. -/
theorem C83_atan (a : Expr D) (v : SignType) (h : HasSign cfg a v) : HasSign cfg (.fn .atan a) v :=
  hasSign_of h.pos h.neg

/-- C83. The sign of the other trigonometric functions is not known if the argument has no numerical value. -/
theorem C83_trig (f : Fn) (a : Expr D) (hf : f ≠ .log ∧ f ≠ .atan) (h : numEval a = .ok none) : HasSign cfg (.fn f a) 0 := by
  have hn : numEval (.fn f a) = .ok (none : Option (Number D)) := by simp only [numEval, h]; rfl
  obtain ⟨hl, ha⟩ := hf
  refine hasSign_of ?_ ?_
  · cases f <;> first | exact absurd rfl hl | exact absurd rfl ha | (simp only [isPos, evalIsPos]; exact tot_bind (tot_lift hn) (tot_pure _))
  · cases f <;> first | exact absurd rfl hl | exact absurd rfl ha | (simp only [isNeg, evalIsNeg]; exact tot_bind (tot_lift hn) (tot_pure _))

open Classical in
/-- C83. The sign of the logarithm of an expanded polynomial is that of the polynomial minus one. -/
theorem C83_log (hc : cfg.Ok) (t : QTree) (ht : t.Ok cfg.maxPrime) (r : Expr D) (hr : Gives cfg (fun E => t.expanded E) r) :
    HasSign cfg (.fn .log r) (if PlainlyPositive (t.poly - 1) then 1 else if PlainlyPositive (1 - t.poly) then -1 else 0) := by
  obtain ⟨er, pr⟩ := QTree.ep hc ht hr
  obtain ⟨x, hx, ex, px⟩ := tot_sum_ep hc (es := [r, mOne]) (by simp) (by
    simp only [List.mem_cons, List.not_mem_nil, or_false]
    rintro e (rfl | rfl)
    · exact er
    · exact EP.num (-1))
  obtain ⟨v, hv, h1, h2⟩ := ex.signs (cfg := cfg)
  have hp : poly x = t.poly - 1 := by
    rw [px]; simp [pr, mOne_rat, poly]; ring
  rw [hp, ← plainly_pos_iff] at h1
  rw [hp, ← plainly_neg_iff, neg_sub] at h2
  have e1 : decide (v = 1) = decide (PlainlyPositive (t.poly - 1)) := decide_eq_decide.2 h1
  have e2 : decide (v = -1) = decide (PlainlyPositive (1 - t.poly)) := decide_eq_decide.2 h2
  have hex : ¬ (PlainlyPositive (t.poly - 1) ∧ PlainlyPositive (1 - t.poly)) := by
    rintro ⟨p1, p2⟩
    have := h1.2 p1; have := h2.2 p2; omega
  refine hasSign_of ?_ ?_
  · simp only [isPos]
    refine tot_bind (tot_sum hx) (tot_isPos ?_)
    have := hv.pos
    rw [e1] at this
    by_cases hq : PlainlyPositive (t.poly - 1)
    · simpa [hq] using this
    · by_cases hq2 : PlainlyPositive (1 - t.poly) <;> simpa [hq, hq2] using this
  · simp only [isNeg]
    refine tot_bind (tot_sum hx) (tot_isNeg ?_)
    have := hv.neg
    rw [e2] at this
    by_cases hq : PlainlyPositive (t.poly - 1)
    · have hq2 : ¬ PlainlyPositive (1 - t.poly) := fun hq2 => hex ⟨hq, hq2⟩
      simpa [hq, hq2] using this
    · by_cases hq2 : PlainlyPositive (1 - t.poly) <;> simpa [hq, hq2] using this

end

namespace SignCompEx

open ExprEx PolySignEx

/-- log(2 + a^2 + b^2 + p) is positive for a positive symbol p: the polynomial minus one is plainly positive. -/
theorem log_pos : HasSign (Cfg.std 323) (.fn .log r2) 1 := by
  have h : Api.isPositive (eng (Cfg.std 323) 40) (.fn .log r2) = .ok (true, []) := by krfl
  have key := C83_log (Cfg.std_ok 323) t2 t2_ok r2 t2_gives
  have := key.1.2 40
  beta_reduce at this
  rw [h] at this
  rcases this with this | this
  · cases this
  · injection this with this
    have e := of_decide_eq_true (Prod.ext_iff.1 this).1.symm
    rwa [e] at key

/-- The hypotheses are met: -2*a^(2/3)*log(2 + a^2 + b^2 + p) is negative, and so are its arc tangent and the sum of its arc
tangent and -5; the sum with 5 has no known sign. -/
example : ∃ x : Expr Hyb, x = .prod [int (-2), .pow a (.num (.rat (2 / 3))), .fn .log r2] ∧ HasSign (Cfg.std 323) x (-1) ∧
    HasSign (Cfg.std 323) (.fn .atan x) (-1) ∧ HasSign (Cfg.std 323) (.sum [.num (.rat (-5)), .fn .atan x]) (-1) ∧
    HasSign (Cfg.std 323) (.sum [.num (.rat 5), .fn .atan x]) 0 := by
  have hx : HasSign (Cfg.std 323) (.prod [int (-2), .pow a (.num (.rat (2 / 3))), .fn .log r2] : Expr Hyb) (-1) := by
    have := C83_product (cfg := Cfg.std 323) [int (-2), .pow a (.num (.rat (2 / 3))), .fn .log r2]
      (fun e => match e with | .num _ => -1 | _ => 1) (by
        simp only [List.mem_cons, List.not_mem_nil, or_false]
        rintro e (rfl | rfl | rfl)
        · have := (C83_atoms (cfg := Cfg.std 323) (D := Hyb) (-2) sp .pi).1
          have e : (int (-2) : Expr Hyb) = .num (.rat (-2)) := by simp [int]
          rw [e]; simpa using this
        · have := C83_power (cfg := Cfg.std 323) (a : Expr Hyb) 0 (2 / 3) (C83_atoms (cfg := Cfg.std 323) (D := Hyb) (-2) PolyEx2.sa .pi).2.1
          have e : ((2 / 3 : ℚ)).num = 2 := by norm_num
          simpa [e, int] using this
        · simpa [int] using log_pos)
    simpa [int] using this
  have hn : numEval (.fn .atan (.prod [int (-2), .pow a (.num (.rat (2 / 3))), .fn .log r2] : Expr Hyb)) = .ok none := by krfl
  refine ⟨_, rfl, hx, C83_atan _ _ hx, ?_, ?_⟩
  · have := C83_sum_number (cfg := Cfg.std 323) (-5) [.fn .atan (.prod [int (-2), .pow a (.num (.rat (2 / 3))), .fn .log r2] : Expr Hyb)]
      (fun _ => -1) (by simp) (by simpa using ⟨hn, C83_atan _ _ hx⟩)
    simpa [signOfParts] using this
  · have h5 : ¬ (5 : ℚ) ≤ 0 := by norm_num
    have := C83_sum_number (cfg := Cfg.std 323) 5 [.fn .atan (.prod [int (-2), .pow a (.num (.rat (2 / 3))), .fn .log r2] : Expr Hyb)]
      (fun _ => -1) (by simp) (by simpa using ⟨hn, C83_atan _ _ hx⟩)
    simpa [signOfParts, h5] using this

end SignCompEx

end Tsym
