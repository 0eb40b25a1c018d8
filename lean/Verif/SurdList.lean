import Verif.SurdSum
import Verif.PolyFac
import Verif.PolySum

set_option autoImplicit false
set_option linter.unusedSectionVars false
set_option linter.unusedSimpArgs false
set_option linter.unusedVariables false
set_option linter.unnecessarySimpa false

/-!
# Helper lemmas: sums of any number of multiples of square roots of squarefree numbers
-/

namespace Tsym.Sd

open Expr NumPowerSimpl

variable {D : Type} [Flt D] [LawfulFlt D] {cfg : Cfg D}

/-- A number and what is below the root. -/
abbrev Mo := ℚ × ℕ

/-- A multiple of a root that stays as it is, whatever it is added to. -/
structure SM (q : ℚ) (n : ℕ) : Prop where
  ne : q ≠ 0
  sf : Squarefree n
  cop : q.den.Coprime n

theorem SM.pos {q : ℚ} {n : ℕ} (h : SM q n) : 0 < n := Nat.pos_of_ne_zero h.sf.ne_zero

/-- The stored expression. -/
def em (m : Mo) : Expr D := surd m.1 m.2

theorem SM.simple (max : ℤ) {n : ℕ} (h : Squarefree n) (h1 : n ≠ 1) : Simple max (n : ℚ) := by
  refine ⟨by exact_mod_cast Nat.pos_of_ne_zero h.ne_zero, by exact_mod_cast h1, fun _ => ⟨by simpa using h, by simp⟩⟩

theorem SM.rootOf (max : ℤ) {q : ℚ} {n : ℕ} (h : SM q n) : RootOf max n q q n := by
  by_cases hs : SmallQ max (n : ℚ) ∧ SmallQ max q
  · have ha : |q| ^ 2 = q ^ 2 := sq_abs q
    have hp : 0 < |q| := abs_pos.2 h.ne
    have hden : |q|.den = q.den := by rcases abs_choice q with h | h <;> rw [h]; exact Rat.neg_den q
    refine .small |q| hs.1 hs.2 ⟨hp, by exact_mod_cast h.pos, ?_, ?_, by simpa using h.sf, by simp⟩ ?_
    · rw [← ha]
      have := SM.numden (n := n) (q := |q|) (by rw [hden]; exact h.cop)
      rw [this.1]; simp; ring
    · rw [← ha]
      have := SM.numden (n := n) (q := |q|) (by rw [hden]; exact h.cop)
      rw [this.2]; simp
    · split
      · rename_i h0; rw [abs_of_neg h0, neg_neg]
      · rename_i h0; rw [abs_of_nonneg (not_lt.1 h0)]
  · exact .large hs rfl rfl
where
  SM.numden {n : ℕ} {q : ℚ} (hc : q.den.Coprime n) : ((n : ℚ) * q ^ 2).num = n * q.num ^ 2 ∧ ((n : ℚ) * q ^ 2).den = q.den ^ 2 := by
    have e : (n : ℚ) * q ^ 2 = ((n * q.num ^ 2 : ℤ) : ℚ) / ((q.den ^ 2 : ℕ) : ℤ) := by
      conv_lhs => rw [← Rat.num_div_den q]
      push_cast
      ring
    have hcop : ((n * q.num ^ 2 : ℤ)).natAbs.Coprime (((q.den ^ 2 : ℕ) : ℤ)).natAbs := by
      rw [Int.natAbs_mul, Int.natAbs_natCast, Int.natAbs_natCast, Int.natAbs_pow]
      exact Nat.Coprime.mul_left (Nat.Coprime.pow_right 2 hc.symm) (Nat.Coprime.pow 2 2 q.reduced)
    have hd : (0 : ℤ) < ((q.den ^ 2 : ℕ) : ℤ) := by exact_mod_cast pow_pos q.den_pos 2
    refine ⟨?_, ?_⟩
    · rw [e]; exact Rat.num_div_eq_of_coprime hd hcop
    · have := Rat.den_div_eq_of_coprime hd hcop
      rw [e]; exact_mod_cast this

theorem SM.st {q : ℚ} {n : ℕ} (h : SM q n) (h1 : n ≠ 1) : St cfg q (n : ℚ) := ⟨SM.simple _ h.sf h1, h.ne, h.rootOf _⟩

theorem em_one (q : ℚ) : (em (q, 1) : Expr D) = num (.rat q) := by simp [em, surd]

theorem rootE_nat {n : ℕ} (h1 : n ≠ 1) : (rootE (n : ℚ) : Expr D) = .pow (num (.rat n)) (num (.rat (1 / 2))) := by
  unfold rootE
  rw [if_neg (by simpa using h1)]

theorem em_root {m : Mo} (h1 : m.2 ≠ 1) : (em m : Expr D) = if m.1 = 1 then rootE (m.2 : ℚ) else .prod [num (.rat m.1), rootE (m.2 : ℚ)] := by
  unfold em surd
  rw [if_neg (by exact_mod_cast h1)]

/-! ## The order -/

theorem perm_num (a b : ℚ) : doPermute (num (.rat a) : Expr D) (num (.rat b)) = decide (b < a) := by
  rw [doPermute_eq]
  simp [permStep, permSame, lt_rat]

theorem perm_root {a b : ℕ} (ha : a ≠ 1) (hb : b ≠ 1) (hne : a ≠ b) : doPermute (rootE (a : ℚ) : Expr D) (rootE (b : ℚ)) = decide (b < a) := by
  rw [doPermute_eq, rootE_nat ha, rootE_nat hb]
  have : isEqual (num (.rat (a : ℚ)) : Expr D) (num (.rat (b : ℚ))) = false := isEqual_ne (exact_ratE _) (exact_ratE _) (by simpa using hne)
  simp only [permStep, permSame, this, Bool.not_false, if_true, perm_num]
  simp

theorem root_ne {a b : ℕ} (ha : a ≠ 1) (hb : b ≠ 1) (hne : a ≠ b) : isEqual (rootE (a : ℚ) : Expr D) (rootE (b : ℚ)) = false := by
  refine isEqual_ne (rootE_exact _) (rootE_exact _) ?_
  rw [rootE_nat ha, rootE_nat hb]
  simpa using hne

theorem perm_em {m n : Mo} (hm : m.2 ≠ 0) (hn : n.2 ≠ 0) (hne : m.2 ≠ n.2) : doPermute (em m : Expr D) (em n) = decide (n.2 < m.2) := by
  by_cases m1 : m.2 = 1
  · obtain ⟨p, a⟩ := m
    simp only at m1 hm hne ⊢
    subst m1
    rw [em_one, doPermute_eq, em_root (Ne.symm hne), decide_eq_false (by omega)]
    have hb := rootE_nat (D := D) (n := n.2) (Ne.symm hne)
    split <;> simp [permStep, permSame, permDiff, hb]
  by_cases n1 : n.2 = 1
  · obtain ⟨q, b⟩ := n
    simp only at n1 hn hne ⊢
    subst n1
    rw [em_one, doPermute_eq, em_root m1, decide_eq_true (by omega)]
    have ha := rootE_nat (D := D) (n := m.2) m1
    split <;> simp [permStep, permSame, permDiff, ha]
  have h1 := perm_root (D := D) m1 n1 hne
  have h2 := perm_root (D := D) n1 m1 (Ne.symm hne)
  have e1 := root_ne (D := D) m1 n1 hne
  have e2 := root_ne (D := D) n1 m1 (Ne.symm hne)
  have ha := rootE_nat (D := D) m1
  have hb := rootE_nat (D := D) n1
  rw [em_root m1, em_root n1]
  have s1 : ∀ (l : List (Expr D)) (n : ℕ), n ≠ 1 → permSame doPermute (.prod l) (rootE (n : ℚ) : Expr D) = none := fun l n hn => by rw [rootE_nat hn]; rfl
  have s2 : ∀ (l : List (Expr D)) (n : ℕ), n ≠ 1 → permSame doPermute (rootE (n : ℚ) : Expr D) (.prod l) = none := fun l n hn => by rw [rootE_nat hn]; rfl
  have s3 : ∀ (l : List (Expr D)) (n : ℕ), n ≠ 1 → permDiff doPermute (.prod l) (rootE (n : ℚ) : Expr D) = some (permLast doPermute l (rootE (n : ℚ))) := fun l n hn => by rw [rootE_nat hn]; rfl
  have s4 : ∀ (l : List (Expr D)) (n : ℕ), n ≠ 1 → permDiff doPermute (rootE (n : ℚ) : Expr D) (.prod l) = none := fun l n hn => by rw [rootE_nat hn]; rfl
  split <;> split
  · exact h1
  · rw [doPermute_eq]
    simp only [permStep, s2 _ _ m1, s4 _ _ m1, s3 _ _ m1, permLast, List.getLast?_cons_cons, List.getLast?_singleton, e2, Bool.false_eq_true, if_false, h2]
    rw [← decide_not]
    simp only [not_lt, decide_eq_decide]
    omega
  · rw [doPermute_eq]
    simp only [permStep, s1 _ _ n1, s3 _ _ n1, permLast, List.getLast?_cons_cons, List.getLast?_singleton, e1, Bool.false_eq_true, if_false, h1]
  · rw [doPermute_eq]
    simp only [permStep, permSame, permLists, List.reverse_cons, List.reverse_nil, List.nil_append, List.cons_append, lexCmp, e1, e2, h1, h2, Bool.not_false, Bool.true_and]
    by_cases hlt : n.2 < m.2
    · simp [hlt, show ¬ m.2 < n.2 by omega]
    · simp [hlt, show m.2 < n.2 by omega]

/-! ## Two summands -/

theorem SM.isSum {m : Mo} (h : SM m.1 m.2) : (em m : Expr D).isSum = false := by
  by_cases h1 : m.2 = 1
  · unfold em surd; rw [h1]; rfl
  · exact (surd_facts (D := D) (cfg := Cfg.std 0) (by exact_mod_cast h1) h.ne).2.2.1

theorem SM.isZero {m : Mo} (h : SM m.1 m.2) : (em m : Expr D).isZero = false := by
  by_cases h1 : m.2 = 1
  · unfold em surd; rw [h1]; rw [if_pos (by simp), isZero_ratE]; simpa using h.ne
  · exact (surd_facts (D := D) (cfg := Cfg.std 0) (by exact_mod_cast h1) h.ne).2.1

theorem SM.isUndefined {m : Mo} (h : SM m.1 m.2) : (em m : Expr D).isUndefined = false := by
  by_cases h1 : m.2 = 1
  · unfold em surd; rw [h1]; rfl
  · exact (surd_facts (D := D) (cfg := Cfg.std 0) (by exact_mod_cast h1) h.ne).1

theorem em_exact (m : Mo) : Exact (em m : Expr D) := surd_exact _ _

theorem em_isConst (m : Mo) : (em m : Expr D).isConst = true := by
  by_cases h1 : m.2 = 1
  · unfold em surd; rw [h1]; simp [isConst]
  · exact surd_isConst (by exact_mod_cast h1)

theorem em_inj {m n : Mo} (h : (em m : Expr D) = em n) : m = n := by
  obtain ⟨p, a⟩ := m
  obtain ⟨q, b⟩ := n
  by_cases ha : a = 1 <;> by_cases hb : b = 1
  · subst ha; subst hb
    rw [em_one, em_one] at h
    simpa using h
  · subst ha
    rw [em_one, em_root hb, rootE_nat hb] at h
    split at h <;> cases h
  · subst hb
    rw [em_one, em_root ha, rootE_nat ha] at h
    split at h <;> cases h
  · rw [em_root ha, em_root hb, rootE_nat ha, rootE_nat hb] at h
    simp only at h
    split at h <;> split at h <;> rename_i h1 h2
    · simp at h; simp [h, h1, h2]
    · simp at h
    · simp at h
    · simp at h; simp [h]

theorem SM.add {p q : ℚ} {n : ℕ} (h : SM p n) (h' : SM q n) (hs : p + q ≠ 0) : SM (p + q) n :=
  ⟨hs, h.sf, Nat.Coprime.coprime_dvd_left (Rat.add_den_dvd p q) (Nat.Coprime.mul_left h.cop h'.cop)⟩

theorem SM.mul {p q : ℚ} {n : ℕ} (hp : p ≠ 0) (hc : p.den.Coprime n) (h : SM q n) : SM (p * q) n :=
  ⟨mul_ne_zero hp h.ne, h.sf, Nat.Coprime.coprime_dvd_left (Rat.mul_den_dvd p q) (Nat.Coprime.mul_left hc h.cop)⟩

/-- What two summands give. -/
inductive Two (D : Type) [Flt D] (m m' : Mo) (r : List (Expr D)) : Prop
  | gone (hr : r = []) (hs : m.1 + m'.1 = 0) (he : m.2 = m'.2)
  | one (hr : r = [em (m.1 + m'.1, m.2)]) (hs : m.1 + m'.1 ≠ 0) (he : m.2 = m'.2)
  | both (hr : r = ordered (em m) (em m')) (hne : m.2 ≠ m'.2)

theorem tot_prod_one_em (n : ℕ) (h1 : n ≠ 1) : Tot cfg (fun E => prodCreate E [num (.rat 1), (rootE (n : ℚ) : Expr D)]) (rootE (n : ℚ)) :=
  (tot_prod_one_root (D := D) (cfg := cfg) (n : ℚ)).1

theorem tot_two {m m' : Mo} (h : SM m.1 m.2) (h' : SM m'.1 m'.2) :
    ∃ r, Tot cfg (fun E => simplTwoSummandsWithoutSum E (em m : Expr D) (em m')) r ∧ Two D m m' r := by
  obtain ⟨p, a⟩ := m
  obtain ⟨q, b⟩ := m'
  have z1 : (em (p, a) : Expr D).isZero = false := h.isZero
  have z2 : (em (q, b) : Expr D).isZero = false := h'.isZero
  have ho : (one : Expr D).isOne = true := by rw [one_eq, isOne_ratE]; simp
  have main : ∀ r, ((em (p, a) : Expr D).isNumeric = false ∨ (em (q, b) : Expr D).isNumeric = false) →
      Tot cfg (fun E => simplTwoOther E (em (p, a) : Expr D) (em (q, b))) r →
      Tot cfg (fun E => simplTwoSummandsWithoutSum E (em (p, a) : Expr D) (em (q, b))) r := by
    intro r hn t
    unfold simplTwoSummandsWithoutSum
    simp only [z1, z2, Bool.false_eq_true, if_false]
    split
    · rename_i x y e1 e2
      rw [e1, e2] at hn
      rcases hn with h | h <;> cases h
    · exact t
  by_cases hab : a = b
  · subst hab
    by_cases ha : a = 1
    · subst ha
      simp only [em_one] at z1 z2 ⊢
      refine ⟨addNumerics (.rat p) (.rat q), ?_, ?_⟩
      · unfold simplTwoSummandsWithoutSum
        simp only [z1, z2, Bool.false_eq_true, if_false]
        exact tot_pure _
      · have he : ((Number.rat p : Number D).add (.rat q)).eqv 0 = decide (p + q = 0) := by
          have : (Number.rat p : Number D).add (.rat q) = .rat (p + q) := by simp [Number.add]
          rw [this]
          have := isZero_ratE (D := D) (p + q)
          simpa [Expr.isZero] using this
        unfold addNumerics
        rw [he]
        by_cases h0 : p + q = 0
        · exact .gone (by simp [h0]) h0 rfl
        · refine .one ?_ h0 rfl
          simp only [h0, decide_false, Bool.false_eq_true, if_false, em_one]
          simp [Number.add]
    · obtain ⟨_, _, _, n1, a1, b1, c1⟩ := surd_facts (D := D) (cfg := cfg) (p := p) (r := (a : ℚ)) (by exact_mod_cast ha) h.ne
      obtain ⟨_, _, _, n2, a2, b2, c2⟩ := surd_facts (D := D) (cfg := cfg) (p := q) (r := (a : ℚ)) (by exact_mod_cast ha) h'.ne
      refine ⟨if p + q = 0 then [] else [em (p + q, a)], main _ (.inl n1) ?_, ?_⟩
      · unfold simplTwoOther
        refine tot_bind (a := false) (tot_whenTrue ?_) ?_
        · unfold haveEqualNonConstTerms
          refine tot_bind a1 (tot_bind a2 ?_)
          simp only [ho, Bool.or_self, if_true]; exact tot_pure _
        simp only [Bool.false_eq_true, if_false]
        refine tot_bind (a := true) (tot_whenTrue ?_) ?_
        · unfold haveEqualNonNumericTerms
          refine tot_bind b1 (tot_bind b2 ?_)
          rw [isEqual_refl (rootE_exact _)]; exact tot_pure _
        simp only [if_true]
        unfold simplEqualNonNumericTerms
        refine tot_bind c1 (tot_bind c2 (tot_bind (tot_sum_num p q) (tot_bind b1 ?_)))
        by_cases h0 : p + q = 0
        · rw [h0]
          simp only [if_true]
          refine tot_bind (a := zero) (tot_prod ?_) ?_
          · have u : (num (.rat 0) : Expr D).isUndefined = false := rfl
            have z : (num (.rat 0) : Expr D).isZero = true := by rw [isZero_ratE]; simp
            simp only [prodCreate, List.any_cons, List.any_nil, u, z, rootE_isUndefined, Bool.or_self, Bool.true_or, Bool.false_eq_true, if_false, if_true]
            exact tot_pure _
          · simp only [zero_eq, isZero_ratE, decide_true, if_true]; exact tot_pure _
        · simp only [h0, if_false]
          have hs := h.add h' h0
          refine tot_bind (a := em (p + q, a)) (tot_prod ?_) ?_
          · by_cases h1 : p + q = 1
            · rw [em_root ha, if_pos h1, h1]
              exact tot_prod_one_em a ha
            · exact (tot_prod_numRoot (SM.simple _ h.sf ha) h0 h1 (hs.rootOf _)).1
          · rw [SM.isZero (m := (p + q, a)) hs]
            exact tot_pure _
      · by_cases h0 : p + q = 0
        · exact .gone (by simp [h0]) h0 rfl
        · exact .one (by simp [h0]) h0 rfl
  · have cs : ∀ {p : ℚ} {a : ℕ}, SM p a → CS cfg (em (p, a) : Expr D) := by
      intro p a h
      by_cases ha : a = 1
      · subst ha; rw [em_one]; exact cs_num h.ne
      · exact (h.st ha).cs
    have nn : ∀ {p : ℚ} {a : ℕ}, SM p a → Tot cfg (fun E => nonNumericTerm E (em (p, a) : Expr D)) (if a = 1 then one else rootE (a : ℚ)) := by
      intro p a h
      by_cases ha : a = 1
      · subst ha; rw [em_one, if_pos rfl]; simp only [nonNumericTerm]; exact tot_pure _
      · rw [if_neg ha]; exact (surd_facts (D := D) (cfg := cfg) (by exact_mod_cast ha) h.ne).2.2.2.2.2.1
    have nu : ∀ {p : ℚ} {a : ℕ}, SM p a → a ≠ 1 → (em (p, a) : Expr D).isNumeric = false := fun h ha =>
      (surd_facts (D := D) (cfg := cfg) (by exact_mod_cast ha) h.ne).2.2.2.1
    refine ⟨ordered (em (p, a)) (em (q, b)), main _ ?_ ?_, .both rfl hab⟩
    · by_cases ha : a = 1
      · exact .inr (nu h' fun hb => hab (ha.trans hb.symm))
      · exact .inl (nu h ha)
    · have hne : isEqual (if a = 1 then (one : Expr D) else rootE (a : ℚ)) (if b = 1 then one else rootE (b : ℚ)) = false := by
        split <;> split
        · omega
        · rename_i h2
          refine isEqual_ne (by rw [one_eq]; exact exact_ratE _) (rootE_exact _) ?_
          rw [rootE_nat h2, one_eq]; simp
        · rename_i h2 _
          refine isEqual_ne (rootE_exact _) (by rw [one_eq]; exact exact_ratE _) ?_
          rw [rootE_nat h2, one_eq]; simp
        · rename_i h1 h2
          exact root_ne h1 h2 hab
      have hx := cs h
      have hy := cs h'
      unfold simplTwoOther
      refine tot_bind (a := false) (tot_whenTrue ?_) ?_
      · unfold haveEqualNonConstTerms
        refine tot_bind hx.nct (tot_bind hy.nct ?_)
        simp only [ho, Bool.or_self, if_true]; exact tot_pure _
      simp only [Bool.false_eq_true, if_false]
      refine tot_bind (a := false) (tot_whenTrue ?_) ?_
      · unfold haveEqualNonNumericTerms
        refine tot_bind (nn h) (tot_bind (nn h') ?_)
        rw [hne]; exact tot_pure _
      simp only [Bool.false_eq_true, if_false]
      refine tot_bind (a := false) (tot_whenTrue ?_) ?_
      · unfold haveContractableSinCos
        refine tot_bind hx.nct (tot_bind hy.nct (tot_bind hx.ct (tot_bind hy.ct ?_)))
        split
        · refine tot_bind (a := false) ?_ ?_
          · unfold areSinAndCosSquare
            simp only [show (one : Expr D).isPower = false from rfl, Bool.not_false, Bool.true_or, if_true]
            exact tot_pure _
          · simp only [Bool.false_eq_true, if_false]; exact tot_pure _
        · exact tot_pure _
      simp only [Bool.false_eq_true, if_false]
      exact tot_pure _

end Tsym.Sd
