import Verif.Holds

set_option autoImplicit false
set_option linter.unusedSectionVars false
set_option linter.unusedSimpArgs false

/-!
# Values of results: sums
-/

namespace Tsym

open Expr

variable {D : Type} [Flt D] [LawfulFlt D] {E : Eng D} {σ : Asg}

theorem Number.val_two : (2 : Number D).val = 2 := by
  show ((Nat.cast 2 : ℚ) : ℝ) = 2; simp

theorem vl_pure {e : Expr D} {v : ℝ} (h : den σ e = some v) : Vl σ (Pure.pure e) v := wp_pure h

/-- The value is the product of the values of the numeric and the other factors. -/
theorem numericTerm_vl (hE : Sound E) (hσ : σ.Respects) {e : Expr D} {v : ℝ} (h : den σ e = some v) :
    ∃ a b, v = a * b ∧ Vl σ (numericTerm e) a ∧ Vl σ (nonNumericTerm E e) b := by
  cases e
  case num n =>
    exact ⟨v, 1, by simp, wp_pure h, wp_pure (by simp)⟩
  case prod l =>
    cases l with
    | nil => exact ⟨v, 1, by simp, wp_err, wp_err⟩
    | cons x l =>
      simp only [den_prod] at h
      by_cases hx : x.isNumeric = true
      · obtain ⟨a, b, ha, hb, rfl⟩ := denProd_cons.1 h
        refine ⟨a, b, rfl, ?_, ?_⟩
        · simp only [numericTerm, hx, if_true]
          exact wp_pure ha
        · simp only [nonNumericTerm, hx, if_true]
          exact hE.prod hσ hb
      · refine ⟨1, v, by simp, ?_, ?_⟩
        · simp only [numericTerm, hx]
          exact wp_pure (by simp)
        · simp only [nonNumericTerm, hx]
          exact wp_pure (by simpa using h)
  all_goals exact ⟨1, v, by simp, wp_pure (by simp), wp_pure h⟩

/-- The value is the product of the values of the constant and the other factors. -/
theorem constTerm_vl (hE : Sound E) (hσ : σ.Respects) {e : Expr D} {v : ℝ} (h : den σ e = some v) :
    ∃ a b, v = a * b ∧ Vl σ (constTerm E e) a ∧ Vl σ (nonConstTerm E e) b := by
  have gen : ∃ a b, v = a * b ∧ Vl σ (Pure.pure (if e.isConst then e else one)) a ∧
      Vl σ (Pure.pure (if e.isConst then one else e)) b := by
    by_cases hc : e.isConst = true
    · exact ⟨v, 1, by simp, wp_pure (by simpa [hc] using h), wp_pure (by simp [hc])⟩
    · exact ⟨1, v, by simp, wp_pure (by simp [hc]), wp_pure (by simpa [hc] using h)⟩
  cases e
  case num n => exact ⟨v, 1, by simp, wp_pure h, wp_pure (by simp)⟩
  case prod l =>
    simp only [den_prod] at h
    obtain ⟨a, b, ha, hb, rfl⟩ := denProd_filter (p := isConst) h
    refine ⟨a, b, rfl, ?_, ?_⟩
    · unfold constTerm
      refine wp_ite (fun h0 => wp_pure ?_) fun _ => hE.prod hσ ha
      have : constElements l = [] := by simpa using h0
      unfold constElements at this
      rw [this] at ha
      simpa [denProd] using ha
    · unfold nonConstTerm
      refine wp_ite (fun h0 => wp_pure ?_) fun _ => hE.prod hσ hb
      have : nonConstElements l = [] := by simpa using h0
      unfold nonConstElements at this
      rw [this] at hb
      simpa [denProd] using hb
  all_goals exact gen

theorem denSum_ordered {a b : Expr D} {x y : ℝ} (ha : den σ a = some x) (hb : den σ b = some y) :
    denSum σ (ordered a b) = some (x + y) := by
  unfold ordered
  split
  · rw [denSum_two hb ha, add_comm]
  · exact denSum_two ha hb

theorem denProd_ordered {a b : Expr D} {x y : ℝ} (ha : den σ a = some x) (hb : den σ b = some y) :
    denProd σ (ordered a b) = some (x * y) := by
  unfold ordered
  split
  · rw [denProd_two hb ha, mul_comm]
  · exact denProd_two ha hb

theorem evalsTo_val {e : Expr D} {n : Number D} {C : Cond D → Prop} : wp C (evalsTo e n) fun b => b = true →
    ∀ σ v, den σ e = some v → v = n.val := by
  unfold evalsTo
  refine wp_bind (wp_lift fun a h => h) fun x hx => ?_
  split
  · rename_i y
    refine wp_pure fun h σ v hv => ?_
    rw [Number.eqv_iff] at h
    rw [← h, numEval_val σ e y v hx hv]
  · exact wp_pure (by simp)

theorem areSinAndCos_cases {a b : Expr D} (h : areSinAndCos a b = true) :
    (∃ x y, a = .fn .sin x ∧ b = .fn .cos y) ∨ ∃ x y, a = .fn .cos x ∧ b = .fn .sin y := by
  unfold areSinAndCos at h
  split at h
  · exact .inl ⟨_, _, rfl, rfl⟩
  · exact .inr ⟨_, _, rfl, rfl⟩
  · simp at h

theorem areSinAndCosSquare_wp {a b : Expr D} {C : Cond D → Prop} :
    wp C (areSinAndCosSquare a b) fun r => r = true → areSinAndCos a.base b.base = true ∧
      (∀ σ v, den σ a.exp = some v → v = 2) ∧ ∀ σ v, den σ b.exp = some v → v = 2 := by
  unfold areSinAndCosSquare
  refine wp_ite (fun _ => wp_pure (by simp)) fun _ => ?_
  refine wp_bind evalsTo_val fun b1 h1 => wp_ite (fun hb1 => ?_) fun _ => wp_pure (by simp)
  refine wp_bind evalsTo_val fun b2 h2 => wp_pure fun h => ?_
  rw [Bool.and_eq_true] at h
  refine ⟨h.2, fun σ v hv => ?_, fun σ v hv => ?_⟩
  · rw [h1 hb1 σ v hv, Number.val_two]
  · rw [h2 h.1 σ v hv, Number.val_two]

theorem haveEqualFirstOperands_wp (hE : Sound E) (hσ : σ.Respects) {p q a b : Expr D} {f g : Fn}
    {x y : ℝ} (hp : p.base = .fn f a) (hq : q.base = .fn g b) (ha : den σ a = some x)
    (hb : den σ b = some y) :
    wp (Cond.holds σ) (haveEqualFirstOperands E p q) fun r => r = true → x = y := by
  unfold haveEqualFirstOperands
  simp only [hp, hq, operands]
  refine wp_ite (fun h => wp_pure fun _ => ?_) fun _ => ?_
  · have := isEqual_den σ a b h
    rw [ha, hb] at this
    simpa using this
  · refine wp_bind (hE.normal hσ ha) fun n hn => wp_bind (hE.normal hσ hb) fun m hm => wp_pure fun h => ?_
    have := isEqual_den σ n m h
    rw [hn, hm] at this
    simpa using this

/-- The squares of sine and cosine of the same argument. -/
theorem sinCos_wp (hE : Sound E) (hσ : σ.Respects) {n1 n2 : Expr D} {v w : ℝ} (h1 : den σ n1 = some v)
    (h2 : den σ n2 = some w) (hs : areSinAndCos n1.base n2.base = true)
    (he1 : ∀ σ v, den σ n1.exp = some v → v = 2) (he2 : ∀ σ v, den σ n2.exp = some v → v = 2) :
    wp (Cond.holds σ) (haveEqualFirstOperands E n1 n2) fun r => r = true → v + w = 1 := by
  obtain ⟨x1, y1, hx1, hy1, hp1⟩ := den_base_exp h1
  obtain ⟨x2, y2, hx2, hy2, hp2⟩ := den_base_exp h2
  have e1 := he1 σ y1 hy1
  have e2 := he2 σ y2 hy2
  subst e1 e2
  rw [Spec.pow_two'] at hp1 hp2
  simp only [Option.some.injEq] at hp1 hp2
  subst hp1 hp2
  rcases areSinAndCos_cases hs with ⟨a, b, ha, hb⟩ | ⟨a, b, ha, hb⟩
  · rw [ha] at hx1; rw [hb] at hx2
    obtain ⟨x, hx, hx1⟩ := den_fn.1 hx1
    obtain ⟨y, hy, hx2⟩ := den_fn.1 hx2
    refine wp_mono (haveEqualFirstOperands_wp hE hσ ha hb hx hy) fun r hr h => ?_
    have := hr h
    subst this
    simp only [Spec.fn, Option.some.injEq] at hx1 hx2
    rw [← hx1, ← hx2, Real.sin_sq_add_cos_sq]
  · rw [ha] at hx1; rw [hb] at hx2
    obtain ⟨x, hx, hx1⟩ := den_fn.1 hx1
    obtain ⟨y, hy, hx2⟩ := den_fn.1 hx2
    refine wp_mono (haveEqualFirstOperands_wp hE hσ ha hb hx hy) fun r hr h => ?_
    have := hr h
    subst this
    simp only [Spec.fn, Option.some.injEq] at hx1 hx2
    rw [← hx1, ← hx2, Real.cos_sq_add_sin_sq]

theorem simplTwoOther_vl (hE : Sound E) (hσ : σ.Respects) {s1 s2 : Expr D} {v w : ℝ}
    (h1 : den σ s1 = some v) (h2 : den σ s2 = some w) : VlSum σ (simplTwoOther E s1 s2) (v + w) := by
  obtain ⟨a1, b1, hv, hc1, hn1⟩ := constTerm_vl hE hσ h1
  obtain ⟨a2, b2, hw, hc2, hn2⟩ := constTerm_vl hE hσ h2
  obtain ⟨c1, d1, hv', hc1', hn1'⟩ := numericTerm_vl hE hσ h1
  obtain ⟨c2, d2, hw', hc2', hn2'⟩ := numericTerm_vl hE hσ h2
  unfold simplTwoOther
  have t1 : wp (Cond.holds σ) (haveEqualNonConstTerms E s1 s2) fun b => b = true → b1 = b2 := by
    unfold haveEqualNonConstTerms
    refine wp_bind hn1 fun m1 hm1 => wp_bind hn2 fun m2 hm2 => wp_pure ?_
    split
    · simp
    · intro h
      have := isEqual_den σ m1 m2 h
      rw [hm1, hm2] at this
      simpa using this
  refine wp_bind (wp_whenTrue t1) fun b hb => wp_ite (fun h => ?_) fun _ => ?_
  · have hb := hb h
    unfold simplEqualNonConstTerms
    refine wp_bind hc1 fun m1 hm1 => wp_bind hc2 fun m2 hm2 => ?_
    refine wp_bind (hE.sum hσ (denSum_two hm1 hm2)) fun s hs => wp_ite (fun _ => ?_) fun _ => ?_
    · refine wp_bind hn1 fun n hn => ?_
      refine wp_bind (hE.prod hσ (denProd_two hs hn)) fun p hp => wp_pure ?_
      rw [denSum_one, hp, hv, hw, hb]
      congr 1; ring
    · exact wp_pure (denSum_ordered h1 h2)
  have t2 : wp (Cond.holds σ) (haveEqualNonNumericTerms E s1 s2) fun b => b = true → d1 = d2 := by
    unfold haveEqualNonNumericTerms
    refine wp_bind hn1' fun m1 hm1 => wp_bind hn2' fun m2 hm2 => wp_pure fun h => ?_
    have := isEqual_den σ m1 m2 h
    rw [hm1, hm2] at this
    simpa using this
  refine wp_bind (wp_whenTrue t2) fun b hb => wp_ite (fun h => ?_) fun _ => ?_
  · have hb := hb h
    unfold simplEqualNonNumericTerms
    refine wp_bind hc1' fun m1 hm1 => wp_bind hc2' fun m2 hm2 => ?_
    refine wp_bind (hE.sum hσ (denSum_two hm1 hm2)) fun s hs => ?_
    refine wp_bind hn1' fun n hn => ?_
    refine wp_bind (hE.prod hσ (denProd_two hs hn)) fun p hp => wp_pure ?_
    have hval : (c1 + c2) * d1 = v + w := by rw [hv', hw', ← hb]; ring
    rw [hval] at hp
    split
    · rename_i hz
      rw [den_isZero hz] at hp
      simpa [denSum] using hp
    · rw [denSum_one, hp]
  have t3 : wp (Cond.holds σ) (haveContractableSinCos E s1 s2) fun b => b = true → a1 = a2 ∧ b1 + b2 = 1 := by
    unfold haveContractableSinCos
    refine wp_bind hn1 fun n1 hn1 => wp_bind hn2 fun n2 hn2 => ?_
    refine wp_bind hc1 fun m1 hm1 => wp_bind hc2 fun m2 hm2 => ?_
    refine wp_ite (fun he => ?_) fun _ => wp_pure (by simp)
    have heq := isEqual_den σ m1 m2 he
    rw [hm1, hm2] at heq
    refine wp_bind areSinAndCosSquare_wp fun b hb => wp_ite (fun h => ?_) fun _ => wp_pure (by simp)
    obtain ⟨k1, k2, k3⟩ := hb h
    exact wp_mono (sinCos_wp hE hσ hn1 hn2 k1 k2 k3) fun r hr h => ⟨by simpa using heq, hr h⟩
  refine wp_bind (wp_whenTrue t3) fun b hb => wp_ite (fun h => ?_) fun _ => ?_
  · obtain ⟨k1, k2⟩ := hb h
    refine wp_bind hc1 fun c hc => wp_pure ?_
    rw [denSum_one, hc, hv, hw, ← k1, ← mul_add, k2, mul_one]
  · exact wp_pure (denSum_ordered h1 h2)

theorem denSum_summands {e : Expr D} : denSum σ (summands e) = den σ e := by
  unfold summands
  split
  · rfl
  · exact denSum_one

theorem simplTwoSummands_vl (hE : Sound E) (hσ : σ.Respects) {s1 s2 : Expr D} {v w : ℝ}
    (h1 : den σ s1 = some v) (h2 : den σ s2 = some w) : VlSum σ (simplTwoSummands E s1 s2) (v + w) := by
  unfold simplTwoSummands
  refine wp_ite (fun _ => ?_) fun _ => ?_
  · exact hE.mergeSum hσ (by rw [denSum_summands, h1]) (by rw [denSum_summands, h2])
  unfold simplTwoSummandsWithoutSum
  refine wp_ite (fun hz => wp_pure ?_) fun _ => wp_ite (fun hz => wp_pure ?_) fun _ => ?_
  · rw [den_isZero hz] at h1
    rw [denSum_one, h2]
    simp only [Option.some.injEq] at h1
    simp [← h1]
  · rw [den_isZero hz] at h2
    rw [denSum_one, h1]
    simp only [Option.some.injEq] at h2
    simp [← h2]
  split
  · rename_i a b _ _
    simp only [den_num, Option.some.injEq] at h1 h2
    refine wp_pure ?_
    unfold addNumerics
    split
    · rename_i h
      rw [Number.eqv_iff, Number.val_add, h1, h2] at h
      simp [denSum, h]
    · rw [denSum_one]
      simp [h1, h2]
  · exact simplTwoOther_vl hE hσ h1 h2

theorem mergeSum_vl (hE : Sound E) (hσ : σ.Respects) {l m : List (Expr D)} {v w : ℝ}
    (hl : denSum σ l = some v) (hm : denSum σ m = some w) : VlSum σ (mergeSum E l m) (v + w) := by
  unfold mergeSum
  split
  · simp only [denSum, Option.some.injEq] at hl
    exact wp_pure (by rw [hm, ← hl, zero_add])
  · simp only [denSum, Option.some.injEq] at hm
    exact wp_pure (by rw [hl, ← hm, add_zero])
  · rename_i p1 pR q1 qR
    obtain ⟨x1, y1, hx1, hy1, rfl⟩ := denSum_cons.1 hl
    obtain ⟨x2, y2, hx2, hy2, rfl⟩ := denSum_cons.1 hm
    refine wp_bind (simplTwoSummands_vl hE hσ hx1 hx2) fun res hres => ?_
    split
    · simp only [denSum, Option.some.injEq] at hres
      refine wp_mono (hE.mergeSum hσ hy1 hy2) fun r hr => ?_
      rw [hr]; congr 1; linarith
    · rename_i r
      rw [denSum_one] at hres
      refine wp_ite (fun hz => ?_) fun _ => ?_
      · rw [den_isZero hz] at hres
        simp only [Option.some.injEq] at hres
        refine wp_mono (hE.mergeSum hσ hy1 hy2) fun r hr => ?_
        rw [hr]; congr 1; linarith
      · refine wp_bind (hE.mergeSum hσ hy1 hy2) fun m hm => wp_pure ?_
        exact denSum_cons.2 ⟨_, _, hres, hm, by ring⟩
    · refine wp_ite (fun _ => ?_) fun _ => wp_ite (fun _ => ?_) fun _ => ?_
      · refine wp_bind (hE.mergeSum hσ hy1 hm) fun m hm => wp_pure ?_
        exact denSum_cons.2 ⟨_, _, hx1, hm, by ring⟩
      · refine wp_bind (hE.mergeSum hσ hl hy2) fun m hm => wp_pure ?_
        exact denSum_cons.2 ⟨_, _, hx2, hm, by ring⟩
      · exact wp_bind (P := fun _ => False) (wp_log fun h => h) fun _ h => h.elim

theorem simplSum_vl (hE : Sound E) (hσ : σ.Respects) {l : List (Expr D)} {v : ℝ}
    (hl : denSum σ l = some v) : VlSum σ (simplSum E l) v := by
  unfold simplSum
  split
  · exact wp_err
  · obtain ⟨x, y, hx, hy, rfl⟩ := denSum_pair hl
    exact simplTwoSummands_vl hE hσ hx hy
  · obtain ⟨x, y, hx, hy, rfl⟩ := denSum_cons.1 hl
    refine wp_bind (hE.simplSum hσ hy) fun r hr => ?_
    exact hE.mergeSum hσ (by rw [denSum_summands, hx]) hr

theorem no_undef {l : List (Expr D)} (h : ∀ x ∈ l, ∃ w, den σ x = some w) : l.any isUndefined = false := by
  rw [List.any_eq_false]
  intro x hx
  obtain ⟨w, hw⟩ := h x hx
  simp [not_undef hw]

theorem sumCreate_vl (hE : Sound E) (hσ : σ.Respects) {l : List (Expr D)} {v : ℝ}
    (hl : denSum σ l = some v) : Vl σ (sumCreate E l) v := by
  unfold sumCreate
  rw [no_undef (den_mem_sum hl)]
  simp only [Bool.false_eq_true, if_false]
  split
  · rw [denSum_one] at hl
    exact wp_pure hl
  · refine wp_bind (hE.sumSimplify hσ hl) fun r hr => ?_
    split
    · simp only [denSum, Option.some.injEq] at hr
      exact wp_pure (by simp [← hr])
    · rw [denSum_one] at hr
      exact wp_pure hr
    · exact wp_pure hr

end Tsym
