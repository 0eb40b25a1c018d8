import Verif.SoundPow
import Verif.Engine

/-!
# Sign queries without logarithms

They record no conditions, so that the answers are right under all assignments.
-/

set_option autoImplicit false

namespace Tsym

open Expr

variable {D : Type} [Flt D] [LawfulFlt D] {σ : Asg} {E : Eng D} {P : Expr D → Prop}

/-- Sign queries meet only logarithms of arguments in the set `P`; those in exponents, and in the arguments of
functions other than atan, are never looked at. -/
inductive NoLog (P : Expr D → Prop) : Expr D → Prop
  | num (n : Number D) : NoLog P (.num n)
  | sym (s : Sym) : NoLog P (.sym s)
  | cst (c : Cst) : NoLog P (.cst c)
  | undef : NoLog P .undef
  | sum (l : List (Expr D)) : (∀ a ∈ l, NoLog P a) → NoLog P (.sum l)
  | prod (l : List (Expr D)) : (∀ a ∈ l, NoLog P a) → NoLog P (.prod l)
  | pow (b e : Expr D) : NoLog P b → NoLog P (.pow b e)
  | atan (a : Expr D) : NoLog P a → NoLog P (.fn .atan a)
  | fn (f : Fn) (a : Expr D) : f ≠ .log → f ≠ .atan → NoLog P (.fn f a)
  | atan2 (a b : Expr D) : NoLog P (.atan2 a b)
  | log (a : Expr D) : P a → NoLog P (.fn .log a)

/-- The bases of powers that sign queries meet are not zero. -/
inductive BasesNZ (σ : Asg) : Expr D → Prop
  | num (n : Number D) : BasesNZ σ (.num n)
  | sym (s : Sym) : BasesNZ σ (.sym s)
  | cst (c : Cst) : BasesNZ σ (.cst c)
  | undef : BasesNZ σ .undef
  | sum (l : List (Expr D)) : (∀ a ∈ l, BasesNZ σ a) → BasesNZ σ (.sum l)
  | prod (l : List (Expr D)) : (∀ a ∈ l, BasesNZ σ a) → BasesNZ σ (.prod l)
  | pow (b e : Expr D) : BasesNZ σ b → den σ b ≠ some 0 → BasesNZ σ (.pow b e)
  | atan (a : Expr D) : BasesNZ σ a → BasesNZ σ (.fn .atan a)
  | fn (f : Fn) (a : Expr D) : f ≠ .atan → f ≠ .log → BasesNZ σ (.fn f a)
  | atan2 (a b : Expr D) : BasesNZ σ (.atan2 a b)

/-- The non-negative numbers (`k` false), or the positive ones. -/
def Kpos (k : Bool) (x : ℝ) : Prop := if k then 0 < x else 0 ≤ x

theorem Kpos.of_pos {k : Bool} {x : ℝ} (h : 0 < x) : Kpos k x := by cases k <;> simp [Kpos, h, h.le]
theorem Kpos.nn {k : Bool} {x : ℝ} (h : Kpos k x) : 0 ≤ x := by
  cases k
  · simpa [Kpos] using h
  · exact le_of_lt (by simpa [Kpos] using h)
theorem Kpos.add {k : Bool} {x y : ℝ} (hx : Kpos k x) (hy : 0 ≤ y) : Kpos k (x + y) := by
  cases k <;> simp only [Kpos, if_true, if_false, Bool.false_eq_true] at * <;> linarith
theorem Kpos.mul {k : Bool} {x y : ℝ} (hx : Kpos k x) (hy : Kpos k y) : Kpos k (x * y) := by
  cases k <;> simp only [Kpos, if_true, if_false, Bool.false_eq_true] at *
  · exact mul_nonneg hx hy
  · exact mul_pos hx hy

/-- What the sign queries of the functions of a level say. -/
structure SignsOk (P : Expr D → Prop) (k : Bool) (σ : Asg) (E : Eng D) : Prop where
  pos : ∀ {a : Expr D} {v : ℝ}, NoLog P a → (k = true → BasesNZ σ a) → den σ a = some v →
    wp (fun _ => True) (E.isPos a) fun b => b = true → Kpos k v
  neg : ∀ {a : Expr D} {v : ℝ}, NoLog P a → (k = true → BasesNZ σ a) → den σ a = some v →
    wp (fun _ => True) (E.isNeg a) fun b => b = true → Kpos k (-v)
  sum : ∀ {a : Expr D} {v : ℝ}, P a → den σ a = some v →
    wp (fun _ => True) (E.sumCreate [a, mOne]) fun r => NoLog P r ∧ den σ r = some (v - 1)

theorem sign_strict {n : Number D} {r : ℤ} (h : n.sign = .ok r) :
    (r = 1 → 0 < n.val) ∧ (r = -1 → n.val < 0) := by
  unfold Number.sign at h
  split at h
  · rename_i hl
    rw [Number.lt_iff, Number.val_zero] at hl
    cases h
    exact ⟨by simp, fun _ => hl⟩
  split at h
  · rename_i hl
    rw [Number.lt_iff, Number.val_zero] at hl
    cases h
    exact ⟨fun _ => hl, by simp⟩
  split at h
  · cases h
    exact ⟨by simp, by simp⟩
  · cases h

theorem signSymbolic_wp {k : Bool} (hE : SignsOk P k σ E) {l : List (Expr D)} :
    ∀ {acc : ℤ} {n s c : ℝ}, (∀ a ∈ l, NoLog P a) → (k = true → ∀ a ∈ l, BasesNZ σ a) → SplitNum σ l n s →
    (0 < acc → Kpos k c) → (acc < 0 → Kpos k (-c)) → (acc = 0 → c = 0) →
    -1 ≤ acc → acc ≤ 1 → wp (fun _ => True) (signOfSymbolicParts E acc l) fun r =>
      (0 < r → Kpos k (c + s)) ∧ (r < 0 → Kpos k (-(c + s))) ∧ -1 ≤ r ∧ r ≤ 1 := by
  induction l with
  | nil =>
    intro acc n s c _ _ h h1 h2 h3 h4 h5
    obtain ⟨rfl, rfl⟩ := h
    exact wp_pure ⟨by simpa using h1, by simpa using h2, h4, h5⟩
  | cons a l ih =>
    intro acc n s c hl hz h h1 h2 h3 h4 h5
    obtain ⟨x, n', s', hx, hs, hc⟩ := h
    have hl' : ∀ a ∈ l, NoLog P a := fun b hb => hl b (by simp [hb])
    have hz' : k = true → ∀ a ∈ l, BasesNZ σ a := fun hk b hb => hz hk b (by simp [hb])
    unfold signOfSymbolicParts
    refine wp_bind (wp_lift fun a h => h) fun m hm => ?_
    rcases hc with ⟨⟨q, hq⟩, rfl, rfl⟩ | ⟨hq, rfl, rfl⟩
    · rw [hq] at hm
      cases hm
      exact ih hl' hz' hs h1 h2 h3 h4 h5
    · cases m with
      | some q => exact absurd ⟨q, hm⟩ hq
      | none =>
        dsimp only
        refine wp_bind (wp_whenTrue (hE.pos (hl a (by simp)) (fun hk => hz hk a (by simp)) hx)) fun p hp => ?_
        refine wp_ite (fun h => ?_) fun _ => ?_
        · simp only [Bool.and_eq_true, decide_eq_true_eq] at h
          have h0 := hp h.1
          have hc : 0 ≤ c := by
            rcases h.2.lt_or_eq with h | h
            · exact (h1 h).nn
            · exact (h3 h.symm).ge
          have := ih (acc := 1) (c := c + x) hl' hz' hs (fun _ => by rw [add_comm]; exact h0.add hc) (by simp) (by simp)
            (by simp) (by simp)
          simpa [add_assoc] using this
        · refine wp_bind (wp_whenTrue (hE.neg (hl a (by simp)) (fun hk => hz hk a (by simp)) hx)) fun p hp => ?_
          refine wp_ite (fun h => ?_) fun _ => wp_pure (by simp)
          simp only [Bool.and_eq_true, decide_eq_true_eq] at h
          have h0 := hp h.1
          have hc : 0 ≤ -c := by
            rcases h.2.lt_or_eq with h | h
            · exact (h2 h).nn
            · exact (by simp [h3 h])
          have := ih (acc := -1) (c := c + x) hl' hz' hs (by simp)
            (fun _ => by rw [neg_add, add_comm]; exact h0.add hc) (by simp) (by simp) (by simp)
          simpa [add_assoc] using this

theorem signNumeric_strict {l : List (Expr D)} : ∀ {acc : Number D} {n s : ℝ} {r : ℤ}, SplitNum σ l n s →
    signOfNumericParts acc l = .ok r → (r = 1 → 0 < acc.val + n) ∧ (r = -1 → acc.val + n < 0) := by
  induction l with
  | nil =>
    intro acc n s r h hr
    obtain ⟨rfl, rfl⟩ := h
    simpa using sign_strict hr
  | cons a l ih =>
    intro acc n s r h hr
    obtain ⟨x, n', s', hx, hs, hc⟩ := h
    simp only [signOfNumericParts, Except.bind_ok] at hr
    obtain ⟨m, hm, hr⟩ := hr
    rcases hc with ⟨⟨k, hk⟩, rfl, rfl⟩ | ⟨hk, rfl, rfl⟩
    · rw [hk] at hm
      cases hm
      have := ih hs hr
      rw [Number.val_add, numEval_val σ a k x hk hx] at this
      simpa [add_assoc] using this
    · cases m with
      | some k => exact absurd ⟨k, hm⟩ hk
      | none => exact ih hs hr

theorem signSum_wp {k : Bool} (hE : SignsOk P k σ E) {l : List (Expr D)} {v : ℝ} (hl : ∀ a ∈ l, NoLog P a)
    (hz : k = true → ∀ a ∈ l, BasesNZ σ a) (h : denSum σ l = some v) :
    wp (fun _ => True) (signOfSum E l) fun r => (r = 1 → Kpos k v) ∧ (r = -1 → Kpos k (-v)) := by
  unfold signOfSum
  obtain ⟨n, s, hs, rfl⟩ := splitNum_of h
  refine wp_bind (wp_lift fun a h => h) fun a ha => ?_
  obtain ⟨-, -, a3, a4, a5⟩ := signOfNumericParts_ok hs ha
  obtain ⟨a1, a2⟩ := signNumeric_strict hs ha
  simp only [Number.val_zero, zero_add] at a1 a2 a3
  refine wp_bind (signSymbolic_wp hE (acc := 0) (c := 0) hl hz hs (by simp) (by simp) (by simp)
    (by simp) (by simp)) fun b hb => wp_pure ?_
  simp only [zero_add] at hb
  obtain ⟨b1, b2, b3, b4⟩ := hb
  split
  · rename_i h0
    have := a3 h0
    subst h0
    refine ⟨fun h => ?_, fun h => ?_⟩
    · have hb := b1 (by omega); rwa [this, zero_add]
    · have hb := b2 (by omega); rwa [this, zero_add]
  split
  · refine ⟨fun _ => Kpos.add (Kpos.of_pos (a1 (by omega))) (b1 (by omega)).nn, by simp⟩
  split
  · refine ⟨by simp, fun _ => ?_⟩
    rw [neg_add]
    exact Kpos.add (Kpos.of_pos (by linarith [a2 (by omega)])) (b2 (by omega)).nn
  · simp

theorem signProduct_wp {k : Bool} (hE : SignsOk P k σ E) {l : List (Expr D)} :
    ∀ {acc : ℤ} {v : ℝ}, (∀ a ∈ l, NoLog P a) → (k = true → ∀ a ∈ l, BasesNZ σ a) → denProd σ l = some v →
    acc = 1 ∨ acc = -1 → wp (fun _ => True) (signOfProduct E acc l) fun r =>
      (r = 1 → Kpos k (acc * v)) ∧ (r = -1 → Kpos k (-(acc * v))) := by
  induction l with
  | nil =>
    intro acc v _ _ h ha
    simp only [denProd, Option.some.injEq] at h
    subst h
    refine wp_pure ⟨?_, ?_⟩ <;> rintro rfl <;> exact Kpos.of_pos (by norm_num)
  | cons a l ih =>
    intro acc v hl hz h ha
    obtain ⟨x, y, hx, hy, rfl⟩ := denProd_cons.1 h
    have hl' : ∀ a ∈ l, NoLog P a := fun b hb => hl b (by simp [hb])
    have hz' : k = true → ∀ a ∈ l, BasesNZ σ a := fun hk b hb => hz hk b (by simp [hb])
    unfold signOfProduct
    refine wp_bind (wp_whenTrue (hE.pos (hl a (by simp)) (fun hk => hz hk a (by simp)) hx)) fun p hp =>
      wp_ite (fun h => ?_) fun _ => ?_
    · refine wp_mono (ih hl' hz' hy ha) fun r hr => ⟨fun h1 => ?_, fun h1 => ?_⟩
      · have := (hp h).mul (hr.1 h1)
        rwa [show x * ((acc : ℝ) * y) = acc * (x * y) by ring] at this
      · have := (hp h).mul (hr.2 h1)
        rwa [show x * (-((acc : ℝ) * y)) = -(acc * (x * y)) by ring] at this
    · refine wp_bind (wp_whenTrue (hE.neg (hl a (by simp)) (fun hk => hz hk a (by simp)) hx)) fun p hp =>
        wp_ite (fun h => ?_) fun _ => wp_pure (by simp)
      refine wp_mono (ih (acc := acc * -1) hl' hz' hy (by omega)) fun r hr => ⟨fun h1 => ?_, fun h1 => ?_⟩
      · have := (hp h).mul (hr.1 h1)
        push_cast at this
        rwa [show -x * ((acc : ℝ) * -1 * y) = acc * (x * y) by ring] at this
      · have := (hp h).mul (hr.2 h1)
        push_cast at this
        rwa [show -x * (-((acc : ℝ) * -1 * y)) = -(acc * (x * y)) by ring] at this

theorem signEvalPos_wp {k : Bool} {e : Expr D} {v : ℝ} (h : den σ e = some v) :
    wp (fun _ => True) (evalIsPos e) fun b => b = true → Kpos k v := by
  unfold evalIsPos
  refine wp_bind (wp_lift fun a h => h) fun n hn => ?_
  split
  · rename_i x
    refine wp_pure fun hl => ?_
    rw [Number.lt_iff, Number.val_zero, numEval_val σ e x v hn h] at hl
    exact .of_pos hl
  · exact wp_pure (by simp)

theorem signEvalNeg_wp {k : Bool} {e : Expr D} {v : ℝ} (h : den σ e = some v) :
    wp (fun _ => True) (evalIsNeg e) fun b => b = true → Kpos k (-v) := by
  unfold evalIsNeg
  refine wp_bind (wp_lift fun a h => h) fun n hn => ?_
  split
  · rename_i x
    refine wp_pure fun hl => ?_
    rw [Number.lt_iff, Number.val_zero, numEval_val σ e x v hn h] at hl
    exact .of_pos (by linarith)
  · exact wp_pure (by simp)

theorem Kpos.pow {k : Bool} {x y v : ℝ} (h : Spec.pow x y = some v) (hx : Kpos k x) : Kpos k v := by
  rw [(Spec.pow_some h).2]
  cases k
  · exact Real.rpow_nonneg (by simpa [Kpos] using hx) y
  · exact Real.rpow_pos_of_pos (by simpa [Kpos] using hx) y

theorem Kpos.atan {k : Bool} {x : ℝ} (hx : Kpos k x) : Kpos k (Real.arctan x) := by
  cases k
  · simpa [Kpos] using hx
  · simpa [Kpos] using hx

theorem Kpos.even {k : Bool} {n : Number D} {x v : ℝ} (h : Spec.pow x n.val = some v) (hr : n.isRational = true)
    (he : n.numerator % 2 = 0) (h0 : k = true → x ≠ 0) : Kpos k v := by
  have h1 := pow_even_nn h hr he
  cases k
  · exact h1
  · refine lt_of_le_of_ne h1 fun hv => ?_
    have hx := h0 rfl
    rcases lt_or_gt_of_ne hx with hx' | hx'
    · obtain ⟨m, -, rfl⟩ := Spec.pow_neg_int h hx'
      exact zpow_ne_zero m hx hv.symm
    · have := (Spec.pow_some h).2
      exact absurd (this ▸ hv) (Real.rpow_pos_of_pos hx' _).ne

theorem signsOk_step {k : Bool} (hs : ∀ s : Sym, s.positive = true → Kpos k (σ s)) (hE : SignsOk P k σ E)
    (h1 : ∀ {a : Expr D} {v : ℝ}, P a → den σ a = some v →
      wp (fun _ => True) (sumCreate E [a, mOne]) fun r => NoLog P r ∧ den σ r = some (v - 1)) :
    SignsOk P k σ (engStep E) := by
  refine ⟨?_, ?_, h1⟩
  · intro a v hl hz h
    change wp _ (isPos E a) _
    cases hl with
    | num n =>
      refine wp_pure fun hl => ?_
      simp only [den_num, Option.some.injEq] at h
      rw [Number.lt_iff, Number.val_zero, h] at hl
      exact .of_pos hl
    | sym s =>
      simp only [den_sym, Option.some.injEq] at h
      exact wp_pure fun hp => h ▸ hs s hp
    | cst c =>
      simp only [den_cst, Option.some.injEq] at h
      refine wp_pure fun _ => ?_
      subst h
      cases c
      · exact .of_pos Real.pi_pos
      · exact .of_pos (Real.exp_pos 1)
    | undef => simp at h
    | sum l hl =>
      have hz' : k = true → ∀ a ∈ l, BasesNZ σ a := fun hk => by
        have := hz hk
        cases this
        assumption
      unfold isPos
      refine wp_bind (wp_lift fun a h => h) fun n hn => ?_
      split
      · rename_i x
        refine wp_pure fun hl => ?_
        rw [Number.lt_iff, Number.val_zero, numEval_val σ _ x v hn h] at hl
        exact .of_pos hl
      · refine wp_bind (signSum_wp hE hl hz' h) fun s hs => wp_pure fun hd => hs.1 (by simpa using hd)
    | prod l hl =>
      have hz' : k = true → ∀ a ∈ l, BasesNZ σ a := fun hk => by
        have := hz hk
        cases this
        assumption
      unfold isPos
      refine wp_bind (signProduct_wp hE (acc := 1) hl hz' h (.inl rfl)) fun s hs => wp_pure fun hd => ?_
      simpa using hs.1 (by simpa using hd)
    | pow b e hb =>
      obtain ⟨p, q, hp, hq, hpq⟩ := den_pow.1 h
      have hz' : k = true → BasesNZ σ b ∧ p ≠ 0 := fun hk => by
        have := hz hk
        cases this with
        | pow _ _ h1 h2 => exact ⟨h1, fun h => h2 (by rw [hp, h])⟩
      unfold isPos
      refine wp_bind (wp_whenTrue (hE.pos hb (fun hk => (hz' hk).1) hp)) fun t ht => ?_
      refine wp_ite (fun h => wp_pure fun _ => (ht h).pow hpq) fun _ => ?_
      refine wp_bind (wp_lift fun a h => h) fun n hn => ?_
      split
      · rename_i x
        refine wp_pure fun hl => ?_
        simp only [Bool.and_eq_true, beq_iff_eq] at hl
        rw [← numEval_val σ e x q hn hq] at hpq
        exact .even hpq hl.1 hl.2 fun hk => (hz' hk).2
      · exact wp_pure (by simp)
    | atan a ha =>
      obtain ⟨x, hx, hl⟩ := den_fn.1 h
      simp only [Spec.fn, Option.some.injEq] at hl
      subst hl
      have hz' : k = true → BasesNZ σ a := fun hk => by
        have := hz hk
        cases this with
        | atan _ h => exact h
        | fn _ _ h _ => exact absurd rfl h
      exact wp_mono (hE.pos ha hz' hx) fun r hr hrt => (hr hrt).atan
    | fn f a h1 h2 =>
      have : isPos E (.fn f a) = evalIsPos (.fn f a) := by cases f <;> first | rfl | exact absurd rfl h1 | exact absurd rfl h2
      rw [this]
      exact signEvalPos_wp h
    | atan2 a b => exact signEvalPos_wp h
    | log a ha =>
      obtain ⟨x, hx, hl⟩ := den_fn.1 h
      obtain ⟨hp, rfl⟩ := Spec.log_some hl
      cases k with
      | true =>
        cases hz rfl with
        | fn _ _ _ h => exact absurd rfl h
      | false =>
        refine wp_bind (hE.sum ha hx) fun s hs => ?_
        exact wp_mono (hE.pos hs.1 (by simp) hs.2) fun r hr hrt => Real.log_nonneg (by have := (hr hrt).nn; linarith)
  · intro a v hl hz h
    change wp _ (isNeg E a) _
    cases hl with
    | num n =>
      refine wp_pure fun hl => ?_
      simp only [den_num, Option.some.injEq] at h
      rw [Number.lt_iff, Number.val_zero, h] at hl
      exact .of_pos (by linarith)
    | sym s => exact wp_pure (by simp)
    | cst c => exact wp_pure (by simp)
    | undef => simp at h
    | sum l hl =>
      have hz' : k = true → ∀ a ∈ l, BasesNZ σ a := fun hk => by
        have := hz hk
        cases this
        assumption
      unfold isNeg
      refine wp_bind (wp_lift fun a h => h) fun n hn => ?_
      split
      · rename_i x
        refine wp_pure fun hl => ?_
        rw [Number.lt_iff, Number.val_zero, numEval_val σ _ x v hn h] at hl
        exact .of_pos (by linarith)
      · refine wp_bind (signSum_wp hE hl hz' h) fun s hs => wp_pure fun hd => hs.2 (by simpa using hd)
    | prod l hl =>
      have hz' : k = true → ∀ a ∈ l, BasesNZ σ a := fun hk => by
        have := hz hk
        cases this
        assumption
      unfold isNeg
      refine wp_bind (signProduct_wp hE (acc := 1) hl hz' h (.inl rfl)) fun s hs => wp_pure fun hd => ?_
      simpa using hs.2 (by simpa using hd)
    | pow b e hb => exact wp_pure (by simp)
    | atan a ha =>
      obtain ⟨x, hx, hl⟩ := den_fn.1 h
      simp only [Spec.fn, Option.some.injEq] at hl
      subst hl
      have hz' : k = true → BasesNZ σ a := fun hk => by
        have := hz hk
        cases this with
        | atan _ h => exact h
        | fn _ _ h _ => exact absurd rfl h
      refine wp_mono (hE.neg ha hz' hx) fun r hr hrt => ?_
      rw [← Real.arctan_neg]
      exact (hr hrt).atan
    | fn f a h1 h2 =>
      have : isNeg E (.fn f a) = evalIsNeg (.fn f a) := by cases f <;> first | rfl | exact absurd rfl h1 | exact absurd rfl h2
      rw [this]
      exact signEvalNeg_wp h
    | atan2 a b => exact signEvalNeg_wp h
    | log a ha =>
      obtain ⟨x, hx, hl⟩ := den_fn.1 h
      obtain ⟨hp, rfl⟩ := Spec.log_some hl
      cases k with
      | true =>
        cases hz rfl with
        | fn _ _ _ h => exact absurd rfl h
      | false =>
        refine wp_bind (hE.sum ha hx) fun s hs => ?_
        exact wp_mono (hE.neg hs.1 (by simp) hs.2) fun r hr hrt => by
          have h1 := (hr hrt).nn
          have := Real.log_nonpos hp.le (show x ≤ 1 by linarith)
          simpa [Kpos] using this

theorem signsOk_eng (cfg : Cfg D) {k : Bool} (hs : ∀ s : Sym, s.positive = true → Kpos k (σ s))
    (h1 : ∀ (n : ℕ) {a : Expr D} {v : ℝ}, P a → den σ a = some v →
      wp (fun _ => True) (sumCreate (eng cfg n) [a, mOne]) fun r => NoLog P r ∧ den σ r = some (v - 1)) :
    ∀ n, SignsOk P k σ (eng cfg n)
  | 0 => ⟨fun _ _ _ => wp_err, fun _ _ _ => wp_err, fun _ _ => wp_err⟩
  | n + 1 => signsOk_step hs (signsOk_eng cfg hs h1 n) (h1 n)

end Tsym
