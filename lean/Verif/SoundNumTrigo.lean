import Verif.SoundPow
import Mathlib.Analysis.SpecialFunctions.Trigonometric.Bounds

set_option autoImplicit false
set_option linter.unusedSectionVars false
set_option linter.unusedSimpArgs false

/-!
# Values of results: trigonometric functions of numbers
-/

namespace Tsym

open Expr

/-! ## Special values -/

section

open Real

theorem sqrt_six : √6 = √2 * √3 := by
  rw [← sqrt_mul (by norm_num)]; norm_num

theorem sin_pi_12 : sin (π / 12) = (√6 - √2) / 4 := by
  have : π / 12 = π / 3 - π / 4 := by ring
  rw [this, sin_sub, sin_pi_div_three, cos_pi_div_four, cos_pi_div_three, sin_pi_div_four, sqrt_six]
  ring

theorem cos_pi_12 : cos (π / 12) = (√6 + √2) / 4 := by
  have : π / 12 = π / 3 - π / 4 := by ring
  rw [this, cos_sub, sin_pi_div_three, cos_pi_div_four, cos_pi_div_three, sin_pi_div_four, sqrt_six]
  ring

theorem sin_3pi_8 : sin (3 * π / 8) = √(2 + √2) / 2 := by
  rw [← cos_pi_div_eight, ← cos_pi_div_two_sub]
  congr 1; ring

theorem sin_5pi_12 : sin (5 * π / 12) = (√6 + √2) / 4 := by
  rw [← cos_pi_12, ← cos_pi_div_two_sub]
  congr 1; ring

theorem cos_5pi_12 : cos (5 * π / 12) = (√6 - √2) / 4 := by
  rw [← sin_pi_12, ← cos_pi_div_two_sub]
  congr 1; ring

theorem tan_pi_12 : tan (π / 12) = 2 - √3 := by
  rw [tan_eq_sin_div_cos, sin_pi_12, cos_pi_12, sqrt_six]
  have h2 : √2 ≠ 0 := by positivity
  have h3 : √3 ^ 2 = 3 := sq_sqrt (by norm_num)
  have h4 : √2 * √3 + √2 ≠ 0 := by positivity
  rw [div_div_div_cancel_right₀ (by norm_num), div_eq_iff h4]
  linear_combination (√2) * h3

theorem tan_5pi_12 : tan (5 * π / 12) = 2 + √3 := by
  rw [tan_eq_sin_div_cos, sin_5pi_12, cos_5pi_12, sqrt_six]
  have h2 : √2 ≠ 0 := by positivity
  have h3 : √3 ^ 2 = 3 := sq_sqrt (by norm_num)
  have h5 : (1 : ℝ) < √3 := by
    rw [lt_sqrt (by norm_num)]; norm_num
  have h4 : √2 * √3 - √2 ≠ 0 := by
    have : 0 < √2 * (√3 - 1) := mul_pos (by positivity) (by linarith)
    linarith
  rw [div_div_div_cancel_right₀ (by norm_num), div_eq_iff h4]
  linear_combination (-√2) * h3

theorem tan_pi_8 : tan (π / 8) = √2 - 1 := by
  have hs : sin (π / 8) ≠ 0 := by
    apply (sin_pos_of_pos_of_lt_pi (by positivity) _).ne'
    linarith [pi_pos]
  have hc : cos (π / 8) ≠ 0 := by
    apply (cos_pos_of_mem_Ioo ⟨_, _⟩).ne' <;> linarith [pi_pos]
  have h1 : sin (π / 4) = 2 * sin (π / 8) * cos (π / 8) := by rw [← sin_two_mul]; congr 1; ring
  have h2 : cos (π / 4) = 1 - 2 * sin (π / 8) ^ 2 := by
    have := cos_sq' (π / 8)
    have h := cos_two_mul (π / 8)
    rw [show 2 * (π / 8) = π / 4 by ring] at h
    linarith
  rw [sin_pi_div_four] at h1
  rw [cos_pi_div_four] at h2
  have h22 : √2 ^ 2 = 2 := sq_sqrt (by norm_num)
  rw [tan_eq_sin_div_cos, div_eq_iff hc]
  have : sin (π / 8) * (2 * sin (π / 8)) = (√2 - 1) * cos (π / 8) * (2 * sin (π / 8)) := by
    linear_combination h2 + (√2 - 1) * h1 - (1 / 2) * h22
  exact mul_right_cancel₀ (mul_ne_zero two_ne_zero hs) this

theorem tan_3pi_8 : tan (3 * π / 8) = √2 + 1 := by
  have : 3 * π / 8 = π / 2 - π / 8 := by ring
  rw [this, tan_pi_div_two_sub, tan_pi_8]
  have h22 : √2 ^ 2 = 2 := sq_sqrt (by norm_num)
  have h5 : (1 : ℝ) < √2 := by
    rw [lt_sqrt (by norm_num)]; norm_num
  exact inv_eq_of_mul_eq_one_right (by linear_combination h22)

end

variable {D : Type} [Flt D] [LawfulFlt D] {E : Eng D} {σ : Asg}

theorem timesPi_vl (hE : Sound E) (hσ : σ.Respects) (q : ℚ) : Vl σ (timesPi E q) (q * Real.pi) :=
  hE.prod hσ (denProd_two (den_ratE q) den_piE)

theorem evalE_wp {C : Cond D → Prop} {e : Expr D} {v : ℝ} (h : den σ e = some v) :
    wp C (NumTrigo.evalE e) fun n => n.val = v := by
  unfold NumTrigo.evalE
  refine wp_bind (wp_lift fun a h => h) fun n hn => ?_
  split
  · rename_i x
    exact wp_pure (numEval_val σ e x v hn h)
  · exact wp_err

/-- `Vl` with another form of the value. -/
theorem Vl.eq {m : M D (Expr D)} {v w : ℝ} (h : Vl σ m v) (e : v = w) : Vl σ m w := e ▸ h

namespace NumTrigo

/-- An entry of the table of sines: if the recorded conditions hold. -/
def SinEntry (σ : Asg) (t : Entry D) : Prop :=
  (∀ c ∈ t.conds, Cond.holds σ c) → ∃ θ, den σ t.key = some θ ∧ 0 ≤ θ ∧ θ ≤ Real.pi / 2 ∧
    den σ t.value = some (Real.sin θ)

/-- An entry of the table of tangents. -/
def TanEntry (σ : Asg) (t : Entry D) : Prop :=
  (∀ c ∈ t.conds, Cond.holds σ c) → ∃ θ, den σ t.key = some θ ∧ 0 ≤ θ ∧
    ((θ < Real.pi / 2 ∧ den σ t.value = some (Real.tan θ)) ∨ (θ = Real.pi / 2 ∧ t.value.isUndefined = true))

theorem entry_sin {C : Cond D → Prop} {k x : M D (Expr D)} {θ : ℝ} (hk : Vl σ k θ) (h0 : 0 ≤ θ)
    (h1 : θ ≤ Real.pi / 2) (hx : Vl σ x (Real.sin θ)) : wp C (entry k x) (SinEntry σ) := by
  unfold entry
  refine wp_bind (P := fun p => (∀ c ∈ p.2, Cond.holds σ c) → den σ p.1.1 = some θ ∧
    den σ p.1.2 = some (Real.sin θ)) (wp_capture fun a cs hm hc => ?_) fun p hp => wp_pure fun hc => ?_
  · exact (wp_bind hk fun a ha => wp_bind hx fun b hb => wp_pure ⟨ha, hb⟩ :
      wp (Cond.holds σ) _ fun p : Expr D × Expr D => den σ p.1 = some θ ∧ den σ p.2 = some (Real.sin θ))
      a cs hm hc
  · exact ⟨θ, (hp hc).1, h0, h1, (hp hc).2⟩

theorem entry_tan {C : Cond D → Prop} {k x : M D (Expr D)} {θ : ℝ} (hk : Vl σ k θ) (h0 : 0 ≤ θ)
    (h1 : θ < Real.pi / 2) (hx : Vl σ x (Real.tan θ)) : wp C (entry k x) (TanEntry σ) := by
  unfold entry
  refine wp_bind (P := fun p => (∀ c ∈ p.2, Cond.holds σ c) → den σ p.1.1 = some θ ∧
    den σ p.1.2 = some (Real.tan θ)) (wp_capture fun a cs hm hc => ?_) fun p hp => wp_pure fun hc => ?_
  · exact (wp_bind hk fun a ha => wp_bind hx fun b hb => wp_pure ⟨ha, hb⟩ :
      wp (Cond.holds σ) _ fun p : Expr D × Expr D => den σ p.1 = some θ ∧ den σ p.2 = some (Real.tan θ))
      a cs hm hc
  · exact ⟨θ, (hp hc).1, h0, .inl ⟨h1, (hp hc).2⟩⟩

theorem entry_undef {C : Cond D → Prop} {k : M D (Expr D)} (hk : Vl σ k (Real.pi / 2)) :
    wp C (entry k (pure .undef)) (TanEntry σ) := by
  unfold entry
  refine wp_bind (P := fun p => (∀ c ∈ p.2, Cond.holds σ c) → den σ p.1.1 = some (Real.pi / 2) ∧
    p.1.2 = .undef) (wp_capture fun a cs hm hc => ?_) fun p hp => wp_pure fun hc => ?_
  · exact (wp_bind hk fun a ha => wp_bind (P := fun x => x = .undef) (wp_pure rfl) fun b hb => wp_pure ⟨ha, hb⟩ :
      wp (Cond.holds σ) _ fun p : Expr D × Expr D => den σ p.1 = some (Real.pi / 2) ∧ p.2 = .undef)
      a cs hm hc
  · exact ⟨_, (hp hc).1, by positivity, .inr ⟨rfl, by simp [(hp hc).2, isUndefined]⟩⟩

theorem table_wp {C : Cond D → Prop} {P : Entry D → Prop} {l : List (M D (Expr D) × M D (Expr D))}
    (h : ∀ p ∈ l, wp C (entry p.1 p.2) P) :
    wp C (M.mapL (fun p => entry p.1 p.2) l) fun r => ∀ t ∈ r, P t := by
  refine wp_mono (wp_mapL (R := fun _ t => P t) h) fun r hr => ?_
  induction hr with
  | nil => simp
  | cons ha _ ih =>
    intro t ht
    rcases List.mem_cons.1 ht with rfl | ht
    · exact ha
    · exact ih (fun p hp => h p (by simp [hp])) t ht

theorem sqrtOf_vl (hE : Sound E) (hσ : σ.Respects) {e : Expr D} {n : ℝ} (h : den σ e = some n)
    (hn : 0 ≤ n := by norm_num) : Vl σ (E.sqrt e) (Real.sqrt n) := sqrt_vl hE hσ h hn

theorem sqrt_two_lt : Real.sqrt 2 < 2 := by
  rw [Real.sqrt_lt' (by norm_num)]; norm_num

theorem sineTable_wp (hE : Sound E) (hσ : σ.Respects) {C : Cond D → Prop} :
    wp C (sineTable E) fun r => ∀ t ∈ r, SinEntry σ t := by
  unfold sineTable
  refine table_wp fun p hp => ?_
  have hpi := Real.pi_pos
  have h2 : (0 : ℝ) ≤ 2 - Real.sqrt 2 := by linarith [sqrt_two_lt]
  have h3 : (0 : ℝ) ≤ 2 + Real.sqrt 2 := by positivity
  have d6 : den σ (ratE 6 : Expr D) = some 6 := by simp
  have key : ∀ q : ℚ, Vl σ (timesPi E q) (q * Real.pi) := timesPi_vl hE hσ
  simp only [List.mem_cons, List.not_mem_nil, or_false] at hp
  rcases hp with rfl | rfl | rfl | rfl | rfl | rfl | rfl | rfl | rfl
  · exact entry_sin (θ := 0) (wp_pure den_zero) le_rfl (by positivity) (wp_pure (by simp))
  · refine entry_sin (θ := Real.pi / 12) ((key _).eq (by push_cast; ring)) (by positivity) (by linarith) ?_
    refine wp_bind (sqrtOf_vl hE hσ d6) fun a ha => wp_bind (sqrtOf_vl hE hσ den_two) fun b hb => ?_
    refine wp_bind (minus_vl hE hσ hb) fun m hm => wp_bind (hE.sum hσ (denSum_two ha hm)) fun s hs => ?_
    refine (hE.prod hσ (denProd_two den_fourth hs)).eq ?_
    rw [sin_pi_12]; ring
  · refine entry_sin (θ := Real.pi / 8) ((key _).eq (by push_cast; ring)) (by positivity) (by linarith) ?_
    refine wp_bind (sqrtOf_vl hE hσ den_two) fun b hb => wp_bind (minus_vl hE hσ hb) fun m hm => ?_
    refine wp_bind (hE.sum hσ (denSum_two den_two hm)) fun s hs => ?_
    rw [← sub_eq_add_neg] at hs
    refine wp_bind (sqrtOf_vl hE hσ hs h2) fun r hr => ?_
    refine (hE.prod hσ (denProd_two den_half hr)).eq ?_
    rw [Real.sin_pi_div_eight]; ring
  · refine entry_sin (θ := Real.pi / 6) ((key _).eq (by push_cast; ring)) (by positivity) (by linarith) ?_
    exact wp_pure (by rw [den_half, Real.sin_pi_div_six])
  · refine entry_sin (θ := Real.pi / 4) ((key _).eq (by push_cast; ring)) (by positivity) (by linarith) ?_
    refine wp_bind (sqrtOf_vl hE hσ den_two) fun b hb => ?_
    refine (oneOver_vl hE hσ hb (by positivity)).eq ?_
    rw [Real.sin_pi_div_four, Real.sqrt_div_self', one_div]
  · refine entry_sin (θ := Real.pi / 3) ((key _).eq (by push_cast; ring)) (by positivity) (by linarith) ?_
    refine wp_bind (sqrtOf_vl hE hσ den_three) fun b hb => ?_
    refine (hE.prod hσ (denProd_two den_half hb)).eq ?_
    rw [Real.sin_pi_div_three]; ring
  · refine entry_sin (θ := 3 * Real.pi / 8) ((key _).eq (by push_cast; ring)) (by positivity) (by linarith) ?_
    refine wp_bind (sqrtOf_vl hE hσ den_two) fun b hb => ?_
    refine wp_bind (hE.sum hσ (denSum_two den_two hb)) fun s hs => ?_
    refine wp_bind (sqrtOf_vl hE hσ hs h3) fun r hr => ?_
    refine (hE.prod hσ (denProd_two den_half hr)).eq ?_
    rw [sin_3pi_8]; ring
  · refine entry_sin (θ := 5 * Real.pi / 12) ((key _).eq (by push_cast; ring)) (by positivity) (by linarith) ?_
    refine wp_bind (sqrtOf_vl hE hσ d6) fun a ha => wp_bind (sqrtOf_vl hE hσ den_two) fun b hb => ?_
    refine wp_bind (hE.sum hσ (denSum_two ha hb)) fun s hs => ?_
    refine (hE.prod hσ (denProd_two den_fourth hs)).eq ?_
    rw [sin_5pi_12]; ring
  · refine entry_sin (θ := Real.pi / 2) ((key _).eq (by push_cast; ring)) (by positivity) le_rfl ?_
    exact wp_pure (by rw [den_one, Real.sin_pi_div_two])

theorem tanTable_wp (hE : Sound E) (hσ : σ.Respects) {C : Cond D → Prop} :
    wp C (tanTable E) fun r => ∀ t ∈ r, TanEntry σ t := by
  unfold tanTable
  refine table_wp fun p hp => ?_
  have hpi := Real.pi_pos
  have key : ∀ q : ℚ, Vl σ (timesPi E q) (q * Real.pi) := timesPi_vl hE hσ
  simp only [List.mem_cons, List.not_mem_nil, or_false] at hp
  rcases hp with rfl | rfl | rfl | rfl | rfl | rfl | rfl | rfl | rfl
  · exact entry_tan (θ := 0) (wp_pure den_zero) le_rfl (by positivity) (wp_pure (by simp))
  · refine entry_tan (θ := Real.pi / 12) ((key _).eq (by push_cast; ring)) (by positivity) (by linarith) ?_
    refine wp_bind (sqrtOf_vl hE hσ den_three) fun b hb => wp_bind (minus_vl hE hσ hb) fun m hm => ?_
    exact (hE.sum hσ (denSum_two den_two hm)).eq (by rw [tan_pi_12]; ring)
  · refine entry_tan (θ := Real.pi / 8) ((key _).eq (by push_cast; ring)) (by positivity) (by linarith) ?_
    refine wp_bind (sqrtOf_vl hE hσ den_two) fun b hb => wp_bind (minus_vl hE hσ den_one) fun m hm => ?_
    exact (hE.sum hσ (denSum_two hb hm)).eq (by rw [tan_pi_8]; ring)
  · refine entry_tan (θ := Real.pi / 6) ((key _).eq (by push_cast; ring)) (by positivity) (by linarith) ?_
    refine wp_bind (sqrtOf_vl hE hσ den_three) fun b hb => ?_
    refine (oneOver_vl hE hσ hb (by positivity)).eq ?_
    rw [Real.tan_pi_div_six, one_div]
  · refine entry_tan (θ := Real.pi / 4) ((key _).eq (by push_cast; ring)) (by positivity) (by linarith) ?_
    exact wp_pure (by rw [den_one, Real.tan_pi_div_four])
  · refine entry_tan (θ := Real.pi / 3) ((key _).eq (by push_cast; ring)) (by positivity) (by linarith) ?_
    exact (sqrtOf_vl hE hσ den_three).eq (by rw [Real.tan_pi_div_three])
  · refine entry_tan (θ := 3 * Real.pi / 8) ((key _).eq (by push_cast; ring)) (by positivity) (by linarith) ?_
    refine wp_bind (sqrtOf_vl hE hσ den_two) fun b hb => ?_
    exact (hE.sum hσ (denSum_two hb den_one)).eq (by rw [tan_3pi_8])
  · refine entry_tan (θ := 5 * Real.pi / 12) ((key _).eq (by push_cast; ring)) (by positivity) (by linarith) ?_
    refine wp_bind (sqrtOf_vl hE hσ den_three) fun b hb => ?_
    exact (hE.sum hσ (denSum_two den_two hb)).eq (by rw [tan_5pi_12])
  · exact entry_undef ((key _).eq (by push_cast; ring))

/-- The entry that is found: its conditions hold, and its key has the value of the argument. -/
theorem getValueNumEval_wp {n : Number D} {A : ℝ} (hn : n.val = A) {P : Entry D → Prop} :
    ∀ {l : List (Entry D)}, (∀ t ∈ l, P t) → (∀ t ∈ l, P t → (∀ c ∈ t.conds, Cond.holds σ c) →
      ∃ w, den σ t.key = some w) →
    wp (Cond.holds σ) (getValueNumEval n l) fun r => ∀ x, r = some x →
      ∃ t, P t ∧ (∀ c ∈ t.conds, Cond.holds σ c) ∧ den σ t.key = some A ∧ x = t.value
  | [], _, _ => wp_pure (by simp)
  | t :: l, h, hk => by
    unfold getValueNumEval
    refine wp_bind evalsTo_val fun b hb => wp_ite (fun hbt => ?_) fun _ => ?_
    · refine wp_bind (P := fun _ => ∀ c ∈ t.conds, Cond.holds σ c) (wp_emit fun h => h) fun _ hc =>
        wp_pure fun x hx => ?_
      cases hx
      obtain ⟨w, hw⟩ := hk t (by simp) (h t (by simp)) hc
      refine ⟨t, h t (by simp), hc, ?_, rfl⟩
      rw [hw, hb hbt σ w hw, hn]
    · exact getValueNumEval_wp hn (fun t ht => h t (by simp [ht])) fun t ht => hk t (by simp [ht])

theorem getValue_wp {arg : Expr D} {A : ℝ} (hA : den σ arg = some A) {P : Entry D → Prop}
    {l : List (Entry D)} (h : ∀ t ∈ l, P t) (hk : ∀ t ∈ l, P t → (∀ c ∈ t.conds, Cond.holds σ c) →
      ∃ w, den σ t.key = some w) :
    wp (Cond.holds σ) (getValue arg l) fun r => ∀ x, r = some x →
      ∃ t, P t ∧ (∀ c ∈ t.conds, Cond.holds σ c) ∧ den σ t.key = some A ∧ x = t.value := by
  unfold getValue
  split
  · rename_i t ht
    refine wp_bind (P := fun _ => ∀ c ∈ t.conds, Cond.holds σ c) (wp_emit fun h => h) fun _ hc =>
      wp_pure fun x hx => ?_
    cases hx
    have h1 := List.mem_of_find?_eq_some ht
    have h2 := List.find?_some ht
    refine ⟨t, h t h1, hc, ?_, rfl⟩
    rw [isEqual_den σ _ _ h2, hA]
  · exact wp_bind (evalE_wp hA) fun n hn => getValueNumEval_wp hn h hk

theorem getSin_wp {arg : Expr D} {A : ℝ} (hA : den σ arg = some A) {l : List (Entry D)}
    (h : ∀ t ∈ l, SinEntry σ t) : wp (Cond.holds σ) (getValue arg l) fun r => ∀ x, r = some x →
      den σ x = some (Real.sin A) := by
  refine wp_mono (getValue_wp hA h fun t _ ht hc => ?_) fun r hr x hx => ?_
  · obtain ⟨θ, h1, -⟩ := ht hc
    exact ⟨θ, h1⟩
  · obtain ⟨t, ht, hc, hk, rfl⟩ := hr x hx
    obtain ⟨θ, h1, h2, h3, h4⟩ := ht hc
    rw [hk] at h1
    cases h1
    exact h4

theorem getTan_wp {arg : Expr D} {A : ℝ} (hA : den σ arg = some A) {l : List (Entry D)}
    (h : ∀ t ∈ l, TanEntry σ t) : wp (Cond.holds σ) (getValue arg l) fun r => ∀ x, r = some x →
      0 ≤ A ∧ ((A < Real.pi / 2 ∧ den σ x = some (Real.tan A)) ∨ A = Real.pi / 2) := by
  refine wp_mono (getValue_wp hA h fun t _ ht hc => ?_) fun r hr x hx => ?_
  · obtain ⟨θ, h1, -⟩ := ht hc
    exact ⟨θ, h1⟩
  · obtain ⟨t, ht, hc, hk, rfl⟩ := hr x hx
    obtain ⟨θ, h1, h2, h3⟩ := ht hc
    rw [hk] at h1
    cases h1
    exact ⟨h2, h3.imp_right fun h => h.1⟩

/-- The key that is found: the value of the entry is the value of the argument. -/
theorem getKey_wp {arg : Expr D} {A : ℝ} (hA : den σ arg = some A) {n : Number D} (hn : n.val = A)
    {P : Entry D → Prop} : ∀ {l : List (Entry D)}, (∀ t ∈ l, P t) →
    (∀ t ∈ l, P t → (∀ c ∈ t.conds, Cond.holds σ c) → t.value.isUndefined = false →
      ∃ w, den σ t.value = some w) →
    wp (Cond.holds σ) (getKey arg (some n) l) fun r => ∀ x, r = some x →
      ∃ t, P t ∧ (∀ c ∈ t.conds, Cond.holds σ c) ∧ t.value.isUndefined = false ∧
        den σ t.value = some A ∧ x = t.key
  | [], _, _ => wp_pure (by simp)
  | t :: l, h, hk => by
    unfold getKey
    have ih := getKey_wp hA hn (l := l) (fun t ht => h t (by simp [ht])) fun t ht => hk t (by simp [ht])
    refine wp_ite (fun _ => ih) fun hu => wp_ite (fun he => ?_) fun _ => ?_
    · refine wp_bind (P := fun _ => ∀ c ∈ t.conds, Cond.holds σ c) (wp_emit fun h => h) fun _ hc =>
        wp_pure fun x hx => ?_
      cases hx
      refine ⟨t, h t (by simp), hc, by simpa using hu, ?_, rfl⟩
      rw [← isEqual_den σ _ _ he, hA]
    · refine wp_bind (wp_lift fun a h => h) fun m hm => ?_
      dsimp only
      refine wp_ite (fun hb => ?_) fun _ => ih
      refine wp_bind (P := fun _ => ∀ c ∈ t.conds, Cond.holds σ c) (wp_emit fun h => h) fun _ hc =>
        wp_pure fun x hx => ?_
      cases hx
      have hu : t.value.isUndefined = false := by simpa using hu
      obtain ⟨w, hw⟩ := hk t (by simp) (h t (by simp)) hc hu
      refine ⟨t, h t (by simp), hc, hu, ?_, rfl⟩
      cases m with
      | none => simp at hb
      | some y =>
        simp only at hb
        rw [Number.eqv_iff, hn, numEval_val σ _ y w hm hw] at hb
        rw [hw, hb]

theorem timesSign_vl (hE : Sound E) (hσ : σ.Respects) {s : ℤ} {e : Expr D} {v : ℝ} (h : den σ e = some v) :
    Vl σ (timesSign E s e) (s * v) := hE.prod hσ (denProd_two (den_int s) h)

/-- The value is the same up to a multiple of 2π. -/
def Mod2pi (σ : Asg) (A : ℝ) (e : Expr D) : Prop := ∃ k : ℤ, den σ e = some (A + k * (2 * Real.pi))

theorem Mod2pi.refl {e : Expr D} {A : ℝ} (h : den σ e = some A) : Mod2pi σ A e := ⟨0, by simpa using h⟩

theorem Mod2pi.add {a s : Expr D} {A : ℝ} (k : ℤ) {x : ℝ} (hx : den σ a = some x)
    (h : Mod2pi σ A a) (hs : den σ s = some (x + k * (2 * Real.pi))) : Mod2pi σ A s := by
  obtain ⟨j, hj⟩ := h
  rw [hx] at hj
  cases hj
  exact ⟨j + k, by rw [hs]; push_cast; congr 1; ring⟩

theorem adjustUp_wp (hE : Sound E) (hσ : σ.Respects) {twoPi arg : Expr D} {A : ℝ}
    (ht : den σ twoPi = some (2 * Real.pi)) (h : Mod2pi σ A arg) :
    wp (Cond.holds σ) (adjustUp E twoPi arg) (Mod2pi σ A) := by
  unfold adjustUp
  refine wp_loop (I := Mod2pi σ A) (fun a ha => ?_) _ _ h
  refine wp_bind (wp_silent wp_true) fun n _ => wp_ite (fun _ => ?_) fun _ =>
    wp_pure ⟨by simp, fun x hx => by cases hx; exact ha⟩
  obtain ⟨k, hk⟩ := id ha
  refine wp_bind (hE.sum hσ (denSum_two hk ht)) fun s hs => wp_pure ⟨fun x hx => ?_, by simp⟩
  cases hx
  exact ha.add 1 hk (by rw [hs]; simp)

theorem adjustDown_wp (hE : Sound E) (hσ : σ.Respects) {twoPi arg : Expr D} {A : ℝ}
    (ht : den σ twoPi = some (2 * Real.pi)) (h : Mod2pi σ A arg) :
    wp (Cond.holds σ) (adjustDown E twoPi arg) (Mod2pi σ A) := by
  unfold adjustDown
  refine wp_loop (I := Mod2pi σ A) (fun a ha => ?_) _ _ h
  refine wp_bind wp_true fun n _ => wp_bind wp_true fun t _ => wp_ite (fun _ => ?_) fun _ =>
    wp_pure ⟨by simp, fun x hx => by cases hx; exact ha⟩
  obtain ⟨k, hk⟩ := id ha
  refine wp_bind (minus_vl hE hσ ht) fun m hm => ?_
  refine wp_bind (hE.sum hσ (denSum_two hk hm)) fun s hs => wp_pure ⟨fun x hx => ?_, by simp⟩
  cases hx
  exact ha.add (-1) hk (by rw [hs]; push_cast; congr 1; ring)

theorem adjustArgRange_wp (hE : Sound E) (hσ : σ.Respects) {arg : Expr D} {A : ℝ} (h : den σ arg = some A) :
    wp (Cond.holds σ) (adjustArgRange E arg) (Mod2pi σ A) := by
  unfold adjustArgRange
  refine wp_bind (timesPi_vl hE hσ 2) fun t ht => ?_
  have ht : den σ t = some (2 * Real.pi) := by simpa using ht
  exact wp_bind (adjustUp_wp hE hσ ht (.refl h)) fun a ha => adjustDown_wp hE hσ ht ha

theorem getQuadrant_wp (hE : Sound E) (hσ : σ.Respects) {arg : Expr D} {A : ℝ} (h : den σ arg = some A) :
    wp (Cond.holds σ) (getQuadrant E arg) fun q => (q = 1 ∨ (q = 2 ∨ q = 3 ∨ q = 4) ∧ Real.pi / 2 ≤ A) := by
  unfold getQuadrant
  refine wp_bind (oneOver_vl hE hσ den_piE Real.pi_ne_zero) fun o ho => ?_
  refine wp_bind (hE.prod hσ (denProd_two h ho)) fun p hp => ?_
  refine wp_bind (evalE_wp hp) fun fac hf => ?_
  refine wp_ite (fun _ => wp_err) fun _ => wp_ite (fun _ => wp_pure (.inl rfl)) fun h1 => ?_
  have hA : Real.pi / 2 ≤ A := by
    rw [Bool.not_eq_true, Number.lt_false, hf, Number.val_rat] at h1
    rw [← div_eq_mul_inv, le_div_iff₀ Real.pi_pos] at h1
    push_cast at h1
    linarith
  refine wp_ite (fun _ => wp_pure (.inr ⟨by simp, hA⟩)) fun _ => ?_
  exact wp_ite (fun _ => wp_pure (.inr ⟨by simp, hA⟩)) fun _ => wp_pure (.inr ⟨by simp, hA⟩)

theorem shiftDown_vl (hE : Sound E) (hσ : σ.Respects) {ph : Expr D} (hp : den σ ph = some (Real.pi / 2)) :
    ∀ (n : Nat) {arg : Expr D} {A : ℝ}, den σ arg = some A →
      Vl σ (shiftDown E ph n arg) (A - n * (Real.pi / 2))
  | 0, arg, A, h => wp_pure (by simpa using h)
  | n + 1, arg, A, h => by
    unfold shiftDown
    refine wp_bind (minus_vl hE hσ hp) fun m hm => wp_bind (hE.sum hσ (denSum_two h hm)) fun a ha => ?_
    exact (shiftDown_vl hE hσ hp n ha).eq (by push_cast; ring)

theorem shiftToFirstQuadrant_vl (hE : Sound E) (hσ : σ.Respects) {q : Nat} {arg : Expr D} {A : ℝ}
    (h : den σ arg = some A) (hq : q = 1 ∨ q = 2 ∨ q = 3 ∨ q = 4) :
    wp (Cond.holds σ) (shiftToFirstQuadrant E q arg) fun r => ∃ B, den σ r = some B ∧
      Real.sin A = (if 2 < q then (-1 : ℤ) else 1 : ℤ) * Real.sin B := by
  unfold shiftToFirstQuadrant
  refine wp_bind (timesPi_vl hE hσ (1 / 2)) fun ph hph => ?_
  have hph : den σ ph = some (Real.pi / 2) := by rw [hph]; push_cast; congr 1; ring
  refine wp_bind (shiftDown_vl hE hσ hph (q - 1) h) fun a ha => ?_
  refine wp_ite (fun hc => ?_) fun hc => ?_
  · refine wp_bind (minus_vl hE hσ ha) fun m hm => ?_
    refine wp_mono (hE.sum hσ (denSum_two hph hm)) fun r hr => ⟨_, hr, ?_⟩
    rcases hc with rfl | rfl
    · have : Real.pi / 2 + -(A - ((2 - 1 : ℕ) : ℝ) * (Real.pi / 2)) = Real.pi - A := by norm_num; ring
      rw [this, Real.sin_pi_sub]; simp
    · have : Real.pi / 2 + -(A - ((4 - 1 : ℕ) : ℝ) * (Real.pi / 2)) = 2 * Real.pi - A := by norm_num; ring
      rw [this, Real.sin_two_pi_sub]; simp
  · refine wp_pure ⟨_, ha, ?_⟩
    rcases hq with rfl | rfl | rfl | rfl
    · simp
    · simp at hc
    · have : A - ((3 - 1 : ℕ) : ℝ) * (Real.pi / 2) = A - Real.pi := by norm_num; ring
      rw [this, Real.sin_sub_pi]; simp
    · simp at hc

theorem ofDouble_pi : (Number.ofDouble Flt.pi : Number D).val = Real.pi := by
  rw [Number.val_ofDouble, LawfulFlt.pi]

theorem compNumericalSin_vl (hE : Sound E) (hσ : σ.Respects) {s : ℤ} {arg : Expr D} {A : ℝ}
    (h : den σ arg = some A) : Vl σ (compNumericalSin E s arg) (s * Real.sin A) := by
  unfold compNumericalSin
  refine wp_bind (oneOver_vl hE hσ den_piE Real.pi_ne_zero) fun o ho => ?_
  refine wp_bind (hE.prod hσ (denProd_two h ho)) fun a ha => ?_
  refine wp_bind (hE.prod hσ (denProd_two ha (den_num _))) fun b hb => ?_
  split
  · rename_i n
    rw [den_num, ofDouble_pi, mul_assoc, inv_mul_cancel₀ Real.pi_ne_zero, mul_one] at hb
    refine (timesSign_vl hE hσ (den_num _)).eq ?_
    rw [Number.val_ofDouble, LawfulFlt.sin, Number.val_toDouble]
    cases hb
    rfl
  · exact wp_err

theorem sin_wp (hE : Sound E) (hσ : σ.Respects) {orig arg : Expr D} {A : ℝ} (h : den σ arg = some A) :
    wp (Cond.holds σ) (sin E orig arg) fun r => ∀ x, r = some x → den σ x = some (Real.sin A) := by
  unfold sin
  refine wp_bind (getQuadrant_wp hE hσ h) fun q hq => ?_
  refine wp_bind (shiftToFirstQuadrant_vl hE hσ h (by omega)) fun a ha => ?_
  obtain ⟨B, hB, hs⟩ := ha
  refine wp_bind (sineTable_wp hE hσ) fun t ht => wp_bind (getSin_wp hB ht) fun r hr => ?_
  split
  · rename_i v
    refine wp_bind (timesSign_vl hE hσ (hr v rfl)) fun x hx => wp_pure fun y hy => ?_
    cases hy
    rw [hx, hs]
  · refine wp_ite (fun _ => ?_) fun _ => wp_pure (by simp)
    refine wp_bind (compNumericalSin_vl hE hσ hB) fun x hx => wp_pure fun y hy => ?_
    cases hy
    rw [hx, hs]

theorem cos_wp (hE : Sound E) (hσ : σ.Respects) {orig arg : Expr D} {A : ℝ} (h : den σ arg = some A) :
    wp (Cond.holds σ) (cos E orig arg) fun r => ∀ x, r = some x → den σ x = some (Real.cos A) := by
  unfold cos
  refine wp_bind (timesPi_vl hE hσ (1 / 2)) fun ph hph => ?_
  have hph : den σ ph = some (Real.pi / 2) := by rw [hph]; push_cast; congr 1; ring
  refine wp_bind (hE.sum hσ (denSum_two h hph)) fun s hs => ?_
  refine wp_bind (adjustArgRange_wp hE hσ hs) fun a ha => ?_
  obtain ⟨k, hk⟩ := ha
  refine wp_mono (sin_wp hE hσ hk) fun r hr x hx => ?_
  rw [hr x hx, Real.sin_add_int_mul_two_pi, Real.sin_add_pi_div_two]

theorem prepare_wp (hE : Sound E) (hσ : σ.Respects) {arg : Expr D} {A : ℝ} (h : den σ arg = some A) :
    wp (Cond.holds σ) (prepare E arg) fun r => ∀ x, r = some x → Mod2pi σ A x := by
  unfold prepare
  refine wp_bind wp_true fun r _ => wp_ite (fun _ => wp_pure (by simp)) fun _ => ?_
  refine wp_bind (P := fun a => den σ a = some A) ?_ fun a ha => ?_
  · split
    · rename_i n
      refine wp_bind (wp_lift fun a h => h) fun q hq => ?_
      refine (hE.prod hσ (denProd_two (den_num _) den_piE)).eq ?_
      simp only [den_num, Option.some.injEq] at h
      unfold Number.div at hq
      simp only [Except.bind_ok, Except.pure_ok] at hq
      obtain ⟨r, hr, hq⟩ := hq
      subst hq
      rw [Number.val_mul, Number.toThe_neg_one hr (by rw [ofDouble_pi]; exact Real.pi_ne_zero), ofDouble_pi,
        mul_assoc, inv_mul_cancel₀ Real.pi_ne_zero, mul_one, h]
    · exact wp_pure h
  · refine wp_bind (adjustArgRange_wp hE hσ ha) fun b hb => wp_pure fun x hx => ?_
    cases hx
    exact hb

theorem simplSin_wp (hE : Sound E) (hσ : σ.Respects) {arg : Expr D} {A : ℝ} (h : den σ arg = some A) :
    wp (Cond.holds σ) (simplSin E arg) fun r => ∀ x, r = some x → den σ x = some (Real.sin A) := by
  unfold simplSin
  refine wp_bind (prepare_wp hE hσ h) fun a ha => ?_
  split
  · rename_i b
    obtain ⟨k, hk⟩ := ha b rfl
    refine wp_mono (sin_wp hE hσ hk) fun r hr x hx => ?_
    rw [hr x hx, Real.sin_add_int_mul_two_pi]
  · exact wp_pure (by simp)

theorem simplCos_wp (hE : Sound E) (hσ : σ.Respects) {arg : Expr D} {A : ℝ} (h : den σ arg = some A) :
    wp (Cond.holds σ) (simplCos E arg) fun r => ∀ x, r = some x → den σ x = some (Real.cos A) := by
  unfold simplCos
  refine wp_bind (prepare_wp hE hσ h) fun a ha => ?_
  split
  · rename_i b
    obtain ⟨k, hk⟩ := ha b rfl
    refine wp_mono (cos_wp hE hσ hk) fun r hr x hx => ?_
    rw [hr x hx, Real.cos_add_int_mul_two_pi]
  · exact wp_pure (by simp)

theorem tanViaSinCos_wp (hE : Sound E) (hσ : σ.Respects) {arg : Expr D} {A : ℝ} (h : den σ arg = some A)
    (hc : Real.cos A ≠ 0) : wp (Cond.holds σ) (tanViaSinCos E arg) fun r => ∀ x, r = some x →
      den σ x = some (Real.tan A) := by
  unfold tanViaSinCos
  refine wp_bind (simplSin_wp hE hσ h) fun s hs => wp_bind (simplCos_wp hE hσ h) fun c hcs => ?_
  split
  · exact wp_pure (by simp)
  · rename_i co
    have hco := hcs co rfl
    refine wp_ite (fun hz => ?_) fun _ => ?_
    · rw [den_isZero hz] at hco
      exact absurd (Option.some.inj hco).symm hc
    · split
      · exact wp_pure (by simp)
      · rename_i si
        refine wp_bind (oneOver_vl hE hσ hco hc) fun o ho => ?_
        refine wp_bind (hE.prod hσ (denProd_two (hs si rfl) ho)) fun p hp => ?_
        refine wp_bind (timesSign_vl hE hσ hp) fun r hr => wp_pure fun x hx => ?_
        cases hx
        rw [hr, Real.tan_eq_sin_div_cos]
        simp [div_eq_mul_inv]

theorem tan_add_int (A : ℝ) (k : ℤ) : Real.tan (A + k * (2 * Real.pi)) = Real.tan A := by
  rw [Real.tan_eq_sin_div_cos, Real.tan_eq_sin_div_cos, Real.sin_add_int_mul_two_pi,
    Real.cos_add_int_mul_two_pi]

theorem simplTan_wp (hE : Sound E) (hσ : σ.Respects) {arg : Expr D} {A : ℝ} (h : den σ arg = some A)
    (hc : Real.cos A ≠ 0) : wp (Cond.holds σ) (simplTan E arg) fun r => ∀ x, r = some x →
      den σ x = some (Real.tan A) := by
  unfold simplTan
  refine wp_bind (prepare_wp hE hσ h) fun a ha => ?_
  split
  · rename_i b
    obtain ⟨k, hk⟩ := ha b rfl
    unfold tan
    refine wp_bind (getQuadrant_wp hE hσ hk) fun q hq => ?_
    refine wp_bind (tanTable_wp hE hσ) fun t ht => wp_bind (getTan_wp hk ht) fun r hr => ?_
    split
    · rename_i v
      obtain ⟨h0, h1 | h1⟩ := hr v rfl
      · have hq1 : q = 1 := by
          rcases hq with hq | ⟨_, hq⟩
          · exact hq
          · linarith [h1.1]
        refine wp_bind (timesSign_vl hE hσ h1.2) fun x hx => wp_pure fun y hy => ?_
        cases hy
        rw [hx, hq1, tan_add_int]
        simp
      · exfalso
        apply hc
        rw [← Real.cos_add_int_mul_two_pi A k, h1, Real.cos_pi_div_two]
    · exact tanViaSinCos_wp hE hσ h hc
  · exact wp_pure (by simp)

/-! ## Inverse functions -/

theorem prepareInverse_wp (hE : Sound E) (hσ : σ.Respects) {arg : Expr D} {A : ℝ} (h : den σ arg = some A) :
    wp (Cond.holds σ) (prepareInverse E arg) fun r => (r.1 = 1 ∨ r.1 = -1) ∧ den σ r.2 = some (r.1 * A) := by
  unfold prepareInverse
  refine wp_bind wp_true fun n _ => wp_ite (fun _ => ?_) fun _ => wp_pure ⟨.inl rfl, by simpa using h⟩
  exact wp_bind (minus_vl hE hσ h) fun m hm => wp_pure ⟨.inr rfl, by simpa using hm⟩

theorem outOfRange_wp {C : Cond D → Prop} {arg : Expr D} {A : ℝ} (h : den σ arg = some A) (h1 : -1 ≤ A)
    (h2 : A ≤ 1) : wp C (isInverseArgOutOfRange arg) fun r => r = false := by
  unfold isInverseArgOutOfRange
  refine wp_bind (evalE_wp h) fun n hn => wp_pure ?_
  rw [Bool.or_eq_false_iff, Number.lt_false, Number.lt_false, hn]
  simp only [Number.val_rat, Number.val_one]
  exact ⟨by push_cast; exact h1, h2⟩

theorem asin_wp (hE : Sound E) (hσ : σ.Respects) {orig arg : Expr D} {A : ℝ} {s : ℤ}
    (ho : den σ orig = some A) (h1 : -1 ≤ A) (h2 : A ≤ 1) (hs : s = 1 ∨ s = -1)
    (h : den σ arg = some (s * A)) : wp (Cond.holds σ) (asin E orig s arg) fun r => ∀ x, r = some x →
      den σ x = some (Real.arcsin A) := by
  unfold asin
  refine wp_bind (wp_lift fun a h => h) fun n hn => ?_
  refine wp_bind (wp_failIf fun h => h) fun _ hsome => ?_
  cases n with
  | none => simp at hsome
  | some n =>
  have hnv := numEval_val σ arg n _ hn h
  refine wp_bind (sineTable_wp hE hσ) fun t ht => ?_
  refine wp_bind (getKey_wp h hnv ht fun t _ ht hc _ => ?_) fun r hr => ?_
  · obtain ⟨θ, _, _, _, h4⟩ := ht hc
    exact ⟨_, h4⟩
  split
  · rename_i k
    obtain ⟨t, ht, hc, -, hv, rfl⟩ := hr k rfl
    obtain ⟨θ, hk, h3, h4, h5⟩ := ht hc
    rw [hv] at h5
    have h5 : (s : ℝ) * A = Real.sin θ := by simpa using h5
    refine wp_bind (timesSign_vl hE hσ hk) fun x hx => wp_pure fun y hy => ?_
    cases hy
    rw [hx]
    have hθ : Real.arcsin (s * A) = θ := by
      rw [h5, Real.arcsin_sin (by linarith [Real.pi_pos]) h4]
    rcases hs with rfl | rfl
    · simpa using hθ.symm
    · simp at hθ ⊢
      linarith
  · split
    · rename_i o
      refine wp_ite (fun _ => ?_) fun _ => wp_pure (by simp)
      simp only [den_num, Option.some.injEq] at ho
      refine wp_bind (timesSign_vl hE hσ (den_num _)) fun x hx => wp_pure fun y hy => ?_
      cases hy
      rw [hx, Number.val_ofDouble, LawfulFlt.asin _ (by simpa [ho] using h1) (by simpa [ho] using h2),
        Number.val_toDouble, ho]
      simp
    · exact wp_pure (by simp)

theorem simplAsin_wp (hE : Sound E) (hσ : σ.Respects) {arg : Expr D} {A : ℝ} (h : den σ arg = some A)
    (h1 : -1 ≤ A) (h2 : A ≤ 1) : wp (Cond.holds σ) (simplAsin E arg) fun r => ∀ x, r = some x →
      den σ x = some (Real.arcsin A) := by
  unfold simplAsin
  refine wp_bind (outOfRange_wp h h1 h2) fun o ho => ?_
  rw [ho]
  refine wp_bind (prepareInverse_wp hE hσ h) fun p hp => ?_
  exact asin_wp hE hσ h h1 h2 hp.1 hp.2

theorem acosFromAsin_vl (hE : Sound E) (hσ : σ.Respects) {e : Expr D} {A : ℝ}
    (h : den σ e = some (Real.arcsin A)) : Vl σ (acosFromAsinResult E e) (Real.arccos A) := by
  unfold acosFromAsinResult
  split
  · rename_i d
    refine wp_pure ?_
    simp only [den_num, Option.some.injEq] at h
    rw [den_num, Number.val_sub, Number.val_mul, ofDouble_pi, h, Number.val_rat, Real.arccos]
    push_cast
    congr 1; ring
  · refine wp_bind (timesPi_vl hE hσ (1 / 2)) fun ph hph => wp_bind (minus_vl hE hσ h) fun m hm => ?_
    refine (hE.sum hσ (denSum_two hph hm)).eq ?_
    rw [Real.arccos]
    push_cast; ring

theorem simplAcos_wp (hE : Sound E) (hσ : σ.Respects) {arg : Expr D} {A : ℝ} (h : den σ arg = some A)
    (h1 : -1 ≤ A) (h2 : A ≤ 1) : wp (Cond.holds σ) (simplAcos E arg) fun r => ∀ x, r = some x →
      den σ x = some (Real.arccos A) := by
  unfold simplAcos
  refine wp_bind (outOfRange_wp h h1 h2) fun o ho => ?_
  rw [ho]
  refine wp_bind (prepareInverse_wp hE hσ h) fun p hp => ?_
  refine wp_bind (asin_wp hE hσ h h1 h2 hp.1 hp.2) fun r hr => ?_
  split
  · rename_i x
    refine wp_bind (acosFromAsin_vl hE hσ (hr x rfl)) fun y hy => wp_pure fun z hz => ?_
    cases hz
    exact hy
  · exact wp_pure (by simp)

theorem atanShifted_val (d : D) : LawfulFlt.val (atanShifted d) =
    (if Flt.lt (Flt.atan d) (Flt.ofRat 0) then 2 * Real.pi else 0) + Real.arctan (LawfulFlt.val d) := by
  unfold atanShifted
  split
  · rename_i h
    rw [LawfulFlt.add, LawfulFlt.mul, LawfulFlt.ofRat, LawfulFlt.pi, LawfulFlt.atan]
    push_cast; rfl
  · rw [LawfulFlt.atan]; simp

theorem simplAtan_wp (hE : Sound E) (hσ : σ.Respects) {arg : Expr D} {A : ℝ} (h : den σ arg = some A) :
    wp (Cond.holds σ) (simplAtan E arg) fun r => ∀ x w, r = some (x, w) →
      den σ x = some ((if w then 2 * Real.pi else 0) + Real.arctan A) := by
  unfold simplAtan
  refine wp_bind (prepareInverse_wp hE hσ h) fun p hp => ?_
  obtain ⟨hs, hpv⟩ := hp
  refine wp_bind (wp_lift fun a h => h) fun n hn => ?_
  refine wp_bind (wp_failIf fun h => h) fun _ hsome => ?_
  cases n with
  | none => simp at hsome
  | some n =>
  have hnv := numEval_val σ p.2 n _ hn hpv
  refine wp_bind (tanTable_wp hE hσ) fun t ht => ?_
  refine wp_bind (getKey_wp hpv hnv ht fun t _ ht hc hu => ?_) fun r hr => ?_
  · obtain ⟨θ, _, _, h4⟩ := ht hc
    rcases h4 with h4 | h4
    · exact ⟨_, h4.2⟩
    · rw [hu] at h4; exact absurd h4.2 (by simp)
  split
  · rename_i k
    obtain ⟨t, ht, hc, hu, hv, rfl⟩ := hr k rfl
    obtain ⟨θ, hk, h3, h4⟩ := ht hc
    rcases h4 with ⟨h4, h5⟩ | h4
    · rw [hv] at h5
      have h5 : (p.1 : ℝ) * A = Real.tan θ := by simpa using h5
      refine wp_bind (timesSign_vl hE hσ hk) fun x hx => wp_pure fun y w hy => ?_
      cases hy
      have hθ : Real.arctan (p.1 * A) = θ := by
        rw [h5, Real.arctan_tan (by linarith [Real.pi_pos]) h4]
      rw [hx]
      rcases hs with hs | hs
      · rw [hs] at hθ ⊢
        simpa using hθ.symm
      · rw [hs] at hθ ⊢
        simp [Real.arctan_neg] at hθ ⊢
        linarith
    · rw [hu] at h4; exact absurd h4.2 (by simp)
  · split
    · rename_i o
      refine wp_ite (fun _ => ?_) fun _ => wp_pure (by simp)
      simp only [den_num, Option.some.injEq] at h
      refine wp_bind (timesSign_vl hE hσ (den_num _)) fun x hx => wp_pure fun y w hy => ?_
      cases hy
      rw [hx, Number.val_ofDouble, atanShifted_val, Number.val_toDouble, h]
      simp
    · exact wp_pure (by simp)

theorem Spec.asin_some {x v : ℝ} (h : Spec.asin x = some v) : -1 ≤ x ∧ x ≤ 1 ∧ v = Real.arcsin x := by
  unfold Spec.asin at h
  split at h
  · rename_i hx
    simp at h; exact ⟨hx.1, hx.2, h.symm⟩
  · simp at h

theorem Spec.acos_some {x v : ℝ} (h : Spec.acos x = some v) : -1 ≤ x ∧ x ≤ 1 ∧ v = Real.arccos x := by
  unfold Spec.acos at h
  split at h
  · rename_i hx
    simp at h; exact ⟨hx.1, hx.2, h.symm⟩
  · simp at h

theorem simplify_wp (hE : Sound E) (hσ : σ.Respects) {f : Fn} {arg : Expr D} {A v : ℝ}
    (h : den σ arg = some A) (hv : Spec.fn f A = some v) :
    wp (Cond.holds σ) (simplify E f arg) fun r => ∀ x, r = some x → den σ x = some v := by
  unfold simplify
  split
  · simp only [Spec.fn, Option.some.injEq] at hv
    exact hv ▸ simplSin_wp hE hσ h
  · simp only [Spec.fn, Option.some.injEq] at hv
    exact hv ▸ simplCos_wp hE hσ h
  · obtain ⟨hc, rfl⟩ := Spec.tan_some hv
    exact simplTan_wp hE hσ h hc
  · obtain ⟨h1, h2, rfl⟩ := Spec.asin_some hv
    exact simplAsin_wp hE hσ h h1 h2
  · obtain ⟨h1, h2, rfl⟩ := Spec.acos_some hv
    exact simplAcos_wp hE hσ h h1 h2
  · simp only [Spec.fn, Option.some.injEq] at hv
    subst hv
    refine wp_bind (simplAtan_wp hE hσ h) fun r hr => ?_
    split
    · rename_i x w
      refine wp_bind (wp_failIf fun h => h) fun _ hw => wp_pure fun y hy => ?_
      cases hy
      have := hr x w rfl
      rw [hw] at this
      simpa using this
    · exact wp_pure (by simp)
  · exact wp_err

end NumTrigo

end Tsym
