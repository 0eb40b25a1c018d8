import Verif.SoundTrig

set_option autoImplicit false
set_option linter.unusedSectionVars false
set_option linter.unusedSimpArgs false

/-!
# Expansion and substitution keep the value
-/

namespace Tsym

open Expr NumTrigo

variable {D : Type} [Flt D] [LawfulFlt D] {E : Eng D} {σ : Asg}

/-- The values of the results add up if every operand is mapped to its multiple. -/
theorem mapL_mul_vl {f : Expr D → M D (Expr D)} {w : ℝ}
    (h : ∀ a x, den σ a = some x → Vl σ (f a) (x * w)) :
    ∀ {l : List (Expr D)} {v : ℝ}, denSum σ l = some v → VlSum σ (M.mapL f l) (v * w)
  | [], v, hl => by
    unfold M.mapL
    simp only [denSum, Option.some.injEq] at hl
    exact wp_pure (by simp [denSum, ← hl])
  | a :: l, v, hl => by
    unfold M.mapL
    obtain ⟨x, y, hx, hy, rfl⟩ := denSum_cons.1 hl
    refine wp_bind (h a x hx) fun b hb => wp_bind (mapL_mul_vl h hy) fun r hr => wp_pure ?_
    exact denSum_cons.2 ⟨_, _, hb, hr, by ring⟩

theorem mapL_sum_vl {f : Expr D → M D (Expr D)} (h : ∀ a x, den σ a = some x → Vl σ (f a) x)
    {l : List (Expr D)} {v : ℝ} (hl : denSum σ l = some v) : VlSum σ (M.mapL f l) v := by
  have := mapL_mul_vl (σ := σ) (f := f) (w := 1) (fun a x hx => (h a x hx).eq (mul_one x).symm) hl
  rwa [mul_one] at this

theorem defScalarAndSums_wp (hE : Sound E) (hσ : σ.Respects) : ∀ {l : List (Expr D)} {v : ℝ},
    denProd σ l = some v → wp (Cond.holds σ) (defScalarAndSums E l) fun r =>
      ∃ x y, denProd σ r.1 = some x ∧ denProd σ r.2 = some y ∧ v = x * y
  | [], v, h => by
    unfold defScalarAndSums
    exact wp_pure ⟨1, v, rfl, h, by simp⟩
  | a :: l, v, h => by
    unfold defScalarAndSums
    obtain ⟨x, y, hx, hy, rfl⟩ := denProd_cons.1 h
    refine wp_bind (hE.expand hσ hx) fun b hb => wp_bind (defScalarAndSums_wp hE hσ hy) fun r hr => wp_pure ?_
    obtain ⟨z, w, hz, hw, rfl⟩ := hr
    split
    · exact ⟨z, x * w, hz, denProd_cons.2 ⟨x, w, hb, hw, rfl⟩, by ring⟩
    · exact ⟨x * z, w, denProd_cons.2 ⟨x, z, hb, hz, rfl⟩, hw, by ring⟩

theorem expandSums_vl (hE : Sound E) (hσ : σ.Respects) : ∀ {l : List (Expr D)} {first : Expr D} {x y : ℝ},
    den σ first = some x → denProd σ l = some y → Vl σ (expandSums E first l) (x * y)
  | [], first, x, y, hx, hy => by
    unfold expandSums
    simp only [denProd, Option.some.injEq] at hy
    exact wp_pure (by rw [hx, ← hy, mul_one])
  | b :: l, first, x, y, hx, hy => by
    unfold expandSums
    obtain ⟨z, w, hz, hw, rfl⟩ := denProd_cons.1 hy
    refine wp_bind (wp_failIf fun h => h) fun _ hs => ?_
    cases first with
    | sum ops =>
      simp only [operands]
      rw [den_sum] at hx
      refine wp_bind (mapL_mul_vl (w := z) (fun a u hu => ?_) hx) fun s hs => ?_
      · exact wp_bind (hE.prod hσ (denProd_two hu hz)) fun p hp => hE.expand hσ hp
      · refine wp_bind (hE.sum hσ hs) fun s hs => ?_
        exact (expandSums_vl hE hσ hs hw).eq (by ring)
    | _ => simp [isSum] at hs

theorem expandAsProduct_vl (hE : Sound E) (hσ : σ.Respects) {l : List (Expr D)} {v : ℝ}
    (h : denProd σ l = some v) : Vl σ (expandAsProduct E l) v := by
  unfold expandAsProduct
  refine wp_bind (defScalarAndSums_wp hE hσ h) fun p hp => ?_
  obtain ⟨x, y, hx, hy, rfl⟩ := hp
  refine wp_bind (P := fun s => den σ s = some x) ?_ fun s hs => ?_
  · refine wp_ite (fun he => wp_pure ?_) fun _ => hE.prod hσ hx
    rw [List.isEmpty_iff] at he
    rw [he] at hx
    simpa [denProd] using hx
  · split
    · rename_i he
      rw [he] at hy
      simp only [denProd, Option.some.injEq] at hy
      exact wp_pure (by rw [hs, ← hy, mul_one])
    · rename_i a sums he
      rw [he] at hy
      obtain ⟨z, w, hz, hw, rfl⟩ := denProd_cons.1 hy
      refine wp_bind (expandSums_vl hE hσ hz hw) fun b hb => ?_
      split
      · rename_i ops
        rw [den_sum] at hb
        unfold expandScalarSum
        refine wp_bind (mapL_mul_vl (w := x) (fun a u hu => ?_) hb) fun s hs => ?_
        · refine wp_bind (hE.prod hσ (denProd_two hs hu)) fun p hp => ?_
          exact (hE.expand hσ hp).eq (mul_comm _ _)
        · exact (hE.sum hσ hs).eq (mul_comm _ _)
      · exact hE.prod hσ (denProd_two hs hb)

theorem isInteger_num {e : Expr D} (h : isInteger e = .ok true) :
    ∃ n, numEval e = .ok (some n) ∧ n.isInt = true := by
  simp only [isInteger, Except.bind_ok] at h
  obtain ⟨n, hn, h⟩ := h
  cases n with
  | none => simp [Except.pure_ok] at h
  | some n =>
    simp only [Except.pure_ok] at h
    exact ⟨n, hn, h⟩

theorem denProd_replicate {b : Expr D} {x : ℝ} (h : den σ b = some x) (n : ℕ) :
    denProd σ (List.replicate n b) = some (x ^ n) := by
  induction n with
  | zero => simp [denProd]
  | succ n ih => exact denProd_cons.2 ⟨x, x ^ n, h, ih, by ring⟩

theorem expandSumBaseIntExp_vl (hE : Sound E) (hσ : σ.Respects) {b e : Expr D} {x y v : ℝ}
    (hb : den σ b = some x) (he : den σ e = some y) (hi : isInteger e = .ok true)
    (hv : Spec.pow x y = some v) : Vl σ (expandSumBaseIntExp E b e) v := by
  unfold expandSumBaseIntExp evalE
  obtain ⟨n, hn, hni⟩ := isInteger_num hi
  rw [hn]
  refine wp_bind (P := fun m => m = n) (wp_pure rfl) fun m hm => ?_
  subst hm
  have hy : y = m.numerator := by rw [← numEval_val σ e m y hn he, Number.val_of_isInt _ hni]
  generalize m.numerator = k at hy ⊢
  subst hy
  refine wp_bind (hE.expandAsProduct hσ (denProd_replicate hb _)) fun r hr => ?_
  refine wp_ite (fun hk => ?_) fun hk => ?_
  · have hx : x ≠ 0 := by
      rintro rfl
      rcases (Spec.pow_some hv).1 with h | ⟨_, h⟩ | h
      · exact lt_irrefl _ h
      · have : (0 : ℤ) < k := by exact_mod_cast h
        omega
      · exact lt_irrefl _ h.1
    refine (oneOver_vl hE hσ hr (pow_ne_zero _ hx)).eq ?_
    rw [Spec.pow_int k hx] at hv
    cases hv
    have : k = -(k.natAbs : ℤ) := by omega
    conv_rhs => rw [this]
    rw [zpow_neg, zpow_natCast]
  · refine wp_pure ?_
    rw [hr, ← hv]
    obtain ⟨j, rfl⟩ := Int.eq_ofNat_of_zero_le (not_lt.1 hk)
    by_cases hx : x = 0
    · subst hx
      rcases (Spec.pow_some hv).1 with h | ⟨_, h⟩ | h
      · exact absurd h (lt_irrefl _)
      · obtain ⟨hv', -⟩ := Spec.zero_pow_of hv
        rw [hv, hv']
        have : j ≠ 0 := by rintro rfl; simp at h
        simp [this]
      · exact absurd h.1 (lt_irrefl _)
    · rw [Spec.pow_int _ hx]
      simp

theorem expand_vl (hE : Sound E) (hσ : σ.Respects) {e : Expr D} {v : ℝ} (h : den σ e = some v) :
    Vl σ (expand E e) v := by
  unfold expand
  split
  · rw [den_sum] at h
    exact wp_bind (mapL_sum_vl (fun a x hx => hE.expand hσ hx) h) fun r hr => hE.sum hσ hr
  · rw [den_prod] at h
    exact hE.expandAsProduct hσ h
  · obtain ⟨x, y, hx, hy, hv⟩ := den_pow.1 h
    refine wp_bind (wp_lift fun a h => h) fun i hi => wp_ite (fun hit => ?_) fun _ => wp_pure h
    rw [hit] at hi
    split
    · exact expandSumBaseIntExp_vl hE hσ hx hy hi hv
    · exact hE.pow hσ hx hy hv
  · exact wp_pure h

theorem subst_vl (hE : Sound E) (hσ : σ.Respects) {σ' : Asg} {x r e : Expr D} {v : ℝ}
    (h1 : ∀ y, isEqual (.sym y) x = false → σ y = σ' y)
    (h2 : ∀ w, den σ' x = some w → den σ r = some w) (h : den σ' e = some v) : Vl σ (subst E x r e) v := by
  have hit : ∀ {e : Expr D}, den σ' e = some v → isEqual e x = true → den σ r = some v := fun h he =>
    h2 v (by rw [← isEqual_den σ' _ _ he, h])
  have sums : ∀ {l : List (Expr D)} {v}, denSum σ' l = some v → VlSum σ (substList E x r l) v := by
    intro l
    unfold substList
    induction l with
    | nil => intro v h; unfold M.mapL; exact wp_pure h
    | cons a l ih =>
      intro v h
      unfold M.mapL
      obtain ⟨y, z, hy, hz, rfl⟩ := denSum_cons.1 h
      exact wp_bind (hE.subst hσ h1 h2 hy) fun b hb => wp_bind (ih hz) fun m hm =>
        wp_pure (denSum_cons.2 ⟨y, z, hb, hm, rfl⟩)
  have prods : ∀ {l : List (Expr D)} {v}, denProd σ' l = some v → VlProd σ (substList E x r l) v := by
    intro l
    unfold substList
    induction l with
    | nil => intro v h; unfold M.mapL; exact wp_pure h
    | cons a l ih =>
      intro v h
      unfold M.mapL
      obtain ⟨y, z, hy, hz, rfl⟩ := denProd_cons.1 h
      exact wp_bind (hE.subst hσ h1 h2 hy) fun b hb => wp_bind (ih hz) fun m hm =>
        wp_pure (denProd_cons.2 ⟨y, z, hb, hm, rfl⟩)
  unfold subst
  split
  · simp at h
  · refine wp_ite (fun he => wp_pure (hit h he)) fun _ => ?_
    rw [den_sum] at h
    exact wp_bind (sums h) fun m hm => hE.sum hσ hm
  · refine wp_ite (fun he => wp_pure (hit h he)) fun _ => ?_
    rw [den_prod] at h
    exact wp_bind (prods h) fun m hm => hE.prod hσ hm
  · refine wp_ite (fun he => wp_pure (hit h he)) fun _ => ?_
    obtain ⟨y, z, hy, hz, hv⟩ := den_pow.1 h
    exact wp_bind (hE.subst hσ h1 h2 hy) fun b hb => wp_bind (hE.subst hσ h1 h2 hz) fun c hc =>
      hE.pow hσ hb hc hv
  · refine wp_ite (fun he => wp_pure (hit h he)) fun _ => ?_
    obtain ⟨y, hy, hv⟩ := den_fn.1 h
    exact wp_bind (hE.subst hσ h1 h2 hy) fun b hb => hE.log hσ hb hv
  · rename_i f a hf
    refine wp_ite (fun he => wp_pure (hit h he)) fun _ => ?_
    obtain ⟨y, hy, hv⟩ := den_fn.1 h
    exact wp_bind (hE.subst hσ h1 h2 hy) fun b hb => hE.trig hσ (fun h => hf h) hb hv
  · refine wp_ite (fun he => wp_pure (hit h he)) fun _ => ?_
    obtain ⟨y, z, hy, hz, hv⟩ := den_atan2.1 h
    exact wp_bind (hE.subst hσ h1 h2 hy) fun b hb => wp_bind (hE.subst hσ h1 h2 hz) fun c hc =>
      hE.atan2 hσ hb hc hv
  · refine wp_pure ?_
    split
    · rename_i he; exact hit h he
    · rename_i he
      cases e with
      | num n => simpa using h
      | cst c => simpa using h
      | sym s =>
        simp only [den_sym, Option.some.injEq] at h ⊢
        rw [h1 s (by simpa using he), h]
      | _ => simp_all

end Tsym
