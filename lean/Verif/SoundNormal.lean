import Verif.SoundPoly
import Verif.SymsNormal

set_option autoImplicit false
set_option linter.unusedSectionVars false
set_option linter.unusedSimpArgs false

/-!
# Normalisation keeps the value
-/

namespace Tsym

open Expr NumTrigo

variable {D : Type} [Flt D] [LawfulFlt D] {E : Eng D} {σ τ : Asg} {F : List (Expr D × Sym)}

/-- All entries are in the list `F`. -/
def Sub (F : List (Expr D × Sym)) (m : SMap D) : Prop := ∀ p ∈ m.entries, p ∈ F

theorem SMap.Ext.sub {m m' : SMap D} (h : m.Ext m') (hs : Sub F m') : Sub F m := by
  obtain ⟨⟨l, h⟩, -⟩ := h
  exact fun p hp => hs p (by rw [h]; simp [hp])

/-! ## The map -/

theorem getTmp_ext {C : Cond D → Prop} {e : Expr D} {m : SMap D} :
    wp C (getTmp E e m) fun r => m.Ext r.2 := by
  unfold getTmp
  split
  · exact wp_pure (.refl m)
  · exact wp_bind wp_true fun pos _ => wp_pure ⟨⟨[_], rfl⟩, rfl⟩

theorem getTmp_wp (hE : Sound E) (hτ : τ.Respects) (hF : τ.Fits F) {e : Expr D} {m : SMap D} {w : ℝ}
    (he : den τ e = some w) (hm : Good τ m.entries) :
    wp (Cond.holds τ) (getTmp E e m) fun r => m.Ext r.2 ∧
      (Sub F r.2 → Good τ r.2.entries ∧ den τ r.1 = some w) := by
  unfold getTmp
  split
  · rename_i p hp
    refine wp_pure ⟨.refl m, fun hs => ⟨hm, ?_⟩⟩
    have h1 := List.mem_of_find?_eq_some hp
    have h2 := List.find?_some hp
    obtain ⟨v, hv, hpos⟩ := hm p h1
    have : den τ p.1 = den τ e := isEqual_den τ _ _ h2
    rw [hv, he] at this
    rw [den_sym, hF p (hs p h1) v hv hpos]
    exact this
  · refine wp_bind (wp_whenTrue (hE.isPos hτ he)) fun pos hpos => wp_pure ⟨⟨⟨[_], rfl⟩, rfl⟩, fun hs => ⟨?_, ?_⟩⟩
    · intro p hp
      rcases List.mem_cons.1 hp with rfl | hp
      · exact ⟨w, he, hpos⟩
      · exact hm p hp
    · rw [den_sym, hF _ (hs _ List.mem_cons_self) w he hpos]

/-! ## Fractions -/

theorem expandsToZero_wp (hE : Sound E) (hσ : σ.Respects) {e : Expr D} {v : ℝ} (h : den σ e = some v) :
    wp (Cond.holds σ) (expandsToZero E e) fun b => b = true → v = 0 := by
  unfold expandsToZero
  refine wp_whenTrue (wp_bind (hE.expand hσ h) fun x hx => wp_pure fun hz => ?_)
  rw [den_isZero hz] at hx
  exact (Option.some.inj hx).symm

theorem cancelNonTrivial_wp (hE : Sound E) (hσ : σ.Respects) {f : Frac D} {v : ℝ} (h : f.Is σ v) :
    wp (Cond.holds σ) (cancelNonTrivial E f) fun r => r.Is σ v := by
  obtain ⟨n, d, hn, hd, hd0, hv⟩ := h
  unfold cancelNonTrivial
  refine wp_bind wp_true fun g _ => ?_
  by_cases hg : ∃ c, den σ g = some c
  · obtain ⟨c, hc⟩ := hg
    refine wp_bind (hE.divide hσ hd hc) fun qd hqd => ?_
    refine wp_bind (hE.divide hσ hn hc) fun qn hqn => ?_
    refine wp_bind wp_true fun _ _ => ?_
    refine wp_bind (wp_failIf fun h => h) fun _ hz => wp_pure ?_
    simp only [Bool.not_eq_false', Bool.and_eq_true] at hz
    rcases hqd with hqd | ⟨x, s, hx, hs, h1⟩
    · rw [hqd] at hz; simp [isZero] at hz
    rcases hqn with hqn | ⟨y, t, hy, ht, h2⟩
    · rw [hqn] at hz; simp [isZero] at hz
    rw [den_isZero hz.1] at hs
    rw [den_isZero hz.2] at ht
    cases hs; cases ht
    rw [add_zero] at h1 h2
    have hx0 : x ≠ 0 := by rintro rfl; simp at h1; exact hd0 h1
    have hc0 : c ≠ 0 := by rintro rfl; simp at h1; exact hd0 h1
    exact ⟨y, x, hy, hx, hx0, by rw [hv, h1, h2, mul_div_mul_right _ _ hc0]⟩
  · refine wp_bind wp_true fun qd _ => wp_bind wp_true fun qn _ => ?_
    refine wp_bind (P := fun _ => False) (wp_log fun h => ?_) fun _ h => h.elim
    obtain ⟨w, hw, -⟩ := h
    exact hg ⟨w, hw⟩

theorem cancel_wp (hE : Sound E) (hσ : σ.Respects) {f : Frac D} {v : ℝ} (h : f.Is σ v) :
    wp (Cond.holds σ) (cancel E f) fun r => r.Is σ v := by
  obtain ⟨n, d, hn, hd, hd0, hv⟩ := id h
  unfold cancel
  refine wp_ite (fun h1 => wp_pure ?_) fun _ => wp_ite (fun h1 => wp_pure ?_) fun _ => ?_
  · rw [den_isOne h1] at hd
    cases hd
    exact ⟨n, 1, hn, den_one, one_ne_zero, hv⟩
  · rw [den_isZero h1] at hn
    cases hn
    exact ⟨0, 1, by simpa using den_isZero h1, den_one, one_ne_zero, by rw [hv]; simp⟩
  · refine wp_bind (expandsToZero_wp hE hσ hd) fun z hz => wp_ite (fun h1 => ?_) fun _ => cancelNonTrivial_wp hE hσ h
    exact absurd (hz h1) hd0

theorem addFrac_wp (hE : Sound E) (hσ : σ.Respects) {f g : Frac D} {v w : ℝ} (hf : f.Is σ v) (hg : g.Is σ w) :
    wp (Cond.holds σ) (addFrac E f g) fun r => r.Is σ (v + w) := by
  obtain ⟨n1, d1, hn1, hd1, h1, rfl⟩ := hf
  obtain ⟨n2, d2, hn2, hd2, h2, rfl⟩ := hg
  unfold addFrac
  refine wp_ite (fun he => ?_) fun _ => ?_
  · have := isEqual_den σ _ _ he
    rw [hd1, hd2] at this
    cases this
    refine wp_bind (hE.sum hσ (denSum_two hn1 hn2)) fun n hn => wp_pure ⟨_, _, hn, hd1, h1, ?_⟩
    rw [add_div]
  · refine wp_bind wp_true fun d _ => ?_
    refine wp_bind (P := fun _ => ∃ c, den σ d = some c ∧ c ≠ 0) (wp_log id) fun _ hd => ?_
    obtain ⟨c, hc, hc0⟩ := hd
    refine wp_bind (oneOver_vl hE hσ hc hc0) fun o ho => ?_
    refine wp_bind (hE.prod hσ (denProd_two hd2 ho)) fun l hl => wp_bind (hE.expand hσ hl) fun lcm hlcm => ?_
    refine wp_bind (hE.prod hσ (denProd_two hd1 ho)) fun p hp => wp_bind (hE.normal hσ hp) fun fac hfac => ?_
    refine wp_bind (hE.prod hσ (denProd_two hn1 hlcm)) fun a ha => wp_bind (hE.expand hσ ha) fun a ha => ?_
    refine wp_bind (hE.prod hσ (denProd_two hn2 hfac)) fun b hb => wp_bind (hE.expand hσ hb) fun b hb => ?_
    refine wp_bind (hE.sum hσ (denSum_two ha hb)) fun s hs => wp_bind (hE.normal hσ hs) fun num hnum => ?_
    refine wp_bind (hE.prod hσ (denProd_two hd1 hlcm)) fun q hq => wp_bind (hE.normal hσ hq) fun den hden => ?_
    refine wp_pure ⟨_, _, hnum, hden, ?_, ?_⟩
    · exact mul_ne_zero h1 (mul_ne_zero h2 (inv_ne_zero hc0))
    · field_simp

theorem toCommonDenom_wp (hE : Sound E) (hσ : σ.Respects) {l : List (Frac D)} {vs : List ℝ}
    (h : List.Forall₂ (fun f v => Frac.Is σ f v) l vs) :
    wp (Cond.holds σ) (toCommonDenom E l) fun r => r.Is σ vs.sum := by
  unfold toCommonDenom
  cases h with
  | nil => exact wp_err
  | @cons f v l vs hf hl =>
    refine wp_bind (P := fun r => Frac.Is σ r (v + vs.sum)) ?_ fun r hr => by
      rw [List.sum_cons]; exact cancel_wp hE hσ hr
    have := wp_foldL (C := Cond.holds σ) (f := addFrac E) (l := l) (I := fun rem acc => ∃ ws x,
      List.Forall₂ (fun f v => Frac.Is σ f v) rem ws ∧ Frac.Is σ acc x ∧ x + ws.sum = v + vs.sum) ?_ f
      ⟨vs, v, hl, hf, rfl⟩
    · refine wp_mono this fun r hr => ?_
      obtain ⟨ws, x, hws, hx, he⟩ := hr
      cases hws
      rw [← he]
      simpa using hx
    · rintro a rem acc ⟨ws, x, hws, hx, he⟩
      cases hws with
      | @cons _ w _ ws ha hrem =>
        refine wp_mono (addFrac_wp hE hσ hx ha) fun r hr => ⟨ws, x + w, hrem, hr, ?_⟩
        rw [← he, List.sum_cons]; ring

theorem denSum_forall {l : List (Expr D)} {v : ℝ} (h : denSum σ l = some v) :
    ∃ vs : List ℝ, List.Forall₂ (fun e v => den σ e = some v) l vs ∧ v = vs.sum := by
  induction l generalizing v with
  | nil => exact ⟨[], .nil, by simpa [denSum] using h.symm⟩
  | cons a l ih =>
    obtain ⟨x, y, hx, hy, rfl⟩ := denSum_cons.1 h
    obtain ⟨vs, h1, rfl⟩ := ih hy
    exact ⟨x :: vs, .cons hx h1, by simp⟩

theorem denProd_forall {l : List (Expr D)} {v : ℝ} (h : denProd σ l = some v) :
    ∃ vs : List ℝ, List.Forall₂ (fun e v => den σ e = some v) l vs ∧ v = vs.prod := by
  induction l generalizing v with
  | nil => exact ⟨[], .nil, by simpa [denProd] using h.symm⟩
  | cons a l ih =>
    obtain ⟨x, y, hx, hy, rfl⟩ := denProd_cons.1 h
    obtain ⟨vs, h1, rfl⟩ := ih hy
    exact ⟨x :: vs, .cons hx h1, by simp⟩

theorem fracs_prod {l : List (Frac D)} {vs : List ℝ} (h : List.Forall₂ (fun f v => Frac.Is σ f v) l vs) :
    ∃ n d, denProd σ (l.map Frac.num) = some n ∧ denProd σ (l.map Frac.denom) = some d ∧ d ≠ 0 ∧
      vs.prod = n / d := by
  induction h with
  | nil => exact ⟨1, 1, rfl, rfl, one_ne_zero, by simp⟩
  | cons hf _ ih =>
    obtain ⟨n, d, hn, hd, hd0, rfl⟩ := hf
    obtain ⟨N, M, hN, hM, hM0, he⟩ := ih
    exact ⟨n * N, d * M, denProd_cons.2 ⟨_, _, hn, hN, rfl⟩, denProd_cons.2 ⟨_, _, hd, hM, rfl⟩,
      mul_ne_zero hd0 hM0, by rw [List.prod_cons, he, div_mul_div_comm]⟩

theorem normalOperands_wp (hE : Sound E) (hτ : τ.Respects) (hF : τ.Fits F) {l : List (Expr D)} {vs : List ℝ}
    (h : List.Forall₂ (fun e v => den τ e = some v) l vs) : ∀ {m : SMap D},
    wp (Cond.holds τ) (normalOperands E l m) fun r => m.Ext r.2 ∧ (Sub F r.2 → Good τ m.entries →
      Good τ r.2.entries ∧ List.Forall₂ (fun f v => Frac.Is τ f v) r.1 vs) := by
  induction h with
  | nil =>
    intro m
    unfold normalOperands
    exact wp_pure ⟨.refl m, fun _ hg => ⟨hg, .nil⟩⟩
  | cons ha _ ih =>
    intro m
    unfold normalOperands
    refine wp_bind (hE.normalFrac hτ hF ha) fun f hf => wp_bind ih fun r hr => wp_pure ⟨hf.1.trans hr.1, ?_⟩
    intro hs hg
    obtain ⟨hg1, hi⟩ := hf.2 (hr.1.sub hs) hg
    obtain ⟨hg2, hl⟩ := hr.2 hs hg1
    exact ⟨hg2, .cons hi hl⟩

/-! ## Powers -/

theorem evaluatePow_ext {C : Cond D → Prop} {b e : Expr D} {m : SMap D} :
    wp C (evaluatePow E b e m) fun r => m.Ext r.2 := by
  unfold evaluatePow
  exact wp_bind wp_true fun p _ => wp_ite (fun _ => wp_pure (.refl m)) fun _ => getTmp_ext

theorem evaluatePow_wp (hE : Sound E) (hτ : τ.Respects) (hF : τ.Fits F) {b e : Expr D} {m : SMap D} {x y v : ℝ}
    (hb : den τ b = some x) (he : den τ e = some y) (hv : Spec.pow x y = some v) (hm : Good τ m.entries) :
    wp (Cond.holds τ) (evaluatePow E b e m) fun r => m.Ext r.2 ∧
      (Sub F r.2 → Good τ r.2.entries ∧ den τ r.1 = some v) := by
  unfold evaluatePow
  refine wp_bind (hE.pow hτ hb he hv) fun p hp => wp_ite (fun _ => ?_) fun _ => getTmp_wp hE hτ hF hp hm
  exact wp_pure ⟨.refl m, fun _ => ⟨hm, hp⟩⟩

theorem normalNumEvalExp_ext {C : Cond D → Prop} {f : Frac D} {e : Expr D} {n : Number D} {m : SMap D} :
    wp C (normalNumEvalExp E f e n m) fun r => m.Ext r.2 := by
  unfold normalNumEvalExp
  refine wp_ite (fun _ => wp_err) fun _ => wp_bind wp_true fun _ _ => wp_bind wp_true fun p _ => ?_
  refine wp_ite (fun _ => ?_) fun _ => ?_
  · exact wp_bind evaluatePow_ext fun a ha => wp_bind evaluatePow_ext fun b hb => wp_pure (ha.trans hb)
  · exact wp_bind wp_true fun _ _ => wp_bind evaluatePow_ext fun a ha => wp_bind evaluatePow_ext fun b hb =>
      wp_bind wp_true fun _ _ => wp_pure (ha.trans hb)

/-- Two powers with the same exponent and a map. -/
theorem twoPows_wp (hE : Sound E) (hτ : τ.Respects) (hF : τ.Fits F) {a b e : Expr D} {m : SMap D}
    {x z y v w : ℝ} (ha : den τ a = some x) (hb : den τ b = some z) (he : den τ e = some y)
    (hv : Spec.pow x y = some v) (hw : Spec.pow z y = some w) (hm : Good τ m.entries) {α : Type}
    {k : Expr D × SMap D → Expr D × SMap D → M D α} {Q : α → Prop}
    (hext : ∀ p q, m.Ext q.2 → ¬Sub F q.2 → wp (Cond.holds τ) (k p q) Q)
    (hk : ∀ p q, m.Ext q.2 → Good τ q.2.entries → den τ p.1 = some v → den τ q.1 = some w →
      wp (Cond.holds τ) (k p q) Q) :
    wp (Cond.holds τ) (do
      let p ← evaluatePow E a e m
      let q ← evaluatePow E b e p.2
      k p q) Q := by
  refine wp_bind (evaluatePow_wp hE hτ hF ha he hv hm) fun p hp => ?_
  by_cases hs : Sub F p.2
  · obtain ⟨hg, hpv⟩ := hp.2 hs
    refine wp_bind (evaluatePow_wp hE hτ hF hb he hw hg) fun q hq => ?_
    by_cases hs2 : Sub F q.2
    · obtain ⟨hg2, hqv⟩ := hq.2 hs2
      exact hk p q (hp.1.trans hq.1) hg2 hpv hqv
    · exact hext p q (hp.1.trans hq.1) hs2
  · refine wp_bind evaluatePow_ext fun q hq => ?_
    exact hext p q (hp.1.trans hq) fun h => hs (hq.sub h)

theorem normalNumEvalExp_wp (hE : Sound E) (hτ : τ.Respects) (hF : τ.Fits F) {f : Frac D} {e : Expr D}
    {n : Number D} {m : SMap D} {x y v : ℝ} (hf : f.Is τ x) (he : den τ e = some y) (hn : n.val = y)
    (hv : Spec.pow x y = some v) (hm : Good τ m.entries) :
    wp (Cond.holds τ) (normalNumEvalExp E f e n m) fun r => m.Ext r.2 ∧
      (Sub F r.2 → Good τ r.2.entries ∧ r.1.Is τ v) := by
  obtain ⟨a, d, ha, hd, hd0, hx⟩ := hf
  unfold normalNumEvalExp
  refine wp_ite (fun _ => wp_err) fun _ => ?_
  refine wp_bind (P := fun _ => 0 < d) (wp_logIf fun h => ?_) fun _ hdpos => ?_
  · cases ho : f.denom.isOne with
    | false =>
      obtain ⟨w, hw, hpos⟩ := h (by simp [ho])
      rw [hd] at hw
      cases hw
      exact hpos
    | true =>
      rw [den_isOne ho] at hd
      cases hd
      exact one_pos
  have hax : a = x * d := by rw [hx, div_mul_cancel₀ a hd0]
  have hpd := Spec.pow_pos' (y := y) hdpos
  have hpa : Spec.pow a y = some (v * d ^ y) := by rw [hax]; exact Spec.pow_mul hv hpd
  refine wp_bind wp_true fun p _ => wp_ite (fun _ => ?_) fun _ => ?_
  · refine twoPows_wp hE hτ hF ha hd he hpa hpd hm (fun p q h1 h2 => wp_pure ⟨h1, fun h => absurd h h2⟩)
      fun p q h1 h2 h3 h4 => wp_pure ⟨h1, fun _ => ⟨h2, _, _, h3, h4, ?_, ?_⟩⟩
    · exact (Real.rpow_pos_of_pos hdpos y).ne'
    · rw [mul_div_cancel_right₀]
      exact (Real.rpow_pos_of_pos hdpos y).ne'
  · refine wp_bind (minus_vl hE hτ he) fun e' he' => ?_
    by_cases hy : y < 0
    · have hx0 : x ≠ 0 := by
        rintro rfl
        have := (Spec.zero_pow_of hv).2
        linarith
      have ha0 : a ≠ 0 := by rw [hax]; exact mul_ne_zero hx0 hd0
      have hva := Spec.pow_ne_zero hpa ha0
      refine twoPows_wp hE hτ hF hd ha he' (Spec.pow_neg hpd hd0) (Spec.pow_neg hpa ha0) hm
        (fun p q h1 h2 => wp_bind wp_true fun _ _ => wp_pure ⟨h1, fun h => absurd h h2⟩)
        fun p q h1 h2 h3 h4 => wp_bind wp_true fun _ _ => wp_pure ⟨h1, fun _ => ⟨h2, _, _, h3, h4, ?_, ?_⟩⟩
      · exact inv_ne_zero hva
      · have : d ^ y ≠ 0 := (Real.rpow_pos_of_pos hdpos y).ne'
        field_simp
    · refine wp_bind wp_true fun p _ => wp_bind wp_true fun q _ => ?_
      refine wp_bind (wp_failIf fun h => h) fun _ h => ?_
      simp only [Bool.not_eq_false', Number.lt_iff, hn, Number.val_zero] at h
      exact absurd h hy

theorem normalIntegerExp_wp (hE : Sound E) (hτ : τ.Respects) {f : Frac D} {n : Number D} {x v : ℝ}
    (hf : f.Is τ x) (hn : n.isInt = true) (hv : Spec.pow x n.val = some v) :
    wp (Cond.holds τ) (normalIntegerExp E f n) fun r => r.Is τ v := by
  obtain ⟨a, d, ha, hd, hd0, hx⟩ := hf
  have hnv : n.val = n.numerator := Number.val_of_isInt _ hn
  generalize n.numerator = k at hnv
  unfold normalIntegerExp
  have habs : den τ (.num n.abs) = some ((k.natAbs : ℕ) : ℝ) := by
    rw [den_num, Number.val_abs, hnv]
    congr 1
    rw [← Int.cast_abs, Int.abs_eq_natAbs]
    simp
  by_cases hk : k = 0
  · subst hk
    refine wp_bind wp_true fun _ _ => wp_bind wp_true fun _ _ => wp_pure ?_
    rw [if_neg (by simp [Number.lt_iff, hnv]), if_neg (by simp [Number.lt_iff, hnv])]
    rw [hnv] at hv
    have hx0 : x ≠ 0 := by
      rintro rfl
      have := (Spec.zero_pow_of hv).2
      simp at this
    rw [Spec.pow_int 0 hx0] at hv
    exact ⟨1, 1, den_one, den_one, one_ne_zero, by simpa using hv.symm⟩
  · have hj : k.natAbs ≠ 0 := by simpa using hk
    refine wp_bind (hE.pow hτ ha habs (Spec.pow_nat hj)) fun p hp => ?_
    refine wp_bind (hE.pow hτ hd habs (Spec.pow_nat hj)) fun q hq => wp_pure ?_
    rcases lt_or_gt_of_ne hk with hneg | hpos
    · have hneg' : (k : ℝ) < 0 := by exact_mod_cast hneg
      rw [if_neg (by simp [Number.lt_iff, hnv]; exact hneg.le), if_pos (by simpa [Number.lt_iff, hnv] using hneg)]
      have hx0 : x ≠ 0 := by
        rintro rfl
        have := (Spec.zero_pow_of hv).2
        linarith
      have ha0 : a ≠ 0 := by rintro rfl; simp at hx; exact hx0 hx
      rw [hnv, Spec.pow_int k hx0] at hv
      refine ⟨_, _, hq, hp, pow_ne_zero _ ha0, ?_⟩
      rw [← Option.some.inj hv]
      have : k = -(k.natAbs : ℤ) := by omega
      conv_lhs => rw [this]
      rw [zpow_neg, zpow_natCast, hx, div_pow, inv_div]
    · have hpos' : (0 : ℝ) < k := by exact_mod_cast hpos
      rw [if_pos (by simpa [Number.lt_iff, hnv] using hpos)]
      refine ⟨_, _, hp, hq, pow_ne_zero _ hd0, ?_⟩
      have hk' : (k : ℝ) = ((k.natAbs : ℕ) : ℝ) := by
        have : k = (k.natAbs : ℤ) := by omega
        conv_lhs => rw [this]
        simp
      rw [hnv, hk', Spec.pow_nat hj] at hv
      rw [← Option.some.inj hv, hx, div_pow]

theorem isBaseOrExpUndefined_wp (hE : Sound E) (hτ : τ.Respects) {f : Frac D} {e : Expr D} {x y : ℝ}
    (hf : f.Is τ x) (he : den τ e = some y) :
    wp (Cond.holds τ) (isBaseOrExpUndefined E f e) fun b => b = false := by
  obtain ⟨a, d, ha, hd, hd0, -⟩ := hf
  unfold isBaseOrExpUndefined
  refine wp_ite (fun h => ?_) fun _ => ?_
  · exfalso
    rw [not_undef ha, not_undef hd] at h
    have h : f.denom.isZero = true := by simpa using h
    rw [den_isZero h] at hd
    exact hd0 (Option.some.inj hd).symm
  · refine wp_bind (expandsToZero_wp hE hτ hd) fun z hz => wp_pure ?_
    rw [not_undef he, Bool.or_false]
    cases z
    · rfl
    · exact absurd (hz rfl) hd0

/-- The result of a function that extends a map. -/
def NF (τ : Asg) (F : List (Expr D × Sym)) (m : SMap D) (v : ℝ) (r : Frac D × SMap D) : Prop :=
  m.Ext r.2 ∧ (Sub F r.2 → Good τ m.entries → Good τ r.2.entries ∧ r.1.Is τ v)

theorem Frac.is_one {e : Expr D} {v : ℝ} (h : den τ e = some v) : Frac.Is τ ⟨e, one⟩ v :=
  ⟨v, 1, h, den_one, one_ne_zero, by simp⟩

theorem tmp_wp (hE : Sound E) (hτ : τ.Respects) (hF : τ.Fits F) {e : Expr D} {m : SMap D} {v : ℝ}
    (he : den τ e = some v) : wp (Cond.holds τ) (do
      let t ← getTmp E e m
      pure ((⟨t.1, one⟩ : Frac D), t.2)) (NF τ F m v) := by
  by_cases hm : Good τ m.entries
  · exact wp_bind (getTmp_wp hE hτ hF he hm) fun t ht => wp_pure ⟨ht.1, fun hs _ =>
      ⟨(ht.2 hs).1, Frac.is_one (ht.2 hs).2⟩⟩
  · exact wp_bind getTmp_ext fun t ht => wp_pure ⟨ht, fun _ h => absurd h hm⟩

theorem normalPow_wp (hE : Sound E) (hτ : τ.Respects) (hF : τ.Fits F) {b e : Expr D} {m : SMap D} {x y v : ℝ}
    (hb : den τ b = some x) (he : den τ e = some y) (hv : Spec.pow x y = some v) :
    wp (Cond.holds τ) (normalPow E b e m) (NF τ F m v) := by
  unfold normalPow
  refine wp_bind (hE.normalFrac hτ hF hb) fun f hf => wp_bind (hE.normal hτ he) fun re hre => ?_
  by_cases hc : Sub F f.2 ∧ Good τ m.entries
  · obtain ⟨hg, hi⟩ := hf.2 hc.1 hc.2
    refine wp_bind (isBaseOrExpUndefined_wp hE hτ hi hre) fun u hu => ?_
    rw [hu]
    refine wp_bind (wp_lift fun a h => h) fun n hn => ?_
    split
    · rename_i k
      have hk := numEval_val τ re k y hn hre
      refine wp_ite (fun hint => ?_) fun _ => ?_
      · exact wp_bind (normalIntegerExp_wp hE hτ hi hint (hk.symm ▸ hv)) fun r hr =>
          wp_pure ⟨hf.1, fun _ _ => ⟨hg, hr⟩⟩
      · exact wp_mono (normalNumEvalExp_wp hE hτ hF hi hre hk hv hg) fun r hr =>
          ⟨hf.1.trans hr.1, fun hs _ => hr.2 hs⟩
    · obtain ⟨a, d, ha, hd, hd0, hx⟩ := hi
      refine wp_bind (evalFrac_vl hE hτ ha hd hd0) fun q hq => ?_
      rw [← hx] at hq
      refine wp_bind (hE.pow hτ hq hre hv) fun p hp => ?_
      exact wp_mono (tmp_wp hE hτ hF hp) fun r hr => ⟨hf.1.trans hr.1, fun hs _ => hr.2 hs hg⟩
  · have hno : ∀ r : Frac D × SMap D, f.2.Ext r.2 → NF τ F m v r := fun r hr =>
      ⟨hf.1.trans hr, fun hs hg => absurd ⟨hr.sub hs, hg⟩ hc⟩
    refine wp_bind wp_true fun u _ => wp_ite (fun _ => wp_pure (hno _ (.refl _))) fun _ => ?_
    refine wp_bind wp_true fun n _ => ?_
    split
    · refine wp_ite (fun _ => ?_) fun _ => ?_
      · exact wp_bind wp_true fun r _ => wp_pure (hno _ (.refl _))
      · exact wp_mono normalNumEvalExp_ext fun r hr => hno r hr
    · exact wp_bind wp_true fun q _ => wp_bind wp_true fun p _ => wp_bind getTmp_ext fun t ht =>
        wp_pure (hno _ ht)

theorem normalFrac_wp (hE : Sound E) (hτ : τ.Respects) (hF : τ.Fits F) {a : Expr D} {m : SMap D} {v : ℝ}
    (h : den τ a = some v) : wp (Cond.holds τ) (normalFrac E a m) (NF τ F m v) := by
  have plain : ∀ {f : Frac D}, f.Is τ v → NF τ F m v (f, m) := fun hf => ⟨.refl m, fun _ hg => ⟨hg, hf⟩⟩
  unfold normalFrac
  split
  · rename_i q
    refine wp_pure (plain ⟨q.num, q.den, den_int _, ?_, ?_, ?_⟩)
    · have := den_int (D := D) (σ := τ) (q.den : ℤ)
      simpa using this
    · simp [q.den_ne_zero]
    · simp only [den_num, Number.val_rat, Option.some.injEq] at h
      rw [← h]
      exact_mod_cast (Rat.num_div_den q).symm
  · exact tmp_wp hE hτ hF h
  · exact wp_pure (plain (Frac.is_one h))
  · exact tmp_wp hE hτ hF h
  · simp at h
  · rename_i l
    refine wp_bind (expandsToZero_wp hE hτ h) fun z hz => wp_ite (fun hzt => wp_pure (plain ?_)) fun _ => ?_
    · rw [hz hzt]; exact Frac.is_one den_zero
    · rw [den_sum] at h
      obtain ⟨vs, hvs, rfl⟩ := denSum_forall h
      refine wp_bind (normalOperands_wp hE hτ hF hvs) fun r hr => ?_
      by_cases hc : Sub F r.2 ∧ Good τ m.entries
      · obtain ⟨hg, hl⟩ := hr.2 hc.1 hc.2
        exact wp_bind (toCommonDenom_wp hE hτ hl) fun f hf => wp_pure ⟨hr.1, fun _ _ => ⟨hg, hf⟩⟩
      · exact wp_bind wp_true fun f _ => wp_pure ⟨hr.1, fun h1 h2 => absurd ⟨h1, h2⟩ hc⟩
  · rename_i l
    refine wp_bind (expandsToZero_wp hE hτ h) fun z hz => wp_ite (fun hzt => wp_pure (plain ?_)) fun _ => ?_
    · rw [hz hzt]; exact Frac.is_one den_zero
    · rw [den_prod] at h
      obtain ⟨vs, hvs, rfl⟩ := denProd_forall h
      refine wp_bind (normalOperands_wp hE hτ hF hvs) fun r hr => ?_
      by_cases hc : Sub F r.2 ∧ Good τ m.entries
      · obtain ⟨hg, hl⟩ := hr.2 hc.1 hc.2
        obtain ⟨n, d, hn, hd, hd0, he⟩ := fracs_prod hl
        refine wp_bind (hE.prod hτ hn) fun N hN => wp_bind (hE.prod hτ hd) fun Dn hDn => ?_
        exact wp_bind (cancel_wp hE hτ (f := ⟨N, Dn⟩) ⟨n, d, hN, hDn, hd0, he⟩) fun f hf =>
          wp_pure ⟨hr.1, fun _ _ => ⟨hg, hf⟩⟩
      · exact wp_bind wp_true fun _ _ => wp_bind wp_true fun _ _ => wp_bind wp_true fun f _ =>
          wp_pure ⟨hr.1, fun h1 h2 => absurd ⟨h1, h2⟩ hc⟩
  · obtain ⟨x, y, hx, hy, hv⟩ := den_pow.1 h
    exact normalPow_wp hE hτ hF hx hy hv
  · obtain ⟨x, hx, hv⟩ := den_fn.1 h
    exact wp_bind (hE.normal hτ hx) fun a' ha' => wp_bind (hE.log hτ ha' hv) fun y hy => tmp_wp hE hτ hF hy
  · rename_i f a hf
    obtain ⟨x, hx, hv⟩ := den_fn.1 h
    exact wp_bind (hE.normal hτ hx) fun a' ha' => wp_bind (hE.trig hτ (fun h => hf h) ha' hv) fun y hy =>
      tmp_wp hE hτ hF hy
  · obtain ⟨y, x, hy, hx, hv⟩ := den_atan2.1 h
    exact wp_bind (hE.normal hτ hy) fun y' hy' => wp_bind (hE.normal hτ hx) fun x' hx' =>
      wp_bind (hE.atan2 hτ hy' hx' hv) fun r hr => tmp_wp hE hτ hF hr

/-! ## Replacing the symbols back -/

theorem replaceBack_vl (hE : Sound E) (hτ : τ.Respects) (hF : τ.Fits F) (hG : Good τ F) {e : Expr D} {v : ℝ}
    (he : den τ e = some v) : Vl τ (replaceBack E F e) v := by
  unfold replaceBack
  refine wp_loop (I := fun e => den τ e = some v) (fun o ho => ?_) _ _ he
  refine wp_bind (P := fun r => den τ r = some v) ?_ fun r hr => ?_
  · unfold replacePass
    refine wp_mono (wp_foldL (I := fun rem b => (∀ p ∈ rem, p ∈ F) ∧ den τ b = some v) ?_ o ⟨?_, ho⟩)
      fun r hr => hr.2
    · rintro p rem b ⟨h1, hb⟩
      refine wp_mono (hE.subst hτ (σ' := τ) (fun _ _ => rfl) (fun w hw => ?_) hb) fun r hr =>
        ⟨fun q hq => h1 q (by simp [hq]), hr⟩
      obtain ⟨z, hz, hpos⟩ := hG p (h1 p (by simp))
      rw [den_sym, hF p (h1 p (by simp)) z hz hpos] at hw
      rw [hz]; exact hw
    · exact fun p hp => (hE.syms.ok.mapOrder _).mem_iff.1 hp
  · refine wp_ite (fun _ => ?_) fun _ => wp_ite (fun _ => ?_) fun _ => ?_
    · exact wp_pure ⟨by simp, fun x hx => by cases hx; exact hr⟩
    · exact wp_pure ⟨fun x hx => by cases hx; exact hr, by simp⟩
    · exact wp_pure ⟨by simp, fun x hx => by cases hx; exact hr⟩

/-- The assignment that the entries of a map define. -/
noncomputable def ext (σ : Asg) (l : List (Expr D × Sym)) : Asg := extend σ (l.map fun p => (p.2, p.1))

theorem ext_of_not_mem {l : List (Expr D × Sym)} {s : Sym} (h : s ∉ l.map Prod.snd) : ext σ l s = σ s := by
  unfold ext
  refine extend_other fun hs => h ?_
  simpa using hs

variable {S : Sym → Prop}

theorem ext_of_S {l : List (Expr D × Sym)} (h : Chain S l) {s : Sym} (hs : S s) : ext σ l s = σ s := by
  refine ext_of_not_mem fun hm => ?_
  obtain ⟨p, hp, rfl⟩ := List.mem_map.1 hm
  obtain ⟨l1, l2, rfl⟩ := List.append_of_mem hp
  have := h.tail
  cases this with
  | cons _ _ h1 _ => exact h1 hs

/-- Later entries do not change what the earlier ones define. -/
theorem ext_append {l1 l2 : List (Expr D × Sym)} (h : Chain S (l1 ++ l2)) {s : Sym} (hs : Ent S l2 s) :
    ext σ (l1 ++ l2) s = ext σ l2 s := by
  induction l1 with
  | nil => rfl
  | cons p l1 ih =>
    have hne : s ≠ p.2 := by
      rintro rfl
      exact Chain.not_mem (l1 := p :: l1) h p (by simp) hs
    have : ext σ (p :: l1 ++ l2) s = ext σ (l1 ++ l2) s := by
      unfold ext
      simp only [List.cons_append, List.map_cons, extend, Function.update_of_ne hne]
    rw [this]
    cases h with
    | cons h _ _ _ => exact ih h

theorem ext_fits {l : List (Expr D × Sym)} (h : Chain S l) : (ext σ l).Fits l := by
  intro p hp v hv hpos
  obtain ⟨l1, l2, rfl⟩ := List.append_of_mem hp
  have ht := h.tail
  rw [ext_append h (.inr (by simp))]
  cases ht with
  | @cons e t _ hc he h1 h2 =>
    have hd : den (ext σ (l1 ++ (e, t) :: l2)) e = den (ext σ l2) e := by
      refine den_congr e (he.mono fun s hs => ?_)
      rw [ext_append h (hs.imp_right fun h => by simp [h])]
      exact ext_append (l1 := [(e, t)]) h.tail hs
    simp only at hv hpos
    rw [hd] at hv
    have : ext σ ((e, t) :: l2) t = if t.positive then max ((den (ext σ l2) e).getD 0) 0
        else (den (ext σ l2) e).getD 0 := by
      unfold ext
      simp only [List.map_cons, extend, Function.update_self]
    rw [this, hv]
    split
    · rename_i hp; simpa using hpos hp
    · simp

theorem normal_vl (hE : Sound E) (hσ : σ.Respects) {a : Expr D} {v : ℝ} (h : den σ a = some v) :
    Vl σ (normal E a) v := by
  let S : Sym → Prop := fun s => Occurs (.sym s) a
  have ha : Within S a := fun s hs => hs
  have hm : (⟨[], a.tmpIds⟩ : SMap D).Ok S := ⟨.nil, fun s hs => mem_tmpIds a s hs⟩
  unfold normal
  refine wp_bind (P := fun p : (Frac D × SMap D) × List (Cond D) =>
    E.normalFrac a ⟨[], a.tmpIds⟩ = .ok (p.1, p.2)) (wp_capture fun f cs hp => hp) fun p hp => ?_
  refine wp_bind (P := fun n : Expr D × List (Cond D) =>
    replaceBack E p.1.2.entries p.1.1.num = .ok (n.1, n.2)) (wp_capture fun f cs hp => hp) fun n hn => ?_
  refine wp_bind (P := fun n : Expr D × List (Cond D) =>
    replaceBack E p.1.2.entries p.1.1.denom = .ok (n.1, n.2)) (wp_capture fun f cs hp => hp) fun d hd => ?_
  refine wp_bind (P := fun _ => ∀ c ∈ p.2 ++ n.2 ++ d.2, Cond.holds (ext σ p.1.2.entries) c)
    (wp_emit fun hc c hcm => ?_) fun _ hc => ?_
  · exact hc _ (List.mem_map_of_mem hcm)
  obtain ⟨hp1, -, hp2, hp3⟩ := hE.syms.normalFrac hm ha p.1 p.2 hp fun _ _ => trivial
  have hn1 := replaceBack_sy hE.syms hp1.1 hp2 n.1 n.2 hn fun _ _ => trivial
  have hd1 := replaceBack_sy hE.syms hp1.1 hp3 d.1 d.2 hd fun _ _ => trivial
  have hτ : (ext σ p.1.2.entries).Respects := extend_respects hσ _
  have hF := ext_fits (σ := σ) hp1.1
  have back : ∀ {e : Expr D}, Within S e → den (ext σ p.1.2.entries) e = den σ e := fun he =>
    den_congr _ (he.mono fun s hs => ext_of_S hp1.1 hs)
  have hc1 : ∀ c ∈ p.2, Cond.holds (ext σ p.1.2.entries) c := fun c hcm => hc c (by simp [hcm])
  have hc2 : ∀ c ∈ n.2, Cond.holds (ext σ p.1.2.entries) c := fun c hcm => hc c (by simp [hcm])
  have hc3 : ∀ c ∈ d.2, Cond.holds (ext σ p.1.2.entries) c := fun c hcm => hc c (by simp [hcm])
  obtain ⟨-, hN⟩ := hE.normalFrac hτ hF (back ha ▸ h) p.1 p.2 hp hc1
  obtain ⟨hG, N, M, h1, h2, h3, h4⟩ := hN (fun p hp => hp) (by simp [Good])
  have hn2 := replaceBack_vl hE hτ hF hG h1 n.1 n.2 hn hc2
  have hd2 := replaceBack_vl hE hτ hF hG h2 d.1 d.2 hd hc3
  simp only at hn2 hd2
  rw [back hn1] at hn2
  rw [back hd1] at hd2
  exact (evalFrac_vl hE hσ (f := ⟨n.1, d.1⟩) hn2 hd2 h3).eq h4.symm

/-! ## All functions -/

theorem sound_eng0 {cfg : Cfg D} (h : cfg.Ok) : Sound (eng0 cfg) where
  syms := syms_eng0 h
  sum _ _ := wp_err
  prod _ _ := wp_err
  pow _ _ _ _ := wp_err
  pow0 _ _ _ := wp_err
  log _ _ _ := wp_err
  trig _ _ _ _ := wp_err
  atan2 _ _ _ _ := wp_err
  isPos _ _ := wp_err
  isNeg _ _ := wp_err
  expand _ _ := wp_err
  expandAsProduct _ _ := wp_err
  subst _ _ _ _ := wp_err
  normal _ _ := wp_err
  normalFrac _ _ _ := wp_err
  simplSum _ _ := wp_err
  sumSimplify _ _ := wp_err
  prodSimplify _ _ := wp_err
  divide _ _ _ := wp_err
  mergeSum _ _ _ := wp_err
  simplProd _ _ := wp_err
  mergeProd _ _ _ := wp_err
  simplPow _ _ _ _ := wp_err
  coeff _ _ := wp_err
  divideL _ _ _ := wp_err

theorem sound_step (hE : Sound E) : Sound (engStep E) where
  syms := syms_step hE.syms
  sum hσ h := sumCreate_vl hE hσ h
  prod hσ h := prodCreate_vl hE hσ h
  pow hσ h1 h2 h3 := powCreate_vl hE hσ h1 h2 h3
  pow0 hσ h1 h2 := powCreate_zero hE hσ h1 h2
  log hσ h1 h2 := logCreate_vl hE hσ h1 h2
  trig hσ h1 h2 h3 := trigCreate_vl hE hσ h1 h2 h3
  atan2 hσ h1 h2 h3 := atan2Create_vl hE hσ h1 h2 h3
  isPos hσ h := isPos_wp hE hσ h
  isNeg hσ h := isNeg_wp hE hσ h
  expand hσ h := expand_vl hE hσ h
  expandAsProduct hσ h := expandAsProduct_vl hE hσ h
  subst hσ h1 h2 h3 := subst_vl hE hσ h1 h2 h3
  normal hσ h := normal_vl hE hσ h
  normalFrac hσ h1 h2 := normalFrac_wp hE hσ h1 h2
  simplSum hσ h := simplSum_vl hE hσ h
  sumSimplify hσ h := simplSum_vl hE hσ h
  prodSimplify hσ h := simplProd_vl hE hσ h
  divide hσ ha hb := polyDivide_wp hE hσ ha hb
  mergeSum hσ h1 h2 := mergeSum_vl hE hσ h1 h2
  simplProd hσ h := simplProd_vl hE hσ h
  mergeProd hσ h1 h2 := mergeProd_vl hE hσ h1 h2
  simplPow hσ h1 h2 h3 := simplPow_vl hE hσ h1 h2 h3
  coeff hσ h := coeff_val hE hσ h
  divideL hσ h1 h2 := divideL_vl hE hσ h1 h2

/-- The functions of the library keep values, where the recorded conditions hold. -/
theorem sound_eng {cfg : Cfg D} (h : cfg.Ok) : ∀ n, Sound (eng cfg n)
  | 0 => sound_eng0 h
  | n + 1 => sound_step (sound_eng h n)

end Tsym
