import Verif.SoundExpand

set_option autoImplicit false
set_option linter.unusedSectionVars false
set_option linter.unusedSimpArgs false

/-!
# Coefficients and polynomial division keep the value (src/poly.cpp)
-/

namespace Tsym

open Expr NumTrigo

variable {D : Type} [Flt D] [LawfulFlt D] {E : Eng D} {σ : Asg}

/-- The expression has a value. -/
def Val (σ : Asg) (e : Expr D) : Prop := ∃ v, den σ e = some v

theorem denSum_mem {l : List (Expr D)} {v : ℝ} (h : denSum σ l = some v) : ∀ a ∈ l, Val σ a := by
  induction l generalizing v with
  | nil => simp
  | cons b l ih =>
    obtain ⟨x, y, hx, hy, -⟩ := denSum_cons.1 h
    intro a ha
    rcases List.mem_cons.1 ha with rfl | ha
    · exact ⟨x, hx⟩
    · exact ih hy a ha

theorem removeFirst_val {p : Expr D} : ∀ {l m : List (Expr D)} {v : ℝ}, denProd σ l = some v →
    removeFirst p l = some m → ∃ w, denProd σ m = some w
  | [], m, v, _, h => by simp [removeFirst] at h
  | a :: l, m, v, hv, h => by
    obtain ⟨x, y, hx, hy, -⟩ := denProd_cons.1 hv
    unfold removeFirst at h
    split at h
    · cases h; exact ⟨y, hy⟩
    · simp only [Option.map_eq_some_iff] at h
      obtain ⟨m', hm', rfl⟩ := h
      obtain ⟨w, hw⟩ := removeFirst_val hy hm'
      exact ⟨_, denProd_cons.2 ⟨x, w, hx, hw, rfl⟩⟩

theorem val_unit {b : Bool} : Val σ (if b then one else zero : Expr D) := by
  cases b
  · exact ⟨0, den_zero⟩
  · exact ⟨1, den_one⟩

theorem val_unit' {p : Prop} [Decidable p] : Val σ (if p then one else zero : Expr D) := by
  split
  · exact ⟨1, den_one⟩
  · exact ⟨0, den_zero⟩

theorem coeff_val (hE : Sound E) (hσ : σ.Respects) {x e : Expr D} {n : ℤ} {v : ℝ} (h : den σ e = some v) :
    wp (Cond.holds σ) (coeff E x n e) fun r => ∃ w, den σ r = some w := by
  unfold coeff
  split
  · refine wp_ite (fun _ => wp_pure val_unit') fun _ => wp_ite (fun _ => wp_pure ⟨v, h⟩) fun _ => ?_
    rename_i l
    rw [den_sum] at h
    have hl := denSum_mem h
    refine wp_mono (wp_foldL (I := fun rem acc => (∀ a ∈ rem, Val σ a) ∧ Val σ acc) ?_ _ ⟨hl, 0, den_zero⟩)
      fun r hr => hr.2
    intro a rem acc ⟨h1, w, hw⟩
    obtain ⟨y, hy⟩ := h1 a (by simp)
    refine wp_bind (hE.coeff hσ hy) fun c hc => ?_
    obtain ⟨z, hz⟩ := hc
    exact wp_mono (hE.sum hσ (denSum_two hw hz)) fun r hr => ⟨fun b hb => h1 b (by simp [hb]), _, hr⟩
  · refine wp_ite (fun _ => wp_pure val_unit') fun _ => wp_ite (fun _ => wp_pure ⟨v, h⟩) fun _ => ?_
    refine wp_bind wp_true fun p _ => ?_
    split
    · rename_i m hm
      rw [den_prod] at h
      obtain ⟨w, hw⟩ := removeFirst_val h hm
      exact wp_mono (hE.prod hσ hw) fun r hr => ⟨_, hr⟩
    · exact wp_pure ⟨0, den_zero⟩
  · refine wp_ite (fun _ => wp_pure val_unit') fun _ => wp_bind wp_true fun p _ => ?_
    refine wp_ite (fun _ => wp_pure ⟨1, den_one⟩) fun _ => wp_ite (fun _ => wp_pure ?_) fun _ =>
      wp_pure ⟨0, den_zero⟩
    split
    · exact ⟨v, h⟩
    · exact ⟨0, den_zero⟩
  · refine wp_ite (fun _ => wp_pure val_unit') fun _ => wp_ite (fun _ => wp_pure ⟨v, h⟩) fun _ =>
      wp_pure ⟨0, den_zero⟩

theorem leadingCoeff_val (hE : Sound E) (hσ : σ.Respects) {x e : Expr D} {v : ℝ} (h : den σ e = some v) :
    wp (Cond.holds σ) (leadingCoeff E x e) fun r => ∃ w, den σ r = some w := by
  unfold leadingCoeff
  exact wp_bind wp_true fun n _ => hE.coeff hσ h

/-- A division with remainder. -/
def IsDivision (σ : Asg) (a b : ℝ) (q r : Expr D) : Prop :=
  ∃ x y, den σ q = some x ∧ den σ r = some y ∧ a = x * b + y

theorem divideEmptyList_wp (hE : Sound E) (hσ : σ.Respects) {u v : Expr D} {a b : ℝ} (hu : den σ u = some a)
    (hv : den σ v = some b) :
    wp (Cond.holds σ) (divideEmptyList E u v) fun r => IsDivision σ a b r.1 r.2 := by
  unfold divideEmptyList
  refine wp_bind (captured (σ := σ) (v := a / b) (P := b ≠ 0) fun hb => div_vl hE hσ hu hv hb) fun q hq => ?_
  refine wp_bind wp_true fun n _ => ?_
  have other : IsDivision σ a b zero u := ⟨0, a, den_zero, hu, by simp⟩
  split
  · refine wp_ite (fun _ => ?_) fun _ => wp_pure other
    refine wp_bind (P := fun _ => ∀ c ∈ q.2, Cond.holds σ c) (wp_emit fun h => h) fun _ hc => ?_
    refine wp_bind (P := fun _ => b ≠ 0) (wp_log fun h => ?_) fun _ hb => wp_pure ?_
    · obtain ⟨w, hw, hne⟩ := h
      rw [hv] at hw
      exact Option.some.inj hw ▸ hne
    · exact ⟨a / b, 0, hq hc hb, den_zero, by simp [div_mul_cancel₀ a hb]⟩
  · exact wp_pure other

theorem pow_sym_val (hE : Sound E) (hσ : σ.Respects) {x : Expr D} (hx : x.isSymbol = true) {n : ℤ}
    (hn : 0 ≤ n) : wp (Cond.holds σ) (E.powCreate x (.int n)) fun r => ∃ w, den σ r = some w := by
  cases x with
  | sym s =>
    rcases hn.eq_or_lt with rfl | hn
    · exact wp_mono (hE.pow0 hσ (x := σ s) (by simp) (by simp [isZero, Expr.int, Expr.ratE, Number.eqv_iff])) fun r hr => ⟨1, hr⟩
    · have hdef : ∃ v, Spec.pow (σ s) n = some v := by
        refine ⟨_, Spec.pow_iff.2 ⟨?_, rfl⟩⟩
        rcases lt_trichotomy (σ s) 0 with h | h | h
        · exact .inr (.inr ⟨h, n, rfl⟩)
        · exact .inr (.inl ⟨h, by exact_mod_cast hn⟩)
        · exact .inl h
      obtain ⟨v, hv⟩ := hdef
      exact wp_mono (hE.pow hσ (x := σ s) (y := n) (by simp) (den_int n) hv) fun r hr => ⟨v, hr⟩
  | _ => simp [isSymbol] at hx

theorem divideNonEmpty_wp (hE : Sound E) (hσ : σ.Respects) {u v x : Expr D} {R : List (Expr D)} {a b : ℝ}
    (hu : den σ u = some a) (hv : den σ v = some b) :
    wp (Cond.holds σ) (divideNonEmpty E u v x R) fun r => IsDivision σ a b r.1 r.2 := by
  unfold divideNonEmpty
  refine wp_bind wp_true fun m _ => wp_bind wp_true fun n _ => wp_ite (fun _ => wp_err) fun hx => ?_
  have hx : x.isSymbol = true := by simpa using hx
  refine wp_loop (I := fun s : Expr D × Expr D × ℤ => IsDivision σ a b s.1 s.2.1) (fun s hs => ?_) _ _
    ⟨0, a, den_zero, hu, by simp⟩
  obtain ⟨p, q, hp, hq, he⟩ := id hs
  unfold divideStep
  have finish : wp (Cond.holds σ) (do
      let q ← E.expand s.1
      pure (.inr (q, s.2.1)) : M D ((Expr D × Expr D × ℤ) ⊕ (Expr D × Expr D))) fun r =>
        (∀ s', r = .inl s' → IsDivision σ a b s'.1 s'.2.1) ∧ ∀ x, r = .inr x → IsDivision σ a b x.1 x.2 := by
    refine wp_bind (hE.expand hσ hp) fun q' hq' => wp_pure ⟨by simp, fun x hx => ?_⟩
    cases hx
    exact ⟨p, q, hq', hq, he⟩
  refine wp_ite (fun _ => finish) fun hmn => wp_ite (fun _ => wp_err) fun _ => ?_
  refine wp_bind (leadingCoeff_val hE hσ hq) fun lr hlr => wp_bind (leadingCoeff_val hE hσ hv) fun lv hlv => ?_
  obtain ⟨c1, hc1⟩ := hlr
  obtain ⟨c2, hc2⟩ := hlv
  refine wp_bind (hE.divideL hσ hc1 hc2) fun d hd => wp_ite (fun _ => finish) fun hz => ?_
  have hz : d.2.isZero = true := by simpa using hz
  rcases hd with hd | ⟨d1, -, hd1, -⟩
  · rw [hd] at hz; simp [isZero] at hz
  refine wp_bind (pow_sym_val hE hσ hx (by omega)) fun t ht => ?_
  obtain ⟨w, hw⟩ := ht
  refine wp_bind (hE.prod hσ (denProd_two hd1 hw)) fun ct hct => ?_
  refine wp_bind (hE.sum hσ (denSum_two hp hct)) fun quo hquo => ?_
  refine wp_bind (hE.prod hσ (l := [mOne, d.1, v, t]) (v := -(d1 * b * w)) ?_) fun m hm => ?_
  · simp [denProd, hd1, hv, hw]; ring
  refine wp_bind (hE.sum hσ (denSum_two hq hm)) fun r hr => wp_bind (hE.expand hσ hr) fun rem hrem => ?_
  have hnew : IsDivision σ a b quo rem := ⟨_, _, hquo, hrem, by rw [he]; ring⟩
  refine wp_ite (fun _ => ?_) fun _ => ?_
  · refine wp_bind (hE.expand hσ hquo) fun q' hq' => wp_pure ⟨by simp, fun x hx => ?_⟩
    cases hx
    exact ⟨_, _, hq', hrem, by rw [he]; ring⟩
  · refine wp_bind wp_true fun k _ => wp_pure ⟨fun x hx => ?_, by simp⟩
    cases hx
    exact hnew

theorem divideL_vl (hE : Sound E) (hσ : σ.Respects) {u v : Expr D} {L : List (Expr D)} {a b : ℝ}
    (hu : den σ u = some a) (hv : den σ v = some b) :
    wp (Cond.holds σ) (divideL E u v L) fun r => r.2 = .undef ∨ IsDivision σ a b r.1 r.2 := by
  unfold divideL
  refine wp_bind wp_true fun ok _ => wp_ite (fun _ => wp_pure (.inl rfl)) fun _ => ?_
  split
  · exact wp_mono (divideEmptyList_wp hE hσ hu hv) fun r hr => .inr hr
  · refine wp_ite (fun he => wp_pure (.inr ?_)) fun _ => wp_ite (fun hz => wp_pure (.inr ?_)) fun _ => ?_
    · have := isEqual_den σ _ _ he
      rw [hu, hv] at this
      exact ⟨1, 0, den_one, den_zero, by simpa using (Option.some.inj this).symm⟩
    · rw [den_isZero hz] at hu
      exact ⟨0, 0, den_zero, den_zero, by simpa using (Option.some.inj hu).symm⟩
    · exact wp_mono (divideNonEmpty_wp hE hσ hu hv) fun r hr => .inr hr

theorem polyDivide_wp (hE : Sound E) (hσ : σ.Respects) {u v : Expr D} {a b : ℝ}
    (hu : den σ u = some a) (hv : den σ v = some b) :
    wp (Cond.holds σ) (polyDivide E u v) fun r => r.2 = .undef ∨ IsDivision σ a b r.1 r.2 := by
  unfold polyDivide
  exact wp_bind wp_true fun L _ => hE.divideL hσ hu hv

end Tsym
