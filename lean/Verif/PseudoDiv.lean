import Verif.SoundNormal

set_option autoImplicit false
set_option linter.unusedSectionVars false

/-!
# Pseudo-division keeps the value (src/poly.cpp)
-/

namespace Tsym

open Expr

variable {D : Type} [Flt D] [LawfulFlt D] {E : Eng D} {σ : Asg}

/-- The state after `k` rounds of the pseudo-division of `a` by `b`, where `l` is the leading coefficient:
`p` is the value of the quotient if it is computed. -/
def IsPseudo (σ : Asg) (l a b : ℝ) (quo : Bool) (k : ℤ) (q r : Expr D) : Prop :=
  ∃ p x, (quo = true → den σ q = some p) ∧ den σ r = some x ∧ l ^ k * a = p * b + x

theorem pseudoDivideStep_wp (hE : Sound E) (hσ : σ.Respects) {v x lv : Expr D} {n : ℤ} {quo : Bool} {a b l : ℝ}
    (hx : x.isSymbol = true) (hv : den σ v = some b) (hl : den σ lv = some l) (h0 : l ≠ 0)
    (s : Expr D × Expr D × ℤ × ℤ) (hs : IsPseudo σ l a b quo s.2.2.2 s.1 s.2.1) :
    wp (Cond.holds σ) (pseudoDivideStep E v x lv n quo s) fun r =>
      (∀ t, r = .inl t → IsPseudo σ l a b quo t.2.2.2 t.1 t.2.1) ∧
      ∀ t, r = .inr t → IsPseudo σ l a b quo t.2.2 t.1 t.2.1 ∨
        (den σ t.2.1 = some 0 ∧ IsPseudo σ l a b quo (t.2.2 + 1) t.1 t.2.1) := by
  unfold pseudoDivideStep
  refine wp_ite (fun _ => wp_pure ⟨by simp, fun t ht => ?_⟩) fun hmn => ?_
  · cases ht; exact .inl hs
  obtain ⟨p, q, hp, hq, he⟩ := hs
  refine wp_bind (hE.coeff hσ hq) fun lr ⟨c, hc⟩ => ?_
  refine wp_bind (pow_sym_val hE hσ hx (by omega)) fun t ⟨w, hw⟩ => ?_
  refine wp_bind (hE.prod hσ (denProd_two hc hw)) fun tmp htmp => ?_
  refine wp_bind (P := fun q' => quo = true → den σ q' = some (l * p + c * w)) ?_ fun q' hq' => ?_
  · refine wp_ite (fun h => ?_) fun h => wp_pure fun h' => absurd h' h
    refine wp_bind (hE.prod hσ (denProd_two hl (hp h))) fun y hy => ?_
    exact wp_mono (hE.sum hσ (denSum_two hy htmp)) fun r hr _ => hr
  refine wp_bind (hE.prod hσ (denProd_two hl hq)) fun y hy => ?_
  refine wp_bind (hE.prod hσ (l := [mOne, v, tmp]) (denProd_three den_mOne hv htmp)) fun z hz => ?_
  refine wp_bind (hE.sum hσ (denSum_two hy hz)) fun u hu => wp_bind (hE.expand hσ hu) fun rem hrem => ?_
  have hnew : IsPseudo σ l a b quo (s.2.2.2 + 1) q' rem :=
    ⟨_, _, hq', hrem, by rw [zpow_add_one₀ h0, mul_right_comm, he]; ring⟩
  refine wp_ite (fun hz => wp_pure ⟨by simp, fun t ht => ?_⟩) fun _ => ?_
  · cases ht; exact .inr ⟨den_isZero hz, hnew⟩
  · refine wp_bind wp_true fun k _ => wp_pure ⟨fun t ht => ?_, by simp⟩
    cases ht
    exact hnew

/-- The value of an integer power, where zero is not in the way. -/
theorem pow_int_vl (hE : Sound E) (hσ : σ.Respects) {e : Expr D} {l : ℝ} (h : den σ e = some l) (h0 : l ≠ 0)
    (n : ℤ) : Vl σ (E.powCreate e (.int n)) (l ^ n) :=
  hE.pow hσ h (den_int n) (Spec.pow_int n h0)

theorem pseudoDivideChecked_wp (hE : Sound E) (hσ : σ.Respects) {u v x : Expr D} {quo : Bool} {a b : ℝ}
    (hx : x.isSymbol = true) (hu : den σ u = some a) (hv : den σ v = some b) {du dv : ℤ}
    (hdu : degree x u = .ok du) (hdv : degree x v = .ok dv) :
    wp (Cond.holds σ) (do
      let lv ← leadingCoeff E x v
      let r ← pseudoDivideChecked E u v x quo
      pure (lv, r)) fun r => ∀ l, den σ r.1 = some l → l ≠ 0 →
        IsPseudo σ l a b quo (max (du - dv + 1) 0) r.2.1 r.2.2 ∨
        (den σ r.2.2 = some 0 ∧ IsPseudo σ l a b quo (max (du - dv + 1) 0 + 1) r.2.1 r.2.2) := by
  intro r cs hr hc
  obtain ⟨lv, c1, c2, h1, h2, rfl⟩ := M.bind_ok.1 hr
  obtain ⟨r', c3, c4, h3, h4, rfl⟩ := M.bind_ok.1 h2
  cases h4
  intro l hl h0
  refine (?_ : wp (Cond.holds σ) (pseudoDivideChecked E u v x quo) fun r =>
    IsPseudo σ l a b quo (max (du - dv + 1) 0) r.1 r.2 ∨
        (den σ r.2 = some 0 ∧ IsPseudo σ l a b quo (max (du - dv + 1) 0 + 1) r.1 r.2)) r' c3 h3
    fun c h => hc c (by simp [h])
  unfold pseudoDivideChecked
  refine wp_bind (P := fun e => e = lv) (fun e ds he _ => by rw [h1] at he; cases he; rfl) fun e he => ?_
  subst he
  refine wp_bind (wp_lift (Q := fun n => n = dv) fun n hn => by rw [hdv] at hn; cases hn; rfl) fun n hn => ?_
  subst hn
  refine wp_bind (hE.expand hσ hu) fun ue hue => ?_
  refine wp_bind (wp_lift (Q := fun n => n = du) fun n hn => by rw [hdu] at hn; cases hn; rfl) fun m hm => ?_
  subst hm
  refine wp_bind wp_true fun ve _ => wp_ite (fun _ => wp_err) fun _ => ?_
  refine wp_bind (wp_loop (I := fun s : Expr D × Expr D × ℤ × ℤ => IsPseudo σ l a b quo s.2.2.2 s.1 s.2.1)
    (fun s hs => pseudoDivideStep_wp hE hσ hx hv hl h0 s hs) _ _ ⟨0, a, fun _ => den_zero, hue, by simp⟩) fun t ht => ?_
  refine wp_bind (pow_int_vl hE hσ hl h0 _) fun tmp htmp => ?_
  have key : ∀ k : ℤ, ∀ p y, l ^ (t.2.2 + k) * a = p * b + y →
      l ^ (max (m - n + 1) 0 + k) * a = l ^ (max (m - n + 1) 0 - t.2.2) * p * b +
        l ^ (max (m - n + 1) 0 - t.2.2) * y := by
    intro k p y h
    rw [mul_assoc, ← mul_add, ← h, ← mul_assoc, ← zpow_add₀ h0]
    congr 2
    ring
  obtain ⟨p, y, hp, hy, k, hk, hk'⟩ : ∃ p y, (quo = true → den σ t.1 = some p) ∧ den σ t.2.1 = some y ∧ ∃ k : ℤ,
      (k = 0 ∨ k = 1 ∧ y = 0) ∧ l ^ (t.2.2 + k) * a = p * b + y := by
    rcases ht with ⟨p, y, hp, hy, h⟩ | ⟨hz, p, y, hp, hy, h⟩
    · exact ⟨p, y, hp, hy, 0, .inl rfl, by simpa using h⟩
    · exact ⟨p, y, hp, hy, 1, .inr ⟨rfl, Option.some.inj (hy.symm.trans hz)⟩, h⟩
  refine wp_bind (hE.prod hσ (denProd_two htmp hy)) fun z hz => wp_bind (hE.expand hσ hz) fun rem hrem => ?_
  refine wp_bind (P := fun q' => quo = true → den σ q' = some (l ^ (max (m - n + 1) 0 - t.2.2) * p)) ?_ fun q' hq' => ?_
  · refine wp_ite (fun h => ?_) fun h => wp_pure fun h' => absurd h' h
    refine wp_bind (hE.prod hσ (denProd_two htmp (hp h))) fun y hy => ?_
    exact wp_mono (hE.expand hσ hy) fun r hr _ => hr
  refine wp_pure ?_
  rcases hk with rfl | ⟨rfl, rfl⟩
  · exact .inl ⟨_, _, hq', hrem, by simpa using key 0 p y hk'⟩
  · exact .inr ⟨by simpa using hrem, _, _, hq', hrem, key 1 p 0 hk'⟩

end Tsym
