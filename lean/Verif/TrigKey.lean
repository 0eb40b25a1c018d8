import Verif.TanTab
import Mathlib.Analysis.SpecialFunctions.Trigonometric.Bounds
import Mathlib.NumberTheory.Real.Irrational

set_option autoImplicit false
set_option linter.unusedSectionVars false
set_option linter.unusedSimpArgs false
set_option linter.unusedVariables false

/-!
# Helper lemmas: the angle of a value
-/

namespace Tsym

open Expr NumPowerSimpl NumTrigo

variable {D : Type} [Flt D] [LawfulFlt D] {cfg : Cfg D}

namespace NumTrigo

theorem keyOf_some {g : ℚ → ℝ} {tab : List (ℚ × Expr D)} {x : ℝ} {a : ℚ} {v : Expr D} (hm : (a, v) ∈ tab) (hv : v.isUndefined = false) (hx : x = g a)
    (hi : ∀ p ∈ tab, p.2.isUndefined = false → x = g p.1 → p.1 = a) : keyOf g tab x = some a := by
  unfold keyOf
  rw [Option.map_eq_some_iff]
  cases hf : tab.find? _ with
  | none =>
    rw [List.find?_eq_none] at hf
    have := hf _ hm
    simp only [decide_eq_true_eq] at this
    exact absurd ⟨hv, hx⟩ this
  | some p =>
    have h1 := List.find?_some hf
    have h2 := List.mem_of_find?_eq_some hf
    simp only [decide_eq_true_eq] at h1
    exact ⟨p, rfl, hi p h2 h1.1 h1.2⟩

theorem keyOf_none {g : ℚ → ℝ} {tab : List (ℚ × Expr D)} {x : ℝ} (hi : ∀ p ∈ tab, p.2.isUndefined = false → x ≠ g p.1) : keyOf g tab x = none := by
  unfold keyOf
  rw [Option.map_eq_none_iff, List.find?_eq_none]
  intro p hp
  simp only [decide_eq_true_eq]
  rintro ⟨h1, h2⟩
  exact hi p hp h1 h2

theorem look_mem {tab : List (ℚ × Expr D)} {a : ℚ} {v : Expr D} (h : look tab a = some v) : (a, v) ∈ tab := by
  unfold look at h
  rw [Option.map_eq_some_iff] at h
  obtain ⟨p, h1, h2⟩ := h
  have h3 := List.find?_some h1
  have h4 := List.mem_of_find?_eq_some h1
  simp only [decide_eq_true_eq] at h3
  rw [← h3, ← h2]; exact h4

end NumTrigo

/-- The angles of the tables. -/
theorem sinTab_mem {ε : ℚ} : ∀ p ∈ (sinTab ε : List (ℚ × Expr D)), 0 ≤ p.1 ∧ p.1 ≤ 1 / 2 ∧ look (sinTab ε) p.1 = some p.2 := by
  intro p hp
  simp only [sinTab, List.mem_cons, List.not_mem_nil, or_false] at hp
  unfold sinTab
  simp only [look_cons, look_nil]
  rcases hp with rfl | rfl | rfl | rfl | rfl | rfl | rfl | rfl | rfl <;> norm_num

theorem tanTab_mem {ε : ℚ} : ∀ p ∈ (tanTab ε : List (ℚ × Expr D)), 0 ≤ p.1 ∧ (p.1 < 1 / 2 ∨ p.1 = 1 / 2 ∧ p.2 = .undef) ∧ look (tanTab ε) p.1 = some p.2 := by
  intro p hp
  simp only [tanTab, List.mem_cons, List.not_mem_nil, or_false] at hp
  unfold tanTab
  simp only [look_cons, look_nil]
  rcases hp with rfl | rfl | rfl | rfl | rfl | rfl | rfl | rfl | rfl <;> norm_num

theorem piM_den (σ : Asg) (x : ℚ) : den σ (piM x : Expr D) = some (x * Real.pi) := by
  unfold piM
  split_ifs with a b
  · subst a; simp [zero_eq]
  · subst b; simp [den, Spec.cst]
  · simp [den, denProd, Spec.cst]

theorem sinOf_small {a : ℚ} (h0 : 0 ≤ a) (h1 : a ≤ 1 / 2) : (sinOf a : Option (Expr D)) = look (sinTab 1) a := by
  unfold sinOf
  have : NumTrigo.first a = a := by unfold NumTrigo.first; split_ifs <;> linarith
  rw [rem2_self h0 (by linarith), this, sg, if_pos (by linarith)]

/-- The values of the tables. -/
theorem sinTab_den {a : ℚ} {v : Expr D} (h : (a, v) ∈ (sinTab 1 : List (ℚ × Expr D))) (σ : Asg) (hσ : σ.Respects) : den σ v = some (Real.sin (a * Real.pi)) := by
  obtain ⟨h0, h1, h2⟩ := sinTab_mem _ h
  have := tot_sin_pi (Cfg.std_ok (D := D) 1000) (by norm_num [Cfg.std]) a
  rw [sinRes, sinOf_small h0 h1, h2, Option.getD_some] at this
  obtain ⟨N, hN⟩ := tot_trig this
  exact (sound_eng (Cfg.std_ok 1000) N).trig hσ (by simp) (piM_den σ a) rfl _ _ (hN N le_rfl) (by simp)

theorem cos_pos_of {a : ℚ} (h0 : 0 ≤ a) (h1 : a < 1 / 2) : 0 < Real.cos (a * Real.pi) := by
  have hp := Real.pi_pos
  have : (a : ℝ) < 1 / 2 := by have : (a : ℝ) < ((1 / 2 : ℚ) : ℝ) := by exact_mod_cast h1
                               push_cast at this; linarith
  have h0 : (0 : ℝ) ≤ a := by exact_mod_cast h0
  refine Real.cos_pos_of_mem_Ioo ⟨by nlinarith, by nlinarith⟩

theorem tanTab_den {a : ℚ} {v : Expr D} (h : (a, v) ∈ (tanTab 1 : List (ℚ × Expr D))) (ha : a < 1 / 2) (σ : Asg) (hσ : σ.Respects) :
    den σ v = some (Real.tan (a * Real.pi)) := by
  obtain ⟨h0, _, h2⟩ := tanTab_mem _ h
  have hc := Cfg.std_ok (D := D) 1000
  have h6 : 6 ≤ (Cfg.std 1000 : Cfg D).maxPrime := by norm_num [Cfg.std]
  have := tot_tan_pos hc h6 h0 (tot_simplTan_first hc h6 (q := a) (v := v) (by rw [rem2_self h0 (by linarith)]; exact h2))
  rw [Option.getD_some] at this
  obtain ⟨N, hN⟩ := tot_trig this
  have hp := cos_pos_of h0 ha
  exact (sound_eng hc N).trig hσ (by simp) (piM_den σ a) (by simp only [Spec.fn, Spec.tan]; exact if_pos hp.ne') _ _ (hN N le_rfl) (by simp)

theorem rad_le {a : ℚ} (h1 : a ≤ 1 / 2) : (a : ℝ) * Real.pi ≤ Real.pi / 2 := by
  have hp := Real.pi_pos
  have : (a : ℝ) ≤ ((1 / 2 : ℚ) : ℝ) := by exact_mod_cast h1
  push_cast at this
  nlinarith

theorem rad_lt {a : ℚ} (h1 : a < 1 / 2) : (a : ℝ) * Real.pi < Real.pi / 2 := by
  have hp := Real.pi_pos
  have : (a : ℝ) < ((1 / 2 : ℚ) : ℝ) := by exact_mod_cast h1
  push_cast at this
  nlinarith

theorem rad_nonneg {a : ℚ} (h0 : 0 ≤ a) : 0 ≤ (a : ℝ) * Real.pi := mul_nonneg (by exact_mod_cast h0) Real.pi_pos.le

theorem rad_inj {a b : ℚ} (h : (a : ℝ) * Real.pi = b * Real.pi) : a = b := by
  exact_mod_cast mul_right_cancel₀ Real.pi_ne_zero h

section
variable (hc : cfg.Ok) (h6 : 6 ≤ cfg.maxPrime)

theorem asg0 : ∃ σ : Asg, σ.Respects := ⟨fun _ => 1, fun _ _ => zero_le_one⟩

include h6 in
theorem sin_cv {a : ℚ} {v : Expr D} (h : (a, v) ∈ (sinTab 1 : List (ℚ × Expr D))) : CV cfg v (Real.sin (a * Real.pi)) := by
  obtain ⟨x, hx⟩ := sin_entries (cfg := cfg) h6 _ h
  obtain ⟨σ, hσ⟩ := asg0
  rwa [hx.conv (sinTab_den h σ hσ)] at hx

include hc h6 in
theorem tan_cv {a : ℚ} {v : Expr D} (h : (a, v) ∈ (tanTab 1 : List (ℚ × Expr D))) (ha : a < 1 / 2) : CV cfg v (Real.tan (a * Real.pi)) := by
  obtain ⟨x, hx⟩ := tan_entries hc h6 _ h ha.ne
  obtain ⟨σ, hσ⟩ := asg0
  rwa [hx.conv (tanTab_den h ha σ hσ)] at hx

theorem sin_tabOk : TabOk (fun a => Real.sin (a * Real.pi)) (sinTab 1 : List (ℚ × Expr D)) := fun p hp => by
  have := sin_cv (cfg := Cfg.std 1000) (by norm_num [Cfg.std]) (show (p.1, p.2) ∈ _ from hp)
  exact .inr ⟨this.undef, this.exact, this.ev⟩

theorem tan_tabOk : TabOk (fun a => Real.tan (a * Real.pi)) (tanTab 1 : List (ℚ × Expr D)) := fun p hp => by
  rcases (tanTab_mem p hp).2.1 with ha | ⟨_, h⟩
  · have := tan_cv (cfg := Cfg.std 1000) (Cfg.std_ok 1000) (by norm_num [Cfg.std]) (show (p.1, p.2) ∈ _ from hp) ha
    exact .inr ⟨this.undef, this.exact, this.ev⟩
  · exact .inl h

theorem sin_key {a : ℚ} {v : Expr D} (h : (a, v) ∈ (sinTab 1 : List (ℚ × Expr D))) :
    keyOf (fun a => Real.sin (a * Real.pi)) (sinTab 1 : List (ℚ × Expr D)) (Real.sin (a * Real.pi)) = some a := by
  obtain ⟨h0, h1, h2⟩ := sinTab_mem _ h
  refine keyOf_some h (sin_cv (cfg := Cfg.std 1000) (by norm_num [Cfg.std]) h).undef rfl fun p hp _ he => ?_
  obtain ⟨k0, k1, _⟩ := sinTab_mem _ hp
  refine (rad_inj (Real.injOn_sin ⟨?_, rad_le h1⟩ ⟨?_, rad_le k1⟩ he)).symm
  · linarith [rad_nonneg h0, Real.pi_pos]
  · linarith [rad_nonneg k0, Real.pi_pos]

theorem tan_key {a : ℚ} {v : Expr D} (h : (a, v) ∈ (tanTab 1 : List (ℚ × Expr D))) (ha : a < 1 / 2) :
    keyOf (fun a => Real.tan (a * Real.pi)) (tanTab 1 : List (ℚ × Expr D)) (Real.tan (a * Real.pi)) = some a := by
  obtain ⟨h0, h1, h2⟩ := tanTab_mem _ h
  refine keyOf_some h (tan_cv (cfg := Cfg.std 1000) (Cfg.std_ok 1000) (by norm_num [Cfg.std]) h ha).undef rfl fun p hp hu he => ?_
  obtain ⟨k0, k1, _⟩ := tanTab_mem _ hp
  have k1 : p.1 < 1 / 2 := by
    rcases k1 with k | ⟨_, k⟩
    · exact k
    · rw [k] at hu; cases hu
  refine (rad_inj (Real.injOn_tan ⟨?_, rad_lt ha⟩ ⟨?_, rad_lt k1⟩ he)).symm
  · linarith [rad_nonneg h0, Real.pi_pos]
  · linarith [rad_nonneg k0, Real.pi_pos]

/-- A rational value of the sine. -/
theorem sin_key_none {r : ℚ} (h0 : 0 ≤ r) (h : r ≠ 0 ∧ r ≠ 1 / 2 ∧ r ≠ 1) :
    keyOf (fun a => Real.sin (a * Real.pi)) (sinTab 1 : List (ℚ × Expr D)) r = none := by
  refine keyOf_none fun p hp _ he => ?_
  have := niven_sin ⟨p.1, rfl⟩ ⟨r, he.symm⟩
  rw [← he] at this
  simp only [Set.mem_insert_iff, Set.mem_singleton_iff] at this
  have h0' : (0 : ℝ) ≤ r := by exact_mod_cast h0
  rcases this with c | c | c | c | c
  · linarith
  · linarith
  · exact h.1 (by exact_mod_cast c)
  · refine h.2.1 ?_
    have : (r : ℝ) = ((1 / 2 : ℚ) : ℝ) := by rw [c]; push_cast; ring
    exact_mod_cast this
  · exact h.2.2 (by exact_mod_cast c)

theorem irr3 (r : ℚ) : (r : ℝ) ^ 2 ≠ 3 := by
  intro h
  have := Nat.Prime.irrational_sqrt Nat.prime_three
  refine this ⟨|r|, ?_⟩
  push_cast
  rw [← h, Real.sqrt_sq_eq_abs]

/-- A rational value of the tangent. -/
theorem niven_tan {a r : ℚ} (hcos : Real.cos (a * Real.pi) ≠ 0) (h : (r : ℝ) = Real.tan (a * Real.pi)) : r = 0 ∨ r = 1 ∨ r = -1 := by
  have h1 : Real.cos (2 * (a * Real.pi)) = (1 - (r : ℝ) ^ 2) / (1 + (r : ℝ) ^ 2) := by
    have e := Real.inv_one_add_tan_sq hcos
    rw [Real.cos_two_mul, ← e, ← h]
    have : (1 + (r : ℝ) ^ 2) ≠ 0 := by positivity
    field_simp; ring
  have h2 := niven (θ := 2 * (a * Real.pi)) ⟨2 * a, by push_cast; ring⟩ ⟨(1 - r ^ 2) / (1 + r ^ 2), by rw [h1]; push_cast; ring⟩
  rw [h1] at h2
  simp only [Set.mem_insert_iff, Set.mem_singleton_iff] at h2
  have : (1 + (r : ℝ) ^ 2) ≠ 0 := by positivity
  rcases h2 with c | c | c | c | c <;> rw [div_eq_iff this] at c
  · exfalso; linarith
  · exact absurd (by linarith) (irr3 r)
  · right
    have : (r : ℝ) ^ 2 = 1 := by linarith
    rcases (sq_eq_one_iff.1 this) with c | c
    · left; exact_mod_cast c
    · right; exact_mod_cast c
  · exfalso
    refine irr3 (3 * r) ?_
    push_cast; linarith
  · left
    have : (r : ℝ) ^ 2 = 0 := by linarith
    exact_mod_cast pow_eq_zero_iff (two_ne_zero) |>.1 this

theorem tan_key_none {r : ℚ} (h0 : 0 ≤ r) (h : r ≠ 0 ∧ r ≠ 1) :
    keyOf (fun a => Real.tan (a * Real.pi)) (tanTab 1 : List (ℚ × Expr D)) r = none := by
  refine keyOf_none fun p hp hu he => ?_
  obtain ⟨k0, k1, _⟩ := tanTab_mem _ hp
  have k1 : p.1 < 1 / 2 := by
    rcases k1 with k | ⟨_, k⟩
    · exact k
    · rw [k] at hu; cases hu
  rcases niven_tan (cos_pos_of k0 k1).ne' he with c | c | c
  · exact h.1 c
  · exact h.2 c
  · linarith

include hc h6 in
theorem sin_nv {a : ℚ} {v w : Expr D} (hv : (a, v) ∈ (sinTab 1 : List (ℚ × Expr D))) (hw : (a, w) ∈ (sinTab (-1) : List (ℚ × Expr D))) (h : a ≠ 0) :
    NV cfg v w (Real.sin (a * Real.pi)) := by
  obtain ⟨h0, h1, h2⟩ := sinTab_mem _ hv
  have pos : 0 < a := lt_of_le_of_ne h0 h.symm
  refine Neg1.nv hc (sin_cv h6 hv) (sin_neg_entries h6 _ hw h) ?_ (fun σ hσ => sinTab_den hv σ hσ) (minus_of_plus hc h6 h2 (sinTab_mem _ hw).2.2)
  refine Real.sin_pos_of_pos_of_lt_pi (mul_pos (by exact_mod_cast pos) Real.pi_pos) ?_
  linarith [rad_le h1, Real.pi_pos]

include hc h6 in
theorem tan_minus {a : ℚ} {v w : Expr D} (hv : look (tanTab 1) a = some v) (hw : look (tanTab (-1)) a = some w) :
    Tot cfg (fun E => prodCreate E [num (.rat (-1)), v]) w ∧ Tot cfg (fun E => prodCreate E [num (.rat (-1)), w]) v := by
  constructor
  · rcases tot_tan_sgn (D := D) hc h6 (q := a) (δ := -1) (ε := 1) (.inr rfl) (.inl rfl) with ⟨h1, _⟩ | ⟨x, y, h1, h2, h3⟩
    · rw [hv] at h1; cases h1
    · rw [mul_one] at h2
      rw [hv] at h1; rw [hw] at h2; cases h1; cases h2; exact h3
  · rcases tot_tan_sgn (D := D) hc h6 (q := a) (δ := -1) (ε := -1) (.inr rfl) (.inr rfl) with ⟨h1, _⟩ | ⟨x, y, h1, h2, h3⟩
    · rw [hw] at h1; cases h1
    · rw [show (-1 : ℚ) * -1 = 1 by norm_num] at h2
      rw [hw] at h1; rw [hv] at h2; cases h1; cases h2; exact h3

include hc h6 in
theorem tan_nv {a : ℚ} {v w : Expr D} (hv : (a, v) ∈ (tanTab 1 : List (ℚ × Expr D))) (hw : (a, w) ∈ (tanTab (-1) : List (ℚ × Expr D))) (h : a ≠ 0)
    (ha : a < 1 / 2) : NV cfg v w (Real.tan (a * Real.pi)) := by
  obtain ⟨h0, h1, h2⟩ := tanTab_mem _ hv
  have pos : 0 < a := lt_of_le_of_ne h0 h.symm
  refine Neg1.nv hc (tan_cv hc h6 hv ha) (tan_neg_entries hc h6 _ hw h ha.ne) ?_ (fun σ hσ => tanTab_den hv ha σ hσ) (tan_minus hc h6 h2 (tanTab_mem _ hw).2.2)
  exact Real.tan_pos_of_pos_of_lt_pi_div_two (mul_pos (by exact_mod_cast pos) Real.pi_pos) (rad_lt ha)

end

end Tsym
