import Verif.QLive

set_option autoImplicit false
set_option linter.unusedSectionVars false
set_option linter.unusedSimpArgs false
set_option linter.unusedVariables false

/-!
# Expansions of Puiseux polynomials: shape and domain
-/

namespace Tsym

open Expr

namespace Qf

open Zf (Pos)

variable {D : Type} [Flt D] [LawfulFlt D] {cfg : Cfg D} {σ τ : Asg}

theorem EP.good {e : Expr D} (h : EP cfg Sb e) : Expr.Good e := by
  rcases h.cases with rfl | ⟨m, h1, h2, h3, rfl⟩ | ⟨L, hL, h2, rfl⟩
  · exact good_ratE 0
  · exact mexpr_good h2.facs
  · exact (XB.of_el hL h2).zb.good

/-- A base with an exponent that is no integer is positive. -/
theorem QF.sym_ok {f : Expr D × ℚ} {s : Sym} (h : QF cfg f) (hs : f.1 = .sym s) : s.positive = true ∨ f.2.den = 1 := by
  rcases h.ok with h | h
  · exact .inr h
  · left
    rw [hs] at h
    have := h.1
    simp only [Tsym.isPos] at this
    exact Tot.unique (tot_pure _) this

theorem symRatPower {f : Expr D × ℚ} (h : QF cfg f) (hs : ∃ s, f.1 = .sym s) : SymRatPower (fac f) := by
  obtain ⟨s, hs⟩ := hs
  have := h.sym_ok hs
  unfold fac
  rw [hs]
  split
  · exact .sym s
  · exact .pow s _ h.ne (by assumption) this

theorem puiseuxMonomial {m : Mo D} (h : Can cfg m.2) (hs : Sb m.2) : PuiseuxMonomial (em m) := by
  have hf : ∀ e ∈ m.2.map fac, SymRatPower e := by
    intro e he
    obtain ⟨f, hf, rfl⟩ := List.mem_map.1 he
    exact symRatPower (h.facs f hf) (hs f hf)
  rcases mexpr_cases m.1 m.2 with ⟨_, e⟩ | ⟨f, hf', _, e⟩ | ⟨h0, h2, e⟩ <;> rw [em, e]
  · exact .num _
  · exact .power (hf _ (by rw [hf']; simp))
  · by_cases hq : m.1 = 1
    · rw [hq, rl_one] at h2 ⊢
      exact .prod h2 hf
    · rw [rl_ne hq]
      exact .scaled hq (by simpa using h0) hf

theorem puiseuxExpanded {L : List (Mo D)} (h : EL cfg Sb L) : PuiseuxExpanded (sumOf (L.map em)) := by
  match L, h with
  | [], _ => exact .mono (by rw [List.map_nil]; simp only [sumOf, zero_eq]; exact .num 0)
  | [m], h => exact .mono (puiseuxMonomial (h.sl.sm m (by simp)).can (h.sb m (by simp)))
  | m :: n :: L, h =>
    refine .sum (l := (m :: n :: L).map em) (by simp) ?_
    intro e he
    obtain ⟨k, hk, rfl⟩ := List.mem_map.1 he
    exact puiseuxMonomial (h.sl.sm k hk).can (h.sb k hk)

/-- The expansion of a Puiseux polynomial. -/
theorem _root_.Tsym.RootTree.Puiseux.expanded (hc : cfg.Ok) (hp : cfg.maxPrime < 324) (hσ : σ.Respects) {t : RootTree} (h : t.Puiseux) {x : ℝ}
    (hx : t.val σ = some x) : ∃ L : List (Mo D), EL cfg Sb L ∧ Tot cfg (fun E => t.expanded E) (sumOf (L.map em)) ∧
      ∀ σ' y, σ'.Respects → t.val σ' = some y → den σ' (sumOf (L.map em)) = some y := by
  obtain ⟨r, hr, tr⟩ := h.live (D := D) hc hp hσ hx
  obtain ⟨s, hs, L, hL, rfl⟩ := tr.xe hc
  exact ⟨L, hL, tot_bind hr (tot_expand hs), fun σ' y h' hy => Zf.tv_expand hc h' hs (RootTree.val_run hc h' hr hy)⟩


theorem _root_.Tsym.RootTree.PosMon.dom {t : RootTree} (h : t.PosMon) (g : Pos) : ∃ y, t.val g.asg = some y ∧ 0 < y := by
  induction h with
  | var s _ _ => exact ⟨_, rfl, (g s).2⟩
  | mul _ _ ih ih' =>
    obtain ⟨y, hy, h0⟩ := ih
    obtain ⟨z, hz, h1⟩ := ih'
    exact ⟨y * z, by simp [RootTree.val, hy, hz], mul_pos h0 h1⟩
  | div _ _ ih ih' =>
    obtain ⟨y, hy, h0⟩ := ih
    obtain ⟨z, hz, h1⟩ := ih'
    exact ⟨y / z, by simp [RootTree.val, hy, hz, h1.ne'], div_pos h0 h1⟩
  | pow _ k ih =>
    obtain ⟨y, hy, h0⟩ := ih
    exact ⟨y ^ (k : ℝ), by simp [RootTree.val, hy, Spec.pow_pos' h0], Real.rpow_pos_of_pos h0 _⟩

theorem pow_int_some {z : ℝ} {k : ℤ} (h : z ≠ 0 ∨ 0 < k) : Spec.pow z ((k : ℚ) : ℝ) = some (z ^ k) := by
  rw [Rat.cast_intCast]
  by_cases hz : z = 0
  · have hk : 0 < k := h.resolve_left (not_not.2 hz)
    obtain ⟨m, rfl⟩ := Int.eq_ofNat_of_zero_le hk.le
    have := Spec.pow_nat (x := z) (n := m) (by rintro rfl; simp at hk)
    simpa using this
  · exact Spec.pow_int k hz

theorem _root_.Tsym.RootTree.Mon.dom {t : RootTree} (h : t.Mon) :
    ∀ {x : ℝ}, t.val σ = some x → ∀ g : Pos, ∃ y, t.val g.asg = some y ∧ (x ≠ 0 → y ≠ 0) := by
  induction h with
  | rat q => intro x hx g; exact ⟨q, rfl, by cases hx; exact id⟩
  | var s _ => intro x hx g; exact ⟨_, rfl, fun _ => g.ne s⟩
  | pos h =>
    intro x hx g
    obtain ⟨y, hy, h0⟩ := h.dom g
    exact ⟨y, hy, fun _ => h0.ne'⟩
  | neg _ ih =>
    intro x hx g
    simp only [RootTree.val, Option.map_eq_some_iff] at hx
    obtain ⟨y, hy, rfl⟩ := hx
    obtain ⟨z, hz, h0⟩ := ih hy g
    exact ⟨-z, by simp [RootTree.val, hz], fun h => neg_ne_zero.2 (h0 (neg_ne_zero.1 h))⟩
  | mul _ _ ih ih' =>
    intro x hx g
    simp only [RootTree.val, Option.bind_eq_some_iff, Option.map_eq_some_iff] at hx
    obtain ⟨y, hy, y', hy', rfl⟩ := hx
    obtain ⟨z, hz, h0⟩ := ih hy g
    obtain ⟨z', hz', h0'⟩ := ih' hy' g
    exact ⟨z * z', by simp [RootTree.val, hz, hz'], fun h => mul_ne_zero (h0 (left_ne_zero_of_mul h)) (h0' (right_ne_zero_of_mul h))⟩
  | div _ _ ih ih' =>
    intro x hx g
    simp only [RootTree.val, Option.bind_eq_some_iff] at hx
    obtain ⟨y, hy, y', hy', h⟩ := hx
    split at h
    · cases h
    rename_i hne
    cases h
    obtain ⟨z, hz, h0⟩ := ih hy g
    obtain ⟨z', hz', h0'⟩ := ih' hy' g
    refine ⟨z / z', by simp [RootTree.val, hz, hz', h0' hne], fun h => div_ne_zero (h0 ?_) (h0' hne)⟩
    rintro rfl; simp at h
  | pow _ k _ ih =>
    intro x hx g
    simp only [RootTree.val, Option.bind_eq_some_iff] at hx
    obtain ⟨y, hy, h⟩ := hx
    obtain ⟨z, hz, h0⟩ := ih hy g
    have hne : y ≠ 0 ∨ 0 < k := by
      rcases (Spec.pow_some h).1 with h | ⟨_, h⟩ | ⟨h, _⟩
      · exact .inl h.ne'
      · exact .inr (by exact_mod_cast h)
      · exact .inl h.ne
    refine ⟨z ^ k, by simp only [RootTree.val, hz, Option.bind_some]; exact pow_int_some (hne.imp_left h0), fun hx0 => ?_⟩
    rw [pow_int_some hne] at h
    cases h
    by_cases hy0 : y = 0
    · rw [hy0, zero_zpow k (hne.resolve_left (not_not.2 hy0)).ne'] at hx0; exact absurd rfl hx0
    · exact zpow_ne_zero _ (h0 hy0)

/-- A Puiseux polynomial has a value wherever a certain other one is not zero. -/
theorem _root_.Tsym.RootTree.Puiseux.dom (hc : cfg.Ok) (hp : cfg.maxPrime < 324) (hσ : σ.Respects) {t : RootTree} (h : t.Puiseux) :
    ∀ {x : ℝ}, t.val σ = some x → ∃ d : Ls, d ≠ 0 ∧ ∀ g : Pos, ev g d ≠ 0 → ∃ y, t.val g.asg = some y := by
  induction h with
  | mon h => intro x hx; exact ⟨1, one_ne_zero, fun g _ => (h.dom hx g).imp fun _ h => h.1⟩
  | neg _ ih =>
    intro x hx
    obtain ⟨y, hy⟩ := val_neg hx
    obtain ⟨d, h0, hd⟩ := ih hy
    refine ⟨d, h0, fun g hg => ?_⟩
    obtain ⟨z, hz⟩ := hd g hg
    exact ⟨-z, by simp [RootTree.val, hz]⟩
  | add _ _ ih ih' =>
    intro x hx
    obtain ⟨⟨y, hy⟩, z, hz⟩ := val_add hx
    obtain ⟨d, h0, hd⟩ := ih hy
    obtain ⟨d', h0', hd'⟩ := ih' hz
    refine ⟨d * d', mul_ne_zero h0 h0', fun g hg => ?_⟩
    rw [map_mul] at hg
    obtain ⟨z, hz⟩ := hd g (left_ne_zero_of_mul hg)
    obtain ⟨z', hz'⟩ := hd' g (right_ne_zero_of_mul hg)
    exact ⟨z + z', by simp [RootTree.val, hz, hz']⟩
  | sub _ _ ih ih' =>
    intro x hx
    obtain ⟨⟨y, hy⟩, z, hz⟩ := val_sub hx
    obtain ⟨d, h0, hd⟩ := ih hy
    obtain ⟨d', h0', hd'⟩ := ih' hz
    refine ⟨d * d', mul_ne_zero h0 h0', fun g hg => ?_⟩
    rw [map_mul] at hg
    obtain ⟨z, hz⟩ := hd g (left_ne_zero_of_mul hg)
    obtain ⟨z', hz'⟩ := hd' g (right_ne_zero_of_mul hg)
    exact ⟨z - z', by simp [RootTree.val, hz, hz']⟩
  | mul _ _ ih ih' =>
    intro x hx
    obtain ⟨⟨y, hy⟩, z, hz⟩ := val_mul hx
    obtain ⟨d, h0, hd⟩ := ih hy
    obtain ⟨d', h0', hd'⟩ := ih' hz
    refine ⟨d * d', mul_ne_zero h0 h0', fun g hg => ?_⟩
    rw [map_mul] at hg
    obtain ⟨z, hz⟩ := hd g (left_ne_zero_of_mul hg)
    obtain ⟨z', hz'⟩ := hd' g (right_ne_zero_of_mul hg)
    exact ⟨z * z', by simp [RootTree.val, hz, hz']⟩
  | div _ h' ih =>
    intro x hx
    obtain ⟨⟨y, hy⟩, z, hz, hne⟩ := val_div hx
    obtain ⟨d, h0, hd⟩ := ih hy
    refine ⟨d, h0, fun g hg => ?_⟩
    obtain ⟨y', hy'⟩ := hd g hg
    obtain ⟨z', hz', hn'⟩ := h'.dom hz g
    exact ⟨y' / z', by simp [RootTree.val, hy', hz', hn' hne]⟩
  | pow ht k hk ih =>
    intro x hx
    obtain ⟨y, hy, hne⟩ := val_pow hx
    obtain ⟨d, h0, hd⟩ := ih hy
    by_cases hk : k = 0
    · have hy0 : y ≠ 0 := by rcases hne with h | h; exacts [h, absurd h (by simp [hk])]
      obtain ⟨L, hL, _, hv⟩ := ht.expanded hc hp hσ hy
      refine ⟨d * qv L, mul_ne_zero h0 ?_, fun g hg => ?_⟩
      · intro hq
        have e : (sumOf (L.map em) : Expr D) = sumOf (([] : List (Mo D)).map em) := hL.qv_inj EL.nil (by rw [hq]; simp [qv])
        have := hv σ y hσ hy
        rw [e] at this
        simp [sumOf] at this
        exact hy0 this.symm
      · rw [map_mul] at hg
        obtain ⟨z, hz⟩ := hd g (left_ne_zero_of_mul hg)
        have := hv g.asg z g.respects hz
        rw [den_qv g hL.sb] at this
        cases this
        exact ⟨1, by simp only [RootTree.val, hz, Option.bind_some, hk]; simpa using Spec.pow_zero (right_ne_zero_of_mul hg)⟩
    · refine ⟨d, h0, fun g hg => ?_⟩
      obtain ⟨z, hz⟩ := hd g hg
      exact ⟨z ^ k, by simp only [RootTree.val, hz, Option.bind_some]; simpa using Spec.pow_nat (x := z) hk⟩

end Qf
end Tsym
