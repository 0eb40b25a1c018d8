import Verif.Props.RationalLive
import Verif.ZEval

set_option autoImplicit false
set_option linter.unusedSectionVars false
set_option linter.unusedSimpArgs false
set_option linter.unusedVariables false

/-!
# C60: the expansion decides identities of Laurent polynomials
-/

namespace Tsym

open Expr

/-! ## Specification -/

/-- The calls of the library: the operations of the tree, then the expansion. -/
def RTree.expanded {D : Type} [Flt D] (t : RTree) (E : Eng D) : M D (Expr D) := do
  let e ← t.run E
  Api.expand E e

/-- A symbol, or a power of a symbol with an integer exponent other than zero and one. -/
inductive SymIntPower {D : Type} [Flt D] : Expr D → Prop
  | sym (s : Sym) : SymIntPower (.sym s)
  | pow (s : Sym) (k : ℤ) : k ≠ 0 → k ≠ 1 → SymIntPower (.pow (.sym s) (.int k))

/-- A number, a power of a symbol, or a product of such: at most one number, different from one, in front. -/
inductive LaurentMonomial {D : Type} [Flt D] : Expr D → Prop
  | num (q : ℚ) : LaurentMonomial (.num (.rat q))
  | power {e : Expr D} : SymIntPower e → LaurentMonomial e
  | prod {l : List (Expr D)} : 2 ≤ l.length → (∀ e ∈ l, SymIntPower e) → LaurentMonomial (.prod l)
  | scaled {q : ℚ} {l : List (Expr D)} : q ≠ 1 → l ≠ [] → (∀ e ∈ l, SymIntPower e) → LaurentMonomial (.prod (.num (.rat q) :: l))

/-- A monomial or a sum of at least two. -/
inductive LaurentExpanded {D : Type} [Flt D] : Expr D → Prop
  | mono {e : Expr D} : LaurentMonomial e → LaurentExpanded e
  | sum {l : List (Expr D)} : 2 ≤ l.length → (∀ e ∈ l, LaurentMonomial e) → LaurentExpanded (.sum l)

/-! ## Proofs -/

section

open Zf

variable {D : Type} [Flt D] [LawfulFlt D] {cfg : Cfg D} {σ τ : Asg}

open Lean.Order in
theorem RTree.expanded_mono (t : RTree) : monotone fun E : Eng D => t.expanded E := by
  simp only [RTree.expanded, Api.expand]
  refine monotone_bind (m := M D) _ _ t.run_mono (monotone_of_monotone_apply _ fun a => ?_)
  repeat' monotonicity

theorem Zf.EP.good {e : Expr D} (h : Zf.EP cfg Sb e) : Expr.Good e := by
  rcases h.cases with rfl | ⟨m, h1, h2, h3, rfl⟩ | ⟨L, hL, h2, rfl⟩
  · exact good_ratE 0
  · exact mexpr_good h2.facs
  · exact (XB.of_el hL h2).zb.good

theorem symIntPower {f : Expr D × ℤ} (h : ZF cfg f) (hs : ∃ s, f.1 = .sym s) : SymIntPower (Zf.fac f) := by
  obtain ⟨s, hs⟩ := hs
  unfold Zf.fac
  rw [hs]
  split
  · exact .sym s
  · exact .pow s _ h.ne (by assumption)

theorem laurentMonomial {m : Mo D} (h : Zf.Can cfg m.2) (hs : Sb m.2) : LaurentMonomial (Zf.em m) := by
  have hf : ∀ e ∈ m.2.map Zf.fac, SymIntPower e := by
    intro e he
    obtain ⟨f, hf, rfl⟩ := List.mem_map.1 he
    exact symIntPower (h.facs f hf) (hs f hf)
  rcases Zf.mexpr_cases m.1 m.2 with ⟨_, e⟩ | ⟨f, hf', _, e⟩ | ⟨h0, h2, e⟩ <;> rw [Zf.em, e]
  · exact .num _
  · exact .power (hf _ (by rw [hf']; simp))
  · by_cases hq : m.1 = 1
    · rw [hq, Zf.rl_one] at h2 ⊢
      exact .prod h2 hf
    · rw [Zf.rl_ne hq]
      exact .scaled hq (by simpa using h0) hf

theorem laurentExpanded {L : List (Mo D)} (h : Zf.EL cfg Sb L) : LaurentExpanded (sumOf (L.map Zf.em)) := by
  match L, h with
  | [], _ => exact .mono (by rw [List.map_nil]; simp only [sumOf, zero_eq]; exact .num 0)
  | [m], h => exact .mono (laurentMonomial (h.sl.sm m (by simp)).can (h.sb m (by simp)))
  | m :: n :: L, h =>
    refine .sum (l := (m :: n :: L).map Zf.em) (by simp) ?_
    intro e he
    obtain ⟨k, hk, rfl⟩ := List.mem_map.1 he
    exact laurentMonomial (h.sl.sm k hk).can (h.sb k hk)

/-- The expansion of a Laurent polynomial. -/
theorem RTree.Laurent.expanded (hc : cfg.Ok) (hp : cfg.maxPrime < 324) (hσ : σ.Respects) {t : RTree} (h : t.Laurent) {x : ℝ}
    (hx : t.val σ = some x) : ∃ L : List (Mo D), Zf.EL cfg Sb L ∧ Tot cfg (fun E => t.expanded E) (sumOf (L.map Zf.em)) ∧
      ∀ σ' y, σ'.Respects → t.val σ' = some y → den σ' (sumOf (L.map Zf.em)) = some y := by
  obtain ⟨r, hr, tr⟩ := h.live (D := D) hc hp hσ hx
  obtain ⟨s, hs, L, hL, rfl⟩ := tr.xe hc
  exact ⟨L, hL, tot_bind hr (tot_expand hs), fun σ' y h' hy => tv_expand hc h' hs (RTree.val_run hc h' hr hy)⟩

theorem RTree.Mon.dom {t : RTree} (h : t.Mon) : ∀ {x : ℝ}, t.val σ = some x → ∀ g : Pos, ∃ y, t.val g.asg = some y ∧ (x ≠ 0 → y ≠ 0) := by
  induction h with
  | rat q => intro x hx g; exact ⟨q, rfl, by cases hx; exact id⟩
  | var s _ => intro x hx g; exact ⟨_, rfl, fun _ => g.ne s⟩
  | neg _ ih =>
    intro x hx g
    simp only [RTree.val, Option.map_eq_some_iff] at hx
    obtain ⟨y, hy, rfl⟩ := hx
    obtain ⟨z, hz, h0⟩ := ih hy g
    exact ⟨-z, by simp [RTree.val, hz], fun h => neg_ne_zero.2 (h0 (neg_ne_zero.1 h))⟩
  | mul _ _ ih ih' =>
    intro x hx g
    simp only [RTree.val, Option.bind_eq_some_iff, Option.map_eq_some_iff] at hx
    obtain ⟨y, hy, y', hy', rfl⟩ := hx
    obtain ⟨z, hz, h0⟩ := ih hy g
    obtain ⟨z', hz', h0'⟩ := ih' hy' g
    exact ⟨z * z', by simp [RTree.val, hz, hz'], fun h => mul_ne_zero (h0 (left_ne_zero_of_mul h)) (h0' (right_ne_zero_of_mul h))⟩
  | div _ _ ih ih' =>
    intro x hx g
    simp only [RTree.val, Option.bind_eq_some_iff] at hx
    obtain ⟨y, hy, y', hy', h⟩ := hx
    split at h
    · cases h
    rename_i hne
    cases h
    obtain ⟨z, hz, h0⟩ := ih hy g
    obtain ⟨z', hz', h0'⟩ := ih' hy' g
    refine ⟨z / z', by simp [RTree.val, hz, hz', h0' hne], fun h => div_ne_zero (h0 ?_) (h0' hne)⟩
    rintro rfl; simp at h
  | pow _ k _ ih =>
    intro x hx g
    simp only [RTree.val, Option.bind_eq_some_iff] at hx
    obtain ⟨y, hy, h⟩ := hx
    split at h
    · cases h
    rename_i hne
    cases h
    obtain ⟨z, hz, h0⟩ := ih hy g
    by_cases hk : k ≤ 0
    · have hy0 : y ≠ 0 := fun h => hne ⟨h, hk⟩
      exact ⟨z ^ k, by simp [RTree.val, hz, h0 hy0], fun _ => zpow_ne_zero _ (h0 hy0)⟩
    · refine ⟨z ^ k, by simp [RTree.val, hz, hk], fun h => zpow_ne_zero _ (h0 ?_)⟩
      rintro rfl
      exact h (zero_zpow k (by omega))

/-- A Laurent polynomial has a value wherever a certain other one is not zero. -/
theorem RTree.Laurent.dom (hc : cfg.Ok) (hp : cfg.maxPrime < 324) (hσ : σ.Respects) {t : RTree} (h : t.Laurent) :
    ∀ {x : ℝ}, t.val σ = some x → ∃ d : Ls, d ≠ 0 ∧ ∀ g : Pos, ev g d ≠ 0 → ∃ y, t.val g.asg = some y := by
  induction h with
  | mon h => intro x hx; exact ⟨1, one_ne_zero, fun g _ => (h.dom hx g).imp fun _ h => h.1⟩
  | neg _ ih =>
    intro x hx
    obtain ⟨y, hy⟩ := val_neg hx
    obtain ⟨d, h0, hd⟩ := ih hy
    refine ⟨d, h0, fun g hg => ?_⟩
    obtain ⟨z, hz⟩ := hd g hg
    exact ⟨-z, by simp [RTree.val, hz]⟩
  | add _ _ ih ih' =>
    intro x hx
    obtain ⟨⟨y, hy⟩, z, hz⟩ := val_add hx
    obtain ⟨d, h0, hd⟩ := ih hy
    obtain ⟨d', h0', hd'⟩ := ih' hz
    refine ⟨d * d', mul_ne_zero h0 h0', fun g hg => ?_⟩
    rw [map_mul] at hg
    obtain ⟨z, hz⟩ := hd g (left_ne_zero_of_mul hg)
    obtain ⟨z', hz'⟩ := hd' g (right_ne_zero_of_mul hg)
    exact ⟨z + z', by simp [RTree.val, hz, hz']⟩
  | sub _ _ ih ih' =>
    intro x hx
    obtain ⟨⟨y, hy⟩, z, hz⟩ := val_sub hx
    obtain ⟨d, h0, hd⟩ := ih hy
    obtain ⟨d', h0', hd'⟩ := ih' hz
    refine ⟨d * d', mul_ne_zero h0 h0', fun g hg => ?_⟩
    rw [map_mul] at hg
    obtain ⟨z, hz⟩ := hd g (left_ne_zero_of_mul hg)
    obtain ⟨z', hz'⟩ := hd' g (right_ne_zero_of_mul hg)
    exact ⟨z - z', by simp [RTree.val, hz, hz']⟩
  | mul _ _ ih ih' =>
    intro x hx
    obtain ⟨⟨y, hy⟩, z, hz⟩ := val_mul hx
    obtain ⟨d, h0, hd⟩ := ih hy
    obtain ⟨d', h0', hd'⟩ := ih' hz
    refine ⟨d * d', mul_ne_zero h0 h0', fun g hg => ?_⟩
    rw [map_mul] at hg
    obtain ⟨z, hz⟩ := hd g (left_ne_zero_of_mul hg)
    obtain ⟨z', hz'⟩ := hd' g (right_ne_zero_of_mul hg)
    exact ⟨z * z', by simp [RTree.val, hz, hz']⟩
  | div _ h' ih =>
    intro x hx
    obtain ⟨⟨y, hy⟩, z, hz, hne⟩ := val_div hx
    obtain ⟨d, h0, hd⟩ := ih hy
    refine ⟨d, h0, fun g hg => ?_⟩
    obtain ⟨y', hy'⟩ := hd g hg
    obtain ⟨z', hz', hn'⟩ := h'.dom hz g
    exact ⟨y' / z', by simp [RTree.val, hy', hz', hn' hne]⟩
  | pow ht k hk hk0 ih =>
    intro x hx
    obtain ⟨y, hy, hne⟩ := val_pow hx
    obtain ⟨d, h0, hd⟩ := ih hy
    by_cases hk : k = 0
    · have hy0 : y ≠ 0 := by rcases hne with h | h; exacts [h, by omega]
      obtain ⟨L, hL, _, hv⟩ := ht.expanded hc hp hσ hy
      refine ⟨d * qv L, mul_ne_zero h0 ?_, fun g hg => ?_⟩
      · intro hq
        have e : (sumOf (L.map Zf.em) : Expr D) = sumOf (([] : List (Mo D)).map Zf.em) := hL.qv_inj Zf.EL.nil (by rw [hq]; simp [qv])
        have := hv σ y hσ hy
        rw [e] at this
        simp [sumOf] at this
        exact hy0 this.symm
      · rw [map_mul] at hg
        obtain ⟨z, hz⟩ := hd g (left_ne_zero_of_mul hg)
        have := hv g.asg z g.respects hz
        rw [den_qv g hL.sb] at this
        cases this
        exact ⟨1, by simp [RTree.val, hz, hk, right_ne_zero_of_mul hg]⟩
    · refine ⟨d, h0, fun g hg => ?_⟩
      obtain ⟨z, hz⟩ := hd g hg
      exact ⟨z ^ k, by simp [RTree.val, hz, show ¬ k ≤ 0 by omega]⟩

/-! ## C60 -/

/-- C60. The expansion of a Laurent polynomial that has a value somewhere is returned, without conditions; it
is a sum of monomials, and has the value of the Laurent polynomial wherever this has one. -/
theorem C60_expanded (hc : cfg.Ok) (hp : cfg.maxPrime < 324) (hσ : σ.Respects) (t : RTree) (ht : t.Laurent) {x : ℝ}
    (hx : t.val σ = some x) :
    ∃ r : Expr D, Gives cfg (fun E => t.expanded E) r ∧ LaurentExpanded r ∧
      ∀ σ' y, σ'.Respects → t.val σ' = some y → den σ' r = some y := by
  obtain ⟨L, hL, hT, hv⟩ := ht.expanded (D := D) hc hp hσ hx
  exact ⟨_, hT.gives t.expanded_mono, laurentExpanded hL, hv⟩

/-- C60. The expansions of two Laurent polynomials are equal if and only if the Laurent polynomials have the
same values wherever both have values. -/
theorem C60_identity (hc : cfg.Ok) (hp : cfg.maxPrime < 324) (hσ : σ.Respects) (hτ : τ.Respects) (t u : RTree) (ht : t.Laurent)
    (hu : u.Laurent) {x y : ℝ} (hx : t.val σ = some x) (hy : u.val τ = some y) (r s : Expr D)
    (hr : Gives cfg (fun E => t.expanded E) r) (hs : Gives cfg (fun E => u.expanded E) s) :
    isEqual r s = true ↔ ∀ (σ' : Asg) (x y : ℝ), σ'.Respects → t.val σ' = some x → u.val σ' = some y → x = y := by
  obtain ⟨L, hL, hT, hv⟩ := ht.expanded (D := D) hc hp hσ hx
  obtain ⟨M, hM, hT', hv'⟩ := hu.expanded (D := D) hc hp hτ hy
  have e1 : sumOf (L.map Zf.em) = r := hT.unique hr.1
  have e2 : sumOf (M.map Zf.em) = s := hT'.unique hs.1
  subst e1 e2
  rw [Good.eq_iff (Zf.EP.good ⟨L, hL, rfl⟩) (Zf.EP.good ⟨M, hM, rfl⟩)]
  constructor
  · intro e σ' x y h' hx hy
    have h1 := hv σ' x h' hx
    rw [e, hv' σ' y h' hy] at h1
    cases h1; rfl
  · intro h
    refine hL.qv_inj hM ?_
    obtain ⟨d, d0, hd⟩ := ht.dom hc hp hσ hx
    obtain ⟨d', d0', hd'⟩ := hu.dom hc hp hτ hy
    have : (qv L - qv M) * (d * d') = 0 := ev_inj fun g => by
      rw [map_mul, map_mul, map_sub, map_zero]
      by_cases h1 : ev g d = 0
      · rw [h1]; simp
      by_cases h2 : ev g d' = 0
      · rw [h2]; simp
      obtain ⟨x, hx⟩ := hd g h1
      obtain ⟨y, hy⟩ := hd' g h2
      have hxv := hv _ _ g.respects hx
      have hyv := hv' _ _ g.respects hy
      rw [den_qv g hL.sb] at hxv
      rw [den_qv g hM.sb] at hyv
      cases hxv; cases hyv
      rw [h g.asg _ _ g.respects hx hy, sub_self, zero_mul]
    rcases mul_eq_zero.1 this with h | h
    · exact sub_eq_zero.1 h
    · exact absurd h (mul_ne_zero d0 d0')

/-- C60. The expansion does not change if it is expanded again. -/
theorem C60_idempotent (hc : cfg.Ok) (hp : cfg.maxPrime < 324) (hσ : σ.Respects) (t : RTree) (ht : t.Laurent) {x : ℝ}
    (hx : t.val σ = some x) (r : Expr D) (hr : Gives cfg (fun E => t.expanded E) r) : Gives cfg (fun E => Api.expand E r) r := by
  obtain ⟨L, hL, hT, hv⟩ := ht.expanded (D := D) hc hp hσ hx
  have e1 : sumOf (L.map Zf.em) = r := hT.unique hr.1
  subst e1
  exact Tot.gives (tot_expand (Zf.tot_expand_ep hc ⟨L, hL, rfl⟩)) (apiExpand_mono _)

/-- C60. The expansion of the difference is zero if and only if the Laurent polynomials have the same values
wherever both have values. -/
theorem C60_difference (hc : cfg.Ok) (hp : cfg.maxPrime < 324) (hσ : σ.Respects) (t u : RTree) (ht : t.Laurent)
    (hu : u.Laurent) {x y : ℝ} (hx : t.val σ = some x) (hy : u.val σ = some y) (r : Expr D)
    (hr : Gives cfg (fun E => (RTree.sub t u).expanded E) r) :
    isEqual r (.num (.rat 0)) = true ↔ ∀ (σ' : Asg) (x y : ℝ), σ'.Respects → t.val σ' = some x → u.val σ' = some y → x = y := by
  have h0 : Gives cfg (fun E => (RTree.rat 0).expanded E) (.num (.rat 0) : Expr D) :=
    Tot.gives (tot_bind (tot_pure _) (tot_expand (by simp only [expand]; exact tot_pure _))) (RTree.expanded_mono _)
  rw [C60_identity hc hp hσ hσ (.sub t u) (.rat 0) (.sub ht hu) (.mon (.rat 0)) (x := x - y) (by simp [RTree.val, hx, hy]) rfl r _ hr h0]
  constructor
  · intro h σ' x y h' hx hy
    exact sub_eq_zero.1 (by simpa using h σ' (x - y) 0 h' (by simp [RTree.val, hx, hy]) (by simp [RTree.val]))
  · intro h σ' x y h' hx hy
    simp only [RTree.val, Option.bind_eq_some_iff, Option.map_eq_some_iff] at hx
    obtain ⟨x1, hx1, y1, hy1, rfl⟩ := hx
    rw [h σ' x1 y1 h' hx1 hy1, sub_self]
    simp only [RTree.val, Rat.cast_zero, Option.some.injEq] at hy
    exact hy

end

/-! ## Examples -/

namespace RationalEx

open ExprEx SymEx ValueEx RTree

/-- (a + 1/b)^2. -/
def l1 : RTree := .pow (.add (.var sa) (.pow (.var sb) (-1))) 2
/-- a^2 + (2*a*b + 1)/b^2. -/
def l2 : RTree := .add (.pow (.var sa) 2) (.div (.add (.mul (.mul (.rat 2) (.var sa)) (.var sb)) (.rat 1)) (.pow (.var sb) 2))

theorem l1_lau : l1.Laurent :=
  .pow (.add (.mon mon_a) (.mon (.pow mon_b (-1) (by simp only [ExpOk]; decide)))) 2 (by simp only [ExpOk]; decide) (by decide)

theorem l2_lau : l2.Laurent :=
  .add (.mon (.pow mon_a 2 (by simp only [ExpOk]; decide)))
    (.div (.add (.mon (.mul (.mul (.rat 2) mon_a) mon_b)) (.mon (.rat 1))) (.pow mon_b 2 (by simp only [ExpOk]; decide)))

/-- The hypotheses of C60 are met. -/
example : l1.Laurent ∧ l2.Laurent ∧ l1.val (all 1) = some 4 ∧ l2.val (all 1) = some 4 := by
  refine ⟨l1_lau, l2_lau, ?_, ?_⟩ <;> simp only [l1, l2, RTree.val, all, Option.bind_some, Option.map_some] <;> norm_num

/-- Before the expansion the two are different, the expansions are equal. -/
def l12 : Expr Hyb := sum [pow a (int 2), pow b (int (-2)), prod [int 2, a, pow b (int (-1))]]
example : l1.run lib60 = .ok (pow (sum [a, pow b (int (-1))]) (int 2), []) ∧ l1.expanded lib60 = .ok (l12, []) ∧
    l2.expanded lib60 = .ok (l12, []) := ⟨by krfl, by krfl, by krfl⟩

end RationalEx

end Tsym
