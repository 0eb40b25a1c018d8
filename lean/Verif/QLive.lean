import Verif.RootTree
import Verif.QEval
import Verif.Props.Laurent

set_option autoImplicit false
set_option linter.unusedSectionVars false
set_option linter.unusedSimpArgs false
set_option linter.unusedVariables false

/-!
# Results for expressions with rational exponents
-/

namespace Tsym

open Expr

namespace Qf

open scoped Classical

variable {D : Type} [Flt D] [LawfulFlt D] {cfg : Cfg D} {σ τ : Asg} {F G : Expr D × ℚ → Prop}

theorem _root_.Tsym.RootTree.run_vl {cfg : Cfg D} (hcfg : cfg.Ok) (n : Nat) {σ : Asg} (hσ : σ.Respects) (t : RootTree) :
    ∀ {x : ℝ}, t.val σ = some x → Vl σ (t.run (eng cfg n)) x := by
  have hE := sound_eng hcfg n
  induction t with
  | rat q =>
    intro x h
    simp only [RootTree.val, Option.some.injEq] at h
    exact wp_pure (by simp [← h, den])
  | var s =>
    intro x h
    simp only [RootTree.val, Option.some.injEq] at h
    exact wp_pure (by simp [← h, den])
  | neg t ih =>
    intro x h
    simp only [RootTree.val, Option.map_eq_some_iff] at h
    obtain ⟨y, h1, rfl⟩ := h
    exact wp_bind (ih h1) fun a ha => minus_vl hE hσ ha
  | add t u iht ihu =>
    intro x h
    simp only [RootTree.val, Option.bind_eq_some_iff, Option.map_eq_some_iff] at h
    obtain ⟨y, h1, z, h2, rfl⟩ := h
    exact wp_bind (iht h1) fun a ha => wp_bind (ihu h2) fun b hb => hE.sum hσ (denSum_two ha hb)
  | sub t u iht ihu =>
    intro x h
    simp only [RootTree.val, Option.bind_eq_some_iff, Option.map_eq_some_iff] at h
    obtain ⟨y, h1, z, h2, rfl⟩ := h
    rw [sub_eq_add_neg]
    exact wp_bind (iht h1) fun a ha => wp_bind (ihu h2) fun b hb =>
      wp_bind (minus_vl hE hσ hb) fun m hm => hE.sum hσ (denSum_two ha hm)
  | mul t u iht ihu =>
    intro x h
    simp only [RootTree.val, Option.bind_eq_some_iff, Option.map_eq_some_iff] at h
    obtain ⟨y, h1, z, h2, rfl⟩ := h
    exact wp_bind (iht h1) fun a ha => wp_bind (ihu h2) fun b hb => hE.prod hσ (denProd_two ha hb)
  | div t u iht ihu =>
    intro x h
    simp only [RootTree.val, Option.bind_eq_some_iff] at h
    obtain ⟨y, h1, z, h2, h3⟩ := h
    split at h3
    · cases h3
    · rename_i hz
      cases h3
      rw [div_eq_mul_inv]
      exact wp_bind (iht h1) fun a ha => wp_bind (ihu h2) fun b hb =>
        wp_bind (oneOver_vl hE hσ hb hz) fun m hm => hE.prod hσ (denProd_two ha hm)
  | pow t k ih =>
    intro x h
    simp only [RootTree.val, Option.bind_eq_some_iff] at h
    obtain ⟨y, h1, h3⟩ := h
    exact wp_bind (ih h1) fun a ha => hE.pow hσ ha (by simp [den]) h3

open Lean.Order in
theorem _root_.Tsym.RootTree.run_mono (t : RootTree) : monotone fun E : Eng D => t.run E := by
  induction t with
  | rat q => simp only [RootTree.run]; monotonicity
  | var s => simp only [RootTree.run]; monotonicity
  | neg t h =>
    simp only [RootTree.run, Api.neg]
    refine monotone_bind (m := M D) _ _ h (monotone_of_monotone_apply _ fun a => ?_)
    repeat' monotonicity
  | add t u h1 h2 =>
    simp only [RootTree.run, Api.add]
    refine monotone_bind (m := M D) _ _ h1 (monotone_of_monotone_apply _ fun a => ?_)
    refine monotone_bind (m := M D) _ _ h2 (monotone_of_monotone_apply _ fun b => ?_)
    repeat' monotonicity
  | sub t u h1 h2 =>
    simp only [RootTree.run, Api.sub]
    refine monotone_bind (m := M D) _ _ h1 (monotone_of_monotone_apply _ fun a => ?_)
    refine monotone_bind (m := M D) _ _ h2 (monotone_of_monotone_apply _ fun b => ?_)
    repeat' monotonicity
  | mul t u h1 h2 =>
    simp only [RootTree.run, Api.mul]
    refine monotone_bind (m := M D) _ _ h1 (monotone_of_monotone_apply _ fun a => ?_)
    refine monotone_bind (m := M D) _ _ h2 (monotone_of_monotone_apply _ fun b => ?_)
    repeat' monotonicity
  | div t u h1 h2 =>
    simp only [RootTree.run, Api.div]
    refine monotone_bind (m := M D) _ _ h1 (monotone_of_monotone_apply _ fun a => ?_)
    refine monotone_bind (m := M D) _ _ h2 (monotone_of_monotone_apply _ fun b => ?_)
    repeat' monotonicity
  | pow t k h =>
    simp only [RootTree.run, Api.pow]
    refine monotone_bind (m := M D) _ _ h (monotone_of_monotone_apply _ fun a => ?_)
    repeat' monotonicity

open Lean.Order in
theorem _root_.Tsym.RootTree.expanded_mono (t : RootTree) : monotone fun E : Eng D => t.expanded E := by
  simp only [RootTree.expanded, Api.expand]
  refine monotone_bind (m := M D) _ _ t.run_mono (monotone_of_monotone_apply _ fun a => ?_)
  repeat' monotonicity

theorem _root_.Tsym.RootTree.val_run (hc : cfg.Ok) (hσ : σ.Respects) {t : RootTree} {r : Expr D} {x : ℝ} (h : Tot cfg (fun E => t.run E) r)
    (hx : t.val σ = some x) : den σ r = some x := Zf.tv h fun n => t.run_vl hc n hσ hx

theorem tot_neg_cl (hc : cfg.Ok) (hF : Cl cfg F) {t : RootTree} {r : Expr D} (h : Tot cfg (fun E => t.run E) r) (hr : Tm cfg F r) :
    ∃ s, Tot cfg (fun E => (RootTree.neg t).run E) s ∧ Tm cfg F s := by
  obtain ⟨s, hs, ts⟩ := hF.tot_prod hc (es := [mOne, r]) (by
    intro e he
    simp only [List.mem_cons, List.not_mem_nil, or_false] at he
    rcases he with rfl | rfl
    · rw [mOne_rat]; exact Tm.num _
    · exact hr)
  exact ⟨s, tot_bind h (tot_prod hs), ts⟩

theorem tot_mul_cl (hc : cfg.Ok) (hF : Cl cfg F) {t u : RootTree} {a b : Expr D} (h : Tot cfg (fun E => t.run E) a) (ha : Tm cfg F a)
    (h' : Tot cfg (fun E => u.run E) b) (hb : Tm cfg F b) : ∃ s, Tot cfg (fun E => (RootTree.mul t u).run E) s ∧ Tm cfg F s := by
  obtain ⟨s, hs, ts⟩ := hF.tot_prod hc (es := [a, b]) (by
    intro e he
    simp only [List.mem_cons, List.not_mem_nil, or_false] at he
    rcases he with rfl | rfl
    exacts [ha, hb])
  exact ⟨s, tot_bind h (tot_bind h' (tot_prod hs)), ts⟩

theorem tot_inv_cl (hc : cfg.Ok) (hp : cfg.maxPrime < 324) (hG : Cl cfg G) (hFG : ∀ f, f.2 ≠ 0 → F f → G (f.1, f.2 * -1)) {b : Expr D}
    (hb : Tm cfg F b) (h0 : b ≠ zero) : ∃ s, Tot cfg (fun E => E.oneOver b) s ∧ Tm cfg G s := by
  obtain ⟨s, hs, ts⟩ := hG.tot_pow hc hp hb (k := -1) (.inl h0) (by decide) (fun h => absurd h (by decide)) fun _ => by simpa using hFG
  exact ⟨s, by simp only [Zf.oneOver_eq]; exact tot_pow hs, ts⟩

theorem tot_div_cl (hc : cfg.Ok) (hp : cfg.maxPrime < 324) (hG : Cl cfg G) (hFG : ∀ f, f.2 ≠ 0 → F f → G (f.1, f.2 * -1)) {t u : RootTree}
    {a b : Expr D} (h : Tot cfg (fun E => t.run E) a) (ha : Tm cfg G a) (h' : Tot cfg (fun E => u.run E) b) (hb : Tm cfg F b)
    (h0 : b ≠ zero) : ∃ s, Tot cfg (fun E => (RootTree.div t u).run E) s ∧ Tm cfg G s := by
  obtain ⟨i, hi, ti⟩ := tot_inv_cl hc hp hG hFG hb h0
  obtain ⟨s, hs, ts⟩ := hG.tot_prod hc (es := [a, i]) (by
    intro e he
    simp only [List.mem_cons, List.not_mem_nil, or_false] at he
    rcases he with rfl | rfl
    exacts [ha, ti])
  exact ⟨s, tot_bind h (tot_bind h' (tot_bind hi (tot_prod hs))), ts⟩

theorem tot_pow_cl (hc : cfg.Ok) (hp : cfg.maxPrime < 324) (hF : Cl cfg F) {t : RootTree} {a : Expr D} {k : ℤ}
    (hFk : k ≠ 0 → ∀ f, f.2 ≠ 0 → F f → F (f.1, f.2 * k)) (h : Tot cfg (fun E => t.run E) a) (ha : Tm cfg F a) (hz : a ≠ zero ∨ 0 < k)
    (hk : RootTree.ExpOk k) : ∃ s, Tot cfg (fun E => (RootTree.pow t k).run E) s ∧ Tm cfg F s := by
  obtain ⟨s, hs, ts⟩ := hF.tot_pow hc hp ha hz hk (fun _ _ h => h) hFk
  exact ⟨s, tot_bind h (tot_pow hs), ts⟩

theorem val_ne_zero {e : Expr D} {x : ℝ} (h : den σ e = some x) (h0 : x ≠ 0) : e ≠ zero := by
  rintro rfl
  rw [den_zero] at h
  cases h; exact h0 rfl

theorem val_mul {t u : RootTree} {x : ℝ} (h : (RootTree.mul t u).val σ = some x) : (∃ y, t.val σ = some y) ∧ ∃ z, u.val σ = some z := by
  simp only [RootTree.val, Option.bind_eq_some_iff, Option.map_eq_some_iff] at h
  obtain ⟨y, h1, z, h2, _⟩ := h
  exact ⟨⟨y, h1⟩, z, h2⟩

theorem val_add {t u : RootTree} {x : ℝ} (h : (RootTree.add t u).val σ = some x) : (∃ y, t.val σ = some y) ∧ ∃ z, u.val σ = some z := by
  simp only [RootTree.val, Option.bind_eq_some_iff, Option.map_eq_some_iff] at h
  obtain ⟨y, h1, z, h2, _⟩ := h
  exact ⟨⟨y, h1⟩, z, h2⟩

theorem val_sub {t u : RootTree} {x : ℝ} (h : (RootTree.sub t u).val σ = some x) : (∃ y, t.val σ = some y) ∧ ∃ z, u.val σ = some z := by
  simp only [RootTree.val, Option.bind_eq_some_iff, Option.map_eq_some_iff] at h
  obtain ⟨y, h1, z, h2, _⟩ := h
  exact ⟨⟨y, h1⟩, z, h2⟩

theorem val_div {t u : RootTree} {x : ℝ} (h : (RootTree.div t u).val σ = some x) : (∃ y, t.val σ = some y) ∧ ∃ z, u.val σ = some z ∧ z ≠ 0 := by
  simp only [RootTree.val, Option.bind_eq_some_iff] at h
  obtain ⟨y, h1, z, h2, h3⟩ := h
  split at h3
  · cases h3
  · exact ⟨⟨y, h1⟩, z, h2, by assumption⟩

theorem val_neg {t : RootTree} {x : ℝ} (h : (RootTree.neg t).val σ = some x) : ∃ y, t.val σ = some y := by
  simp only [RootTree.val, Option.map_eq_some_iff] at h
  obtain ⟨y, h1, _⟩ := h
  exact ⟨y, h1⟩

theorem val_pow {t : RootTree} {k : ℚ} {x : ℝ} (h : (RootTree.pow t k).val σ = some x) : ∃ y, t.val σ = some y ∧ (y ≠ 0 ∨ 0 < k) := by
  simp only [RootTree.val, Option.bind_eq_some_iff] at h
  obtain ⟨y, h1, h3⟩ := h
  refine ⟨y, h1, ?_⟩
  rcases (Spec.pow_some h3).1 with h | ⟨_, h⟩ | ⟨h, _⟩
  · exact .inl h.ne'
  · exact .inr (by exact_mod_cast h)
  · exact .inl h.ne

/-- The bases are positive symbols. -/
def Pb (P : List (Expr D × ℚ)) : Prop := ∀ f ∈ P, ∃ s : Sym, f.1 = .sym s ∧ s.positive = true

theorem Pb.sb {P : List (Expr D × ℚ)} (h : Pb P) : Sb P := fun f hf => by
  obtain ⟨s, hs, _⟩ := h f hf; exact ⟨s, hs⟩

theorem ps_sym {s : Sym} (h : s.positive = true) : Ps cfg (.sym s : Expr D) := by
  refine ⟨?_, ?_⟩
  · simp only [Tsym.isPos, h]; exact tot_pure _
  · simp only [Tsym.isNeg]; exact tot_pure _

theorem Pb.ps {P : List (Expr D × ℚ)} (h : Pb P) : ∀ f ∈ P, Ps cfg f.1 := fun f hf => by
  obtain ⟨s, hs, hp⟩ := h f hf; rw [hs]; exact ps_sym hp

theorem cs_of_cnt {P R : List (Expr D × ℚ)} (hR : Sb R) (hP : Sb P) (h : cnt R = cnt P) : cs R = cs P := by
  rw [cnt_cs hR, cnt_cs hP] at h
  exact Finsupp.mapDomain_injective (fun a b h => by cases h; rfl) h

theorem cs_append (P Q : List (Expr D × ℚ)) : cs (P ++ Q) = cs P + cs Q := by simp [cs]

theorem cs_sc (k : ℚ) (P : List (Expr D × ℚ)) : cs (sc k P) = k • cs P := by
  induction P with
  | nil => simp [cs, sc]
  | cons f P ih =>
    have e2 : sc k (f :: P) = [(f.1, f.2 * k)] ++ sc k P := rfl
    have e3 : f :: P = [f] ++ P := rfl
    rw [e2, e3, cs_append, cs_append, ih, smul_add]
    congr 1
    obtain ⟨b, j⟩ := f
    cases b <;> simp [cs, mul_comm]

theorem tot_mul_pm (hc : cfg.Ok) {P Q : List (Expr D × ℚ)} (hP : Can cfg P) (hQ : Can cfg Q) (bP : Pb P) (bQ : Pb Q) :
    ∃ R, Can cfg R ∧ Pb R ∧ cs R = cs P + cs Q ∧ Tot cfg (fun E => prodCreate E [mexpr 1 P, mexpr 1 Q]) (mexpr 1 R) := by
  obtain ⟨R, hR, t1, _⟩ := tot_prodCreate hc (Ms := [((1 : ℚ), P), (1, Q)]) (by
    intro m hm
    simp only [List.mem_cons, List.not_mem_nil, or_false] at hm
    rcases hm with rfl | rfl
    exacts [⟨one_ne_zero, hP.facs⟩, ⟨one_ne_zero, hQ.facs⟩]) (by simp)
  simp only [List.map_cons, List.map_nil, List.prod_cons, List.prod_nil, mul_one, List.flatMap_cons, List.flatMap_nil,
    List.append_nil] at hR t1
  have bPQ : Pb (P ++ Q) := fun f hf => (List.mem_append.1 hf).elim (bP f) (bQ f)
  have bR : Pb R := fun f hf => by
    obtain ⟨g, hg, e⟩ := hR.sub f hf
    rw [← e]; exact bPQ g hg
  refine ⟨R, hR.can, bR, ?_, t1 fun h => h.1 rfl⟩
  rw [← cs_append]; exact cs_of_cnt bR.sb bPQ.sb hR.cnt

theorem tot_pow_pm (hc : cfg.Ok) {P : List (Expr D × ℚ)} (hP : Can cfg P) (bP : Pb P) (k : ℚ) :
    ∃ R, Can cfg R ∧ Pb R ∧ cs R = k • cs P ∧ Tot cfg (fun E => powCreate E (mexpr 1 P) (num (.rat k))) (mexpr 1 R) := by
  have eu : (num (.rat k) : Expr D).isUndefined = false := rfl
  have hu : (mexpr 1 P).isUndefined = false := mexpr_isUndefined hP.facs
  by_cases hk : k = 0
  · refine ⟨[], Can.nil, by simp [Pb], by simp [hk, cs], ?_⟩
    have : (num (.rat k) : Expr D).isZero = true := by rw [isZero_ratE]; simpa using hk
    simp only [powCreate, hu, eu, this, Bool.or_self, Bool.false_eq_true, if_false, Bool.true_or, if_true, ← num_mexpr, one_eq]
    exact tot_pure _
  have e2 : (num (.rat k) : Expr D).isZero = false := by rw [isZero_ratE]; simpa using hk
  have h1 : Tot cfg (fun E => powCreate E (num (.rat 1)) (num (.rat k))) (num (.rat 1) : Expr D) := by
    have u1 : (num (.rat 1) : Expr D).isUndefined = false := rfl
    have o1 : (num (.rat 1) : Expr D).isOne = true := by rw [isOne_ratE]; simp
    simp only [powCreate, u1, eu, o1, Bool.or_self, Bool.false_eq_true, if_false, Bool.or_true, if_true, one_eq]
    exact tot_pure _
  by_cases hk1 : k = 1
  · subst hk1
    refine ⟨P, hP, bP, by simp, ?_⟩
    by_cases hP0 : P = []
    · subst hP0; rw [← num_mexpr]; exact h1
    · have ho : (mexpr 1 P).isOne = false := by
        rcases mexpr_cases 1 P with ⟨h, _⟩ | ⟨f, hf, _, h⟩ | ⟨_, _, h⟩
        · exact absurd h hP0
        · rw [h]; exact (hP.facs f (by rw [hf]; simp)).isOne
        · rw [h]; rfl
      have z : (mexpr 1 P).isZero = false := mexpr_isZero one_ne_zero hP.facs
      have e3 : (num (.rat 1) : Expr D).isOne = true := by rw [isOne_ratE]; simp
      simp only [powCreate, hu, eu, ho, z, e2, e3, Bool.or_self, Bool.false_eq_true, if_false, if_true]
      exact tot_pure _
  have hE : Ek cfg k 1 P := .inr ⟨one_pos, bP.ps⟩
  refine ⟨sc k P, hP.sc hk fun f hf => hE.fac hf, ?_, cs_sc k P,
    (tot_pow_term hc one_ne_zero one_ne_zero hP (fun h => h.1 rfl) hk hk1 hE h1 fun _ => rfl).1 fun h => h.1 rfl⟩
  intro f hf
  obtain ⟨g, hg, rfl⟩ := List.mem_map.1 hf
  exact bP g hg

/-- Products of powers of positive symbols. -/
theorem _root_.Tsym.RootTree.PosMon.live (hc : cfg.Ok) {t : RootTree} (h : t.PosMon) :
    ∃ P, Can cfg P ∧ Pb P ∧ cs P = t.exponents ∧ Tot cfg (fun E : Eng D => t.run E) (mexpr 1 P) := by
  induction h with
  | var s hs hp =>
    refine ⟨[(.sym s, 1)], Can.single ⟨qb_sym hs, .one, one_ne_zero⟩, ?_, by simp [cs, RootTree.exponents], ?_⟩
    · intro f hf; rw [List.mem_singleton.1 hf]; exact ⟨s, rfl, hp⟩
    · have : (mexpr 1 [(.sym s, 1)] : Expr D) = .sym s := by simp [mexpr, rl_one, prodOf, fac]
      rw [this]; exact tot_pure _
  | mul _ _ ih ih' =>
    obtain ⟨P, cP, bP, eP, tP⟩ := ih
    obtain ⟨Q, cQ, bQ, eQ, tQ⟩ := ih'
    obtain ⟨R, cR, bR, eR, tR⟩ := tot_mul_pm hc cP cQ bP bQ
    exact ⟨R, cR, bR, by rw [eR, eP, eQ, RootTree.exponents], tot_bind tP (tot_bind tQ (tot_prod tR))⟩
  | div _ _ ih ih' =>
    obtain ⟨P, cP, bP, eP, tP⟩ := ih
    obtain ⟨Q, cQ, bQ, eQ, tQ⟩ := ih'
    obtain ⟨I, cI, bI, eI, tI⟩ := tot_pow_pm hc cQ bQ (-1)
    obtain ⟨R, cR, bR, eR, tR⟩ := tot_mul_pm hc cP cI bP bI
    refine ⟨R, cR, bR, by rw [eR, eP, eI, eQ, RootTree.exponents]; simp [sub_eq_add_neg], tot_bind tP (tot_bind tQ (tot_bind (a := mexpr 1 I) ?_ (tot_prod tR)))⟩
    simp only [Zf.oneOver_eq]
    have : (int (-1) : Expr D) = num (.rat (-1)) := by simp [int]
    rw [this]; exact tot_pow tI
  | pow _ k ih =>
    obtain ⟨P, cP, bP, eP, tP⟩ := ih
    obtain ⟨R, cR, bR, eR, tR⟩ := tot_pow_pm hc cP bP k
    exact ⟨R, cR, bR, by rw [eR, eP, RootTree.exponents], tot_bind tP (tot_pow tR)⟩

theorem tm_pm {P : List (Expr D × ℚ)} (hP : Can cfg P) (bP : Pb P) : Tm cfg MF (mexpr 1 P : Expr D) :=
  .inr ⟨(1, P), one_ne_zero, hP, fun h => h.1 rfl, fun f hf => bP.sb f hf, rfl⟩

theorem _root_.Tsym.RootTree.Mon.live (hc : cfg.Ok) (hp : cfg.maxPrime < 324) (hσ : σ.Respects) {t : RootTree} (h : t.Mon) :
    ∀ {x : ℝ}, t.val σ = some x → ∃ r, Tot cfg (fun E : Eng D => t.run E) r ∧ Tm cfg MF r := by
  induction h with
  | rat q => exact fun _ => ⟨_, tot_pure _, Tm.num q⟩
  | var s hs => exact fun _ => ⟨_, tot_pure _, cl_mf.tm_sym hs⟩
  | pos h =>
    intro x hx
    obtain ⟨P, cP, bP, _, tP⟩ := h.live (D := D) hc
    exact ⟨_, tP, tm_pm cP bP⟩
  | neg _ ih =>
    intro x hx
    obtain ⟨y, hy⟩ := val_neg hx
    obtain ⟨r, hr, tr⟩ := ih hy
    exact tot_neg_cl hc cl_mf hr tr
  | mul _ _ ih ih' =>
    intro x hx
    obtain ⟨⟨y, hy⟩, z, hz⟩ := val_mul hx
    obtain ⟨r, hr, tr⟩ := ih hy
    obtain ⟨s, hs, ts⟩ := ih' hz
    exact tot_mul_cl hc cl_mf hr tr hs ts
  | div _ _ ih ih' =>
    intro x hx
    obtain ⟨⟨y, hy⟩, z, hz, h0⟩ := val_div hx
    obtain ⟨r, hr, tr⟩ := ih hy
    obtain ⟨s, hs, ts⟩ := ih' hz
    exact tot_div_cl hc hp cl_mf (fun f _ h => h) hr tr hs ts (val_ne_zero (RootTree.val_run hc hσ hs hz) h0)
  | pow _ k hk ih =>
    intro x hx
    obtain ⟨y, hy, h0⟩ := val_pow hx
    obtain ⟨r, hr, tr⟩ := ih hy
    exact tot_pow_cl hc hp cl_mf (fun _ f _ h => h) hr tr (h0.imp (fun h => val_ne_zero (RootTree.val_run hc hσ hr hy) h) fun h => by exact_mod_cast h) hk

theorem MF.lf {f : Expr D × ℚ} (hz : QF cfg f) (h : MF f) : LF cfg f := by
  obtain ⟨b, k⟩ := f
  obtain ⟨s, hs⟩ := h
  simp only at hs; subst hs
  exact ⟨.sym s hz.base.sym_ok, .inr ⟨s, rfl⟩⟩

theorem Tm.imp {e : Expr D} (h : Tm cfg F e) (hG : ∀ f, QF cfg f → F f → G f) : Tm cfg G e := by
  rcases h with rfl | ⟨m, h1, h2, h3, h4, rfl⟩
  · exact .inl rfl
  · exact .inr ⟨m, h1, h2, h3, fun f hf => hG f (h2.facs f hf) (h4 f hf), rfl⟩

/-- The reciprocal of a monomial as a Puiseux polynomial. -/
theorem tot_div_mon (hc : cfg.Ok) (hp : cfg.maxPrime < 324) {t u : RootTree} {a b : Expr D} (h : Tot cfg (fun E => t.run E) a)
    (ha : Tm cfg (LF cfg) a) (h' : Tot cfg (fun E => u.run E) b) (hb : Tm cfg MF b) (h0 : b ≠ zero) :
    ∃ s, Tot cfg (fun E => (RootTree.div t u).run E) s ∧ Tm cfg (LF cfg) s := by
  obtain ⟨i, hi, ti⟩ := tot_inv_cl hc hp cl_mf (fun f _ h => h) hb h0
  obtain ⟨s, hs, ts⟩ := cl_lf.tot_prod hc (es := [a, i]) (by
    intro e he
    simp only [List.mem_cons, List.not_mem_nil, or_false] at he
    rcases he with rfl | rfl
    exacts [ha, ti.imp fun f hz h => h.lf hz])
  exact ⟨s, tot_bind h (tot_bind h' (tot_bind hi (tot_prod hs))), ts⟩

theorem _root_.Tsym.RootTree.Puiseux.live (hc : cfg.Ok) (hp : cfg.maxPrime < 324) (hσ : σ.Respects) {t : RootTree} (h : t.Puiseux) :
    ∀ {x : ℝ}, t.val σ = some x → ∃ r, Tot cfg (fun E : Eng D => t.run E) r ∧ Tm cfg (LF cfg) r := by
  induction h with
  | mon h =>
    intro x hx
    obtain ⟨r, hr, tr⟩ := h.live (D := D) hc hp hσ hx
    exact ⟨r, hr, tr.imp fun f hz h => h.lf hz⟩
  | neg _ ih =>
    intro x hx
    obtain ⟨y, hy⟩ := val_neg hx
    obtain ⟨r, hr, tr⟩ := ih hy
    exact tot_neg_cl hc cl_lf hr tr
  | add _ _ ih ih' =>
    intro x hx
    obtain ⟨⟨y, hy⟩, z, hz⟩ := val_add hx
    obtain ⟨r, hr, tr⟩ := ih hy
    obtain ⟨s, hs, ts⟩ := ih' hz
    obtain ⟨w, hw, tw⟩ := tot_sum_lf hc (es := [r, s]) (by simp) (by
      intro e he
      simp only [List.mem_cons, List.not_mem_nil, or_false] at he
      rcases he with rfl | rfl
      exacts [tr, ts])
    exact ⟨w, tot_bind hr (tot_bind hs (tot_sum hw)), tw⟩
  | @sub t u _ _ ih ih' =>
    intro x hx
    obtain ⟨⟨y, hy⟩, z, hz⟩ := val_sub hx
    obtain ⟨r, hr, tr⟩ := ih hy
    obtain ⟨s, hs, ts⟩ := ih' hz
    obtain ⟨m, hm, tm⟩ := cl_lf.tot_prod hc (es := [mOne, s]) (by
      intro e he
      simp only [List.mem_cons, List.not_mem_nil, or_false] at he
      rcases he with rfl | rfl
      · rw [mOne_rat]; exact Tm.num _
      · exact ts)
    obtain ⟨w, hw, tw⟩ := tot_sum_lf hc (es := [r, m]) (by simp) (by
      intro e he
      simp only [List.mem_cons, List.not_mem_nil, or_false] at he
      rcases he with rfl | rfl
      exacts [tr, tm])
    exact ⟨w, tot_bind hr (tot_bind hs (tot_bind (tot_prod hm) (tot_sum hw))), tw⟩
  | mul _ _ ih ih' =>
    intro x hx
    obtain ⟨⟨y, hy⟩, z, hz⟩ := val_mul hx
    obtain ⟨r, hr, tr⟩ := ih hy
    obtain ⟨s, hs, ts⟩ := ih' hz
    exact tot_mul_cl hc cl_lf hr tr hs ts
  | div _ h' ih =>
    intro x hx
    obtain ⟨⟨y, hy⟩, z, hz, h0⟩ := val_div hx
    obtain ⟨r, hr, tr⟩ := ih hy
    obtain ⟨s, hs, ts⟩ := h'.live (D := D) hc hp hσ hz
    exact tot_div_mon hc hp hr tr hs ts (val_ne_zero (RootTree.val_run hc hσ hs hz) h0)
  | pow _ k hk ih =>
    intro x hx
    obtain ⟨y, hy, hy0⟩ := val_pow hx
    obtain ⟨r, hr, tr⟩ := ih hy
    refine tot_pow_cl (k := (k : ℤ)) hc hp cl_lf (fun hk0 f _ h => ⟨h.1, h.2.imp_left fun h => ⟨?_, ?_⟩⟩) hr tr
      (hy0.imp (fun h => val_ne_zero (RootTree.val_run hc hσ hr hy) h) fun h => by exact_mod_cast h) hk
    · have : (0 : ℚ) < ((k : ℤ) : ℚ) := by
        have : 0 < (k : ℤ) := by omega
        exact_mod_cast this
      exact mul_pos h.1 this
    · simp only
      rw [← Rat.coe_int_num_of_den_eq_one h.2, ← Int.cast_mul]; exact Rat.den_intCast _

end Qf
end Tsym
