import Verif.ZBase
import Verif.PolyExpand
import Mathlib.Algebra.MonoidAlgebra.NoZeroDivisors
import Mathlib.Algebra.Group.UniqueProds.Basic
import Mathlib.Data.Finsupp.Basic

set_option autoImplicit false
set_option linter.unusedSectionVars false
set_option linter.unusedSimpArgs false
set_option linter.unusedVariables false

/-!
# Expanded Laurent polynomials: powers of symbols with integer exponents
-/

namespace Tsym

namespace Zf

open Expr
open scoped Classical

variable {D : Type} [Flt D] [LawfulFlt D] {cfg : Cfg D} {K : List (Expr D × ℤ) → Prop}

/-! ## The ring of the values -/

/-- Laurent polynomials. -/
abbrev Lr (D : Type) := AddMonoidAlgebra ℚ (Expr D →₀ ℤ)

/-- Forgets the order of the factors. -/
noncomputable def toR : (List (Expr D × ℤ) →₀ ℚ) →+ Lr D := Finsupp.liftAddHom fun P => AddMonoidAlgebra.singleAddHom (cnt P)

/-- The Laurent polynomial of a list of summands. -/
noncomputable def rv (L : List (Mo D)) : Lr D := toR (co L)

@[simp] theorem rv_nil : rv ([] : List (Mo D)) = 0 := by simp [rv]

theorem rv_cons (m : Mo D) (L : List (Mo D)) : rv (m :: L) = AddMonoidAlgebra.single (cnt m.2) m.1 + rv L := by
  unfold rv
  rw [co_cons, map_add, toR, Finsupp.liftAddHom_apply_single]; rfl

theorem rv_single (m : Mo D) : rv [m] = AddMonoidAlgebra.single (cnt m.2) m.1 := by rw [rv_cons, rv_nil, add_zero]

theorem rv_coeff {L : List (Mo D)} (h : ∀ m ∈ L, Can cfg m.2) {P : List (Expr D × ℤ)} (hP : Can cfg P) :
    (rv L).coeff (cnt P) = co L P := by
  induction L with
  | nil => simp
  | cons m L ih =>
    rw [rv_cons, AddMonoidAlgebra.coeff_add, Finsupp.add_apply, ih fun n hn => h n (by simp [hn]), co_cons, Finsupp.add_apply,
      AddMonoidAlgebra.coeff_single, Finsupp.single_apply, Finsupp.single_apply]
    congr 1
    by_cases e : m.2 = P
    · rw [if_pos e, if_pos (by rw [e])]
    · rw [if_neg e, if_neg fun h' => e ((h m (by simp)).ext hP h')]

/-- A list of at least two summands has two coefficients. -/
theorem SL.card {L : List (Mo D)} (h : SL cfg L) (h2 : 2 ≤ L.length) : 1 < (rv L).coeff.support.card := by
  match L, h2 with
  | m :: n :: L, _ =>
    rw [Finset.one_lt_card]
    have hcan : ∀ x ∈ m :: n :: L, Can cfg x.2 := fun x hx => (h.sm x hx).can
    have hc : ∀ x ∈ m :: n :: L, (rv (m :: n :: L)).coeff (cnt x.2) ≠ 0 := by
      intro x hx
      rw [rv_coeff hcan (hcan x hx), ((h.mem_iff x).1 hx).1]
      exact ((h.mem_iff x).1 hx).2
    refine ⟨cnt m.2, Finsupp.mem_support_iff.2 (hc m (by simp)), cnt n.2, Finsupp.mem_support_iff.2 (hc n (by simp)), fun e => ?_⟩
    exact h.ne n (by simp) ((hcan m (by simp)).ext (hcan n (by simp)) e).symm

theorem rv_card {L : List (Mo D)} (h : 1 < (rv L).coeff.support.card) : 2 ≤ L.length := by
  match L with
  | [] => simp at h
  | [m] =>
    rw [rv_single, AddMonoidAlgebra.coeff_single] at h
    have := (Finset.card_le_card (Finsupp.support_single_subset (a := cnt m.2) (b := m.1)))
    rw [Finset.card_singleton] at this
    omega
  | _ :: _ :: _ => simp

/-- The product of Laurent polynomials that are not monomials is not one. -/
theorem card_mul {p q : Lr D} (hp : 1 < p.coeff.support.card) (hq : 1 < q.coeff.support.card) : 1 < (p * q).coeff.support.card := by
  have h : 1 < p.coeff.support.card * q.coeff.support.card := by nlinarith
  obtain ⟨x, hx, y, hy, hne, ux, uy⟩ := TwoUniqueSums.uniqueAdd_of_one_lt_card h
  rw [Finset.mem_product] at hx hy
  rw [Finset.one_lt_card]
  have hc : ∀ z : (Expr D →₀ ℤ) × (Expr D →₀ ℤ), z.1 ∈ p.coeff.support → z.2 ∈ q.coeff.support →
      UniqueAdd p.coeff.support q.coeff.support z.1 z.2 → z.1 + z.2 ∈ (p * q).coeff.support := by
    intro z h1 h2 h3
    rw [Finsupp.mem_support_iff, AddMonoidAlgebra.coeff_mul_add_of_uniqueAdd h3]
    exact mul_ne_zero (Finsupp.mem_support_iff.1 h1) (Finsupp.mem_support_iff.1 h2)
  refine ⟨_, hc x hx.1 hx.2 ux, _, hc y hy.1 hy.2 uy, fun e => hne ?_⟩
  obtain ⟨e1, e2⟩ := ux hy.1 hy.2 e.symm
  exact Prod.ext e1.symm e2.symm

/-! ## Expanded Laurent polynomials -/

/-- A class of products of powers: products of members are members, and a sum alone is not one. -/
structure Kl (cfg : Cfg D) (K : List (Expr D × ℤ) → Prop) : Prop where
  nil : K []
  app : ∀ {Ps : List (List (Expr D × ℤ))} {R : List (Expr D × ℤ)}, (∀ P ∈ Ps, Can cfg P ∧ K P) → Nf cfg Ps.flatten R → K R
  ns : ∀ {P : List (Expr D × ℤ)} {l : List (Expr D)}, K P → P ≠ [(.sum l, 1)]

/-- All bases are symbols. -/
def Sb (P : List (Expr D × ℤ)) : Prop := ∀ f ∈ P, ∃ s, f.1 = .sym s

theorem kl_sb : Kl cfg (Sb : List (Expr D × ℤ) → Prop) := by
  refine ⟨by simp [Sb], ?_, ?_⟩
  · intro Ps R h hR f hf
    obtain ⟨g, hg, e⟩ := hR.sub f hf
    obtain ⟨P, hP, hg⟩ := List.mem_flatten.1 hg
    rw [← e]; exact (h P hP).2 g hg
  · rintro P l h rfl
    obtain ⟨s, hs⟩ := h (.sum l, 1) (by simp)
    cases hs

/-- The summands of an expanded expression. -/
structure EL (cfg : Cfg D) (K : List (Expr D × ℤ) → Prop) (L : List (Mo D)) : Prop where
  sl : SL cfg L
  sb : ∀ m ∈ L, K m.2

theorem EL.nil : EL cfg K [] := ⟨SL.nil, by simp⟩

theorem Kl.not_nx (hK : Kl cfg K) {P : List (Expr D × ℤ)} (h : K P) (q : ℚ) : ¬ Nx q P := by
  rintro ⟨_, l, rfl⟩
  exact hK.ns h rfl

theorem Kl.sm (hK : Kl cfg K) {q : ℚ} {P : List (Expr D × ℤ)} (hq : q ≠ 0) (h : Can cfg P) (hs : K P) : SM cfg q P := by
  refine ⟨hq, h, ?_⟩
  rintro ⟨l, rfl⟩
  exact hK.ns hs rfl

theorem EL.single (hK : Kl cfg K) {m : Mo D} (hq : m.1 ≠ 0) (h : Can cfg m.2) (hs : K m.2) : EL cfg K [m] :=
  ⟨SL.single (hK.sm hq h hs), by simpa using hs⟩

/-- An expanded expression. -/
def EP (cfg : Cfg D) (K : List (Expr D × ℤ) → Prop) (e : Expr D) : Prop := ∃ L, EL cfg K L ∧ e = sumOf (L.map em)

/-- Zero or a monomial. -/
def EM (cfg : Cfg D) (K : List (Expr D × ℤ) → Prop) (e : Expr D) : Prop := EP cfg K e ∧ e.isSum = false

theorem EP.cases {e : Expr D} (h : EP cfg K e) : e = zero ∨ (∃ m : Mo D, m.1 ≠ 0 ∧ Can cfg m.2 ∧ K m.2 ∧ e = em m) ∨
    ∃ L, EL cfg K L ∧ 2 ≤ L.length ∧ e = .sum (L.map em) := by
  obtain ⟨L, hL, rfl⟩ := h
  match L, hL with
  | [], _ => exact .inl rfl
  | [m], hL => exact .inr (.inl ⟨m, (hL.sl.sm m (by simp)).ne, (hL.sl.sm m (by simp)).can, hL.sb m (by simp), rfl⟩)
  | m :: m' :: L, hL => exact .inr (.inr ⟨_, hL, by simp, rfl⟩)

theorem EP.mono (hK : Kl cfg K) {m : Mo D} (hq : m.1 ≠ 0) (h : Can cfg m.2) (hs : K m.2) : EP cfg K (em m) := ⟨[m], EL.single hK hq h hs, rfl⟩

theorem EM.mono (hK : Kl cfg K) {m : Mo D} (hq : m.1 ≠ 0) (h : Can cfg m.2) (hs : K m.2) : EM cfg K (em m) :=
  ⟨EP.mono hK hq h hs, (hK.sm hq h hs).isSum⟩

theorem EP.zero : EP cfg K (Expr.zero : Expr D) := ⟨[], EL.nil, rfl⟩
theorem EM.zero : EM cfg K (Expr.zero : Expr D) := ⟨EP.zero, rfl⟩

theorem EM.num (hK : Kl cfg K) (q : ℚ) : EM cfg K (.num (.rat q) : Expr D) := by
  by_cases h : q = 0
  · subst h; exact EM.zero
  · rw [num_mexpr]; exact EM.mono hK (m := (q, [])) h Can.nil hK.nil

theorem EP.num (hK : Kl cfg K) (q : ℚ) : EP cfg K (.num (.rat q) : Expr D) := (EM.num hK q).1

theorem EM.cases {e : Expr D} (h : EM cfg K e) : e = Expr.zero ∨ ∃ m : Mo D, m.1 ≠ 0 ∧ Can cfg m.2 ∧ K m.2 ∧ e = em m := by
  rcases h.1.cases with h1 | h1 | ⟨L, _, _, rfl⟩
  · exact .inl h1
  · exact .inr h1
  · have := h.2; simp [Expr.isSum] at this

theorem EP.isUndefined {e : Expr D} (h : EP cfg K e) : e.isUndefined = false := by
  obtain ⟨L, hL, rfl⟩ := h; exact sumOf_isUndefined hL.sl

theorem em_inj {m n : Mo D} (hm : Can cfg m.2) (hn : Can cfg n.2) (h : em m = em n) : m = n := by
  obtain ⟨h1, h2⟩ := mexpr_inj hm.facs hn.facs h
  exact Prod.ext h1 h2

theorem SL.map_inj {L M : List (Mo D)} (hL : SL cfg L) (hM : SL cfg M) (h : L.map em = M.map em) : L = M := by
  induction L generalizing M with
  | nil => cases M with
    | nil => rfl
    | cons => simp at h
  | cons m L ih => cases M with
    | nil => simp at h
    | cons n M =>
      simp only [List.map_cons, List.cons.injEq] at h
      rw [em_inj hL.cons.1.can hM.cons.1.can h.1, ih hL.cons.2.1 hM.cons.2.1 h.2]

theorem SL.sumOf_inj {L M : List (Mo D)} (hL : SL cfg L) (hM : SL cfg M) (h : sumOf (L.map em) = sumOf (M.map em)) : L = M := by
  have hz : ∀ {N : List (Mo D)}, SL cfg N → N.map em ≠ [zero] := by
    intro N hN e
    match N with
    | [] => simp at e
    | _ :: _ :: _ => simp at e
    | [n] =>
      have e' : em n = zero := by simpa using e
      have := mexpr_isZero hN.cons.1.ne hN.cons.1.facs
      rw [show mexpr n.1 n.2 = zero from e', zero_eq, isZero_ratE] at this
      simp at this
  rcases rep_summands hL with h1 | ⟨rfl, h1⟩ <;> rcases rep_summands hM with h2 | ⟨rfl, h2⟩
  · rw [h, h2] at h1; exact (hM.map_inj hL h1).symm
  · rw [h, h2] at h1; exact absurd h1.symm (hz hL)
  · rw [h, h2] at h1; exact absurd h1 (hz hM)
  · rfl

/-- The Laurent polynomial of an expression. -/
noncomputable def lv (cfg : Cfg D) (e : Expr D) : Lr D := if h : ∃ L, SL cfg L ∧ e = sumOf (L.map em) then rv h.choose else 0

theorem lv_sumOf {L : List (Mo D)} (h : SL cfg L) : lv cfg (sumOf (L.map em)) = rv L := by
  have hx : ∃ M, SL cfg M ∧ sumOf (L.map em) = sumOf (M.map em) := ⟨L, h, rfl⟩
  unfold lv
  rw [dif_pos hx]
  have := hx.choose_spec
  rw [← h.sumOf_inj this.1 this.2]

theorem lv_em {m : Mo D} (h : SM cfg m.1 m.2) : lv cfg (em m) = AddMonoidAlgebra.single (cnt m.2) m.1 := by
  rw [← rv_single, ← lv_sumOf (SL.single h)]; rfl

theorem lv_zero : lv cfg (zero : Expr D) = 0 := by
  rw [← rv_nil, ← lv_sumOf (cfg := cfg) SL.nil]; rfl

theorem lv_num (q : ℚ) : lv cfg (.num (.rat q) : Expr D) = AddMonoidAlgebra.single 0 q := by
  by_cases h : q = 0
  · subst h; rw [← zero_eq, lv_zero, AddMonoidAlgebra.single_zero]
  · rw [num_mexpr]; exact lv_em (m := (q, [])) (kl_sb.sm h Can.nil (kl_sb (cfg := cfg)).nil)

theorem lv_one : lv cfg (one : Expr D) = 1 := by rw [one_eq, lv_num]; rfl

theorem lv_sum {L : List (Mo D)} (h : SL cfg L) (h2 : 2 ≤ L.length) : lv cfg (.sum (L.map em)) = rv L := by
  rw [← lv_sumOf h]
  match L, h2 with
  | _ :: _ :: _, _ => rfl

theorem EP.sum {L : List (Mo D)} (h : EL cfg K L) (h2 : 2 ≤ L.length) : EP cfg K (.sum (L.map em)) :=
  ⟨L, h, by match L, h2 with | _ :: _ :: _, _ => rfl⟩

theorem EP.isSum {e : Expr D} (h : EP cfg K e) (h1 : 1 < (lv cfg e).coeff.support.card) : e.isSum = true := by
  obtain ⟨L, hL, rfl⟩ := h
  rw [lv_sumOf hL.sl] at h1
  rw [sumOf_isSum hL.sl]
  simpa using rv_card h1

theorem EP.card {e : Expr D} (h : EP cfg K e) (h1 : e.isSum = true) : 1 < (lv cfg e).coeff.support.card := by
  obtain ⟨L, hL, rfl⟩ := h
  rw [sumOf_isSum hL.sl] at h1
  rw [lv_sumOf hL.sl]
  exact hL.sl.card (by simpa using h1)

theorem EL.added {Ls : List (List (Mo D))} (h : ∀ L ∈ Ls, EL cfg K L) {R : List (Mo D)} (hR : Added cfg Ls R) : EL cfg K R := by
  refine ⟨hR.sl, fun m hm => ?_⟩
  by_contra hn
  have h1 := (hR.sl.mem_iff m).1 hm
  rw [hR.co] at h1
  have : ∀ Ls : List (List (Mo D)), (∀ L ∈ Ls, EL cfg K L) → (Ls.map co).sum m.2 = 0 := by
    intro Ls hLs
    induction Ls with
    | nil => simp
    | cons L Ls ih =>
      rw [List.map_cons, List.sum_cons, Finsupp.add_apply, ih fun x hx => hLs x (by simp [hx]), add_zero]
      refine co_none fun n hnL e => hn ?_
      rw [← e]; exact (hLs L (by simp)).sb n hnL
  rw [this Ls h] at h1
  exact h1.2 h1.1.symm

/-- Sums of expanded expressions. -/
theorem tot_sum_ep (hc : cfg.Ok) {es : List (Expr D)} (hne : es ≠ []) (h : ∀ e ∈ es, EP cfg K e) :
    ∃ r, Tot cfg (fun E => sumCreate E es) r ∧ EP cfg K r ∧ lv cfg r = (es.map (lv cfg)).sum := by
  have : ∃ Ls : List (List (Mo D)), (∀ L ∈ Ls, EL cfg K L) ∧ es = Ls.map (fun L => sumOf (L.map em)) ∧
      toR (Ls.map co).sum = (es.map (lv cfg)).sum := by
    clear hne
    induction es with
    | nil => exact ⟨[], by simp, rfl, by simp⟩
    | cons e es ih =>
      obtain ⟨Ls, h1, h2, h3⟩ := ih fun x hx => h x (by simp [hx])
      obtain ⟨L, hL, rfl⟩ := h e (by simp)
      refine ⟨L :: Ls, ?_, by simp [h2], ?_⟩
      · intro M hM
        rcases List.mem_cons.1 hM with rfl | hM
        exacts [hL, h1 M hM]
      · rw [List.map_cons, List.sum_cons, map_add, h3, List.map_cons, List.sum_cons, lv_sumOf hL.sl]; rfl
  obtain ⟨Ls, h1, rfl, h3⟩ := this
  obtain ⟨R, hT, hR⟩ := tot_sumCreate hc (Ls := Ls) (by rintro rfl; simp at hne) fun L hL => (h1 L hL).sl
  refine ⟨_, hT, ⟨R, EL.added h1 hR, rfl⟩, ?_⟩
  rw [lv_sumOf hR.sl, rv, hR.co, h3]

theorem EP.unique {e e' : Expr D} (h : EP cfg K e) (h' : EP cfg K e') (hl : lv cfg e = lv cfg e') : e = e' := by
  obtain ⟨L, hL, rfl⟩ := h
  obtain ⟨M, hM, rfl⟩ := h'
  rw [lv_sumOf hL.sl, lv_sumOf hM.sl] at hl
  have : L = M := by
    refine hL.sl.ext hM.sl ?_
    ext P
    by_cases hP : Can cfg P
    · rw [← rv_coeff (fun m hm => (hL.sl.sm m hm).can) hP, hl, rv_coeff (fun m hm => (hM.sl.sm m hm).can) hP]
    · rw [co_none fun m hm e => hP (by rw [← e]; exact (hL.sl.sm m hm).can),
        co_none fun m hm e => hP (by rw [← e]; exact (hM.sl.sm m hm).can)]
  rw [this]

end Zf
end Tsym
