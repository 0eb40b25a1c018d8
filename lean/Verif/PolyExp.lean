import Verif.PolyBase
import Mathlib.Algebra.MvPolynomial.NoZeroDivisors

set_option autoImplicit false
set_option linter.unusedSectionVars false
set_option linter.unusedSimpArgs false
set_option linter.unusedVariables false

/-!
# Expanded polynomials
-/

namespace Tsym

open Expr

/-! ## Monomials of the polynomial ring -/

/-- The exponents of a monomial. -/
noncomputable def Key.fs (K : Key) : Sym →₀ ℕ := (K.map fun x => Finsupp.single x.1 x.2).sum

theorem Key.fs_count (K : Key) (s : Sym) : K.fs s = K.count s := by
  induction K with
  | nil => simp [Key.fs, Key.count]
  | cons x K ih =>
    simp only [Key.fs, Key.count, List.map_cons, List.sum_cons, Finsupp.add_apply] at ih ⊢
    rw [ih]
    by_cases h : x.1 = s
    · simp [h]
    · simp [h, Finsupp.single_apply]

theorem Key.fs_inj {K L : Key} (hK : K.Ok) (hL : L.Ok) (sK : K.Sorted) (sL : L.Sorted) (h : K.fs = L.fs) : K = L := by
  have hm : ∀ x, x ∈ K ↔ x ∈ L := by
    intro x
    rw [sK.count hK, sL.count hL, ← Key.fs_count, ← Key.fs_count, h]
  have hp : K.Perm L := (List.perm_ext_iff_of_nodup (Key.nodup sK) (Key.nodup sL)).2 hm
  refine hp.eq_of_pairwise (le := fun x y : Sym × ℕ => symLt x.1 y.1 = true) ?_ sK sL
  intro a b _ _ h1 h2
  rw [symLt_asymm h1] at h2
  cases h2

variable {D : Type} [Flt D] [ExactLt D] {cfg : Cfg D} {B : Expr D → Prop}

theorem Key.pv_poly (K : Key) : pv poly (K.facs : List (Expr D × ℕ)) = MvPolynomial.monomial K.fs 1 := by
  induction K with
  | nil => simp [Key.facs, Key.fs, MvPolynomial.monomial_zero']
  | cons x K ih =>
    simp only [Key.facs, Key.fs, List.map_cons, List.sum_cons, pv_cons, poly] at ih ⊢
    rw [ih, MvPolynomial.X_pow_eq_monomial, MvPolynomial.monomial_mul, one_mul]

theorem IsKey.poly {m : Mono D} {K : Key} (h : IsKey m.2 K) : poly (em m) = MvPolynomial.monomial K.fs m.1 := by
  have hf : PFacs (Cfg.std 0) m.2 := by rw [h.2.2]; exact h.1.pfacs
  rw [em, mexpr_poly hf, h.2.2, Key.pv_poly, MvPolynomial.C_mul_monomial, mul_one]

/-! ## Lists of monomials in order -/

/-- The summands of an expanded polynomial. -/
structure EL (L : List (Mono D)) : Prop where
  ne : ∀ m ∈ L, m.1 ≠ 0
  ks : Ks L

theorem EL.sl {L : List (Mono D)} (h : EL L) (hB : ∀ s : Sym, s.id.Ok → B (.sym s)) : SL cfg B L := by
  refine ⟨fun m hm => ?_, ?_⟩
  · obtain ⟨K, h1, h2, h3⟩ := h.ks.key m hm
    refine ⟨h.ne m hm, by rw [h3]; exact h1.pfacs, ?_, ?_⟩
    · rw [h3]
      intro f hf
      obtain ⟨x, hx, rfl⟩ := List.mem_map.1 hf
      exact hB _ (h1 x hx).1
    · rw [h3]
      rintro ⟨l, hl⟩
      match K with
      | [] => simp [Key.facs] at hl
      | [x] => simp [Key.facs] at hl
      | _ :: _ :: _ => simp [Key.facs] at hl
  · match L, h with
    | [], _ => simp
    | m :: L, h =>
      intro n hn e
      have hn : n ∈ L := hn
      obtain ⟨⟨K, hK⟩, hL, hs⟩ := h.ks.cons
      have := hs n hn K [] hK ⟨by simp [Key.Ok], by simp [Key.Sorted], by rw [e]; rfl⟩
      unfold keyLt at this
      simp [lexK] at this

theorem EL.nil : EL ([] : List (Mono D)) := ⟨by simp, Ks.nil⟩

theorem EL.single {m : Mono D} {K : Key} (h : m.1 ≠ 0) (hk : IsKey m.2 K) : EL [m] :=
  ⟨by simpa using h, ⟨by simpa using ⟨K, hk⟩, by simp⟩⟩

theorem SL.el {L : List (Mono D)} (h : SL cfg B L) (hk : Ks L) : EL L := ⟨fun m hm => (h.sm m hm).ne, hk⟩

theorem coeff_zero {L : List (Mono D)} (h : Ks L) {K : Key} (h1 : K.Ok) (h2 : K.Sorted)
    (hn : ∀ n ∈ L, ∀ J, IsKey n.2 J → J ≠ K) : (psum L).coeff K.fs = 0 := by
  induction L with
  | nil => simp
  | cons n L ih =>
    obtain ⟨⟨J, hJ⟩, hL, hs⟩ := h.cons
    rw [psum_cons, MvPolynomial.coeff_add, hJ.poly, MvPolynomial.coeff_monomial, ih hL fun x hx => hn x (by simp [hx]), add_zero]
    rw [if_neg]
    intro e
    exact hn n (by simp) J hJ (Key.fs_inj hJ.1 h1 hJ.2.1 h2 e)

/-- The coefficients of the polynomial. -/
theorem EL.coeff {L : List (Mono D)} (h : EL L) {m : Mono D} {K : Key} (hk : IsKey m.2 K) :
    m ∈ L ↔ (psum L).coeff K.fs = m.1 ∧ m.1 ≠ 0 := by
  induction L with
  | nil => simp; exact fun e => e.symm
  | cons n L ih =>
    obtain ⟨⟨J, hJ⟩, hL, hs⟩ := h.ks.cons
    have ih := ih ⟨fun x hx => h.ne x (by simp [hx]), hL⟩
    have hne : n.1 ≠ 0 := h.ne n (by simp)
    rw [psum_cons, MvPolynomial.coeff_add, hJ.poly, MvPolynomial.coeff_monomial, List.mem_cons, ih]
    by_cases e : J.fs = K.fs
    · have e' := Key.fs_inj hJ.1 hk.1 hJ.2.1 hk.2.1 e
      subst e'
      have hz : (psum L).coeff J.fs = 0 := coeff_zero hL hJ.1 hJ.2.1 fun x hx I hI e => by
        subst e
        have := hs x hx _ _ hJ hI
        rw [keyLt_irrefl] at this; cases this
      rw [hz, if_pos e, add_zero]
      constructor
      · rintro (rfl | ⟨a, b⟩)
        · exact ⟨rfl, hne⟩
        · exact absurd a.symm b
      · rintro ⟨a, b⟩
        exact .inl (Prod.ext a.symm (hk.2.2.trans hJ.2.2.symm))
    · rw [if_neg e, zero_add]
      constructor
      · rintro (rfl | h)
        · exact absurd (congrArg Key.fs (hJ.unique hk)) e
        · exact h
      · exact .inr

theorem EL.nodup {L : List (Mono D)} (h : EL L) : L.Nodup := by
  induction L with
  | nil => simp
  | cons m L ih =>
    obtain ⟨⟨J, hJ⟩, hL, hs⟩ := h.ks.cons
    refine List.nodup_cons.2 ⟨fun hm => ?_, ih ⟨fun x hx => h.ne x (by simp [hx]), hL⟩⟩
    have := hs m hm _ _ hJ hJ
    rw [keyLt_irrefl] at this; cases this

/-- The summands of an expanded polynomial are determined by the polynomial. -/
theorem EL.unique {L L' : List (Mono D)} (h : EL L) (h' : EL L') (e : psum L = psum L') : L = L' := by
  have hm : ∀ m, m ∈ L ↔ m ∈ L' := by
    intro m
    constructor
    · intro hm
      obtain ⟨K, hK⟩ := h.ks.key m hm
      rw [h'.coeff hK, ← e]
      exact (h.coeff hK).1 hm
    · intro hm
      obtain ⟨K, hK⟩ := h'.ks.key m hm
      rw [h.coeff hK, e]
      exact (h'.coeff hK).1 hm
  have hp : L.Perm L' := (List.perm_ext_iff_of_nodup h.nodup h'.nodup).2 hm
  refine hp.eq_of_pairwise ?_ h.ks.sorted h'.ks.sorted
  intro a b ha hb h1 h2
  obtain ⟨K, hK⟩ := h.ks.key a ha
  obtain ⟨K', hK'⟩ := h'.ks.key b hb
  have := h1 K K' hK hK'
  rw [keyLt_asymm (h2 K' K hK' hK)] at this
  cases this

/-- The polynomial is a monomial (or zero). -/
def IsMon (p : MvPolynomial Sym ℚ) : Prop := ∃ a c, p = MvPolynomial.monomial a c

theorem IsMon.of_mul {p q : MvPolynomial Sym ℚ} (h : IsMon (p * q)) : IsMon p ∨ IsMon q := by
  obtain ⟨a, c, e⟩ := h
  by_cases hc : c = 0
  · rw [hc, MvPolynomial.monomial_zero] at e
    rcases mul_eq_zero.1 e with e | e
    · exact .inl ⟨0, 0, by rw [e, MvPolynomial.monomial_zero]⟩
    · exact .inr ⟨0, 0, by rw [e, MvPolynomial.monomial_zero]⟩
  · have : p ∣ MvPolynomial.monomial a c := ⟨q, e.symm⟩
    rw [MvPolynomial.dvd_monomial_iff_exists hc] at this
    obtain ⟨m, b, _, _, hp⟩ := this
    exact .inl ⟨m, b, hp⟩

theorem EL.isMon {L : List (Mono D)} (h : EL L) (hm : IsMon (psum L)) : L.length ≤ 1 := by
  match L, h with
  | [], _ => simp
  | [_], _ => simp
  | m :: n :: L, h =>
    exfalso
    obtain ⟨a, c, e⟩ := hm
    obtain ⟨K, hK⟩ := h.ks.key m (by simp)
    obtain ⟨J, hJ⟩ := h.ks.key n (by simp)
    have h1 := (h.coeff hK).1 (by simp)
    have h2 := (h.coeff hJ).1 (by simp)
    rw [e, MvPolynomial.coeff_monomial] at h1 h2
    have e1 : a = K.fs := by by_contra hne; rw [if_neg hne] at h1; exact h1.2 h1.1.symm
    have e2 : a = J.fs := by by_contra hne; rw [if_neg hne] at h2; exact h2.2 h2.1.symm
    have e3 := Key.fs_inj hK.1 hJ.1 hK.2.1 hJ.2.1 (e1.symm.trans e2)
    subst e3
    have := h.ks.cons.2.2 n (by simp) _ _ hK hJ
    rw [keyLt_irrefl] at this; cases this

/-! ## Expanded polynomials -/

/-- An expanded polynomial. -/
def EP (r : Expr D) : Prop := ∃ L, EL L ∧ r = sumOf (L.map em)

theorem EP.unique {r s : Expr D} (h : EP r) (h' : EP s) (e : poly r = poly s) : r = s := by
  obtain ⟨L, hL, rfl⟩ := h
  obtain ⟨L', hL', rfl⟩ := h'
  rw [sumOf_poly, sumOf_poly] at e
  rw [hL.unique hL' e]

theorem EP.zero : EP (zero : Expr D) := ⟨[], EL.nil, rfl⟩

theorem EP.mono {m : Mono D} {K : Key} (h : m.1 ≠ 0) (hk : IsKey m.2 K) : EP (em m) := ⟨[m], EL.single h hk, rfl⟩

theorem EP.num (q : ℚ) : EP (.num (.rat q) : Expr D) := by
  by_cases h : q = 0
  · rw [h, ← zero_eq]; exact EP.zero
  · rw [num_mexpr]
    exact EP.mono (m := (q, [])) (K := []) h ⟨by simp [Key.Ok], by simp [Key.Sorted], rfl⟩

theorem EP.isSum {r : Expr D} (h : EP r) : r.isSum = true ↔ ¬ IsMon (poly r) := by
  obtain ⟨L, hL, rfl⟩ := h
  rw [sumOf_isSum (hL.sl (cfg := Cfg.std 0) (B := fun _ => True) (by simp)), sumOf_poly, decide_eq_true_eq]
  constructor
  · intro h hm; have := hL.isMon hm; omega
  · intro h
    match L, hL with
    | [], _ => exact absurd ⟨0, 0, by simp⟩ h
    | [m], hL =>
      obtain ⟨K, hK⟩ := hL.ks.key m (by simp)
      exact absurd ⟨_, _, by simp [hK.poly]; rfl⟩ h
    | _ :: _ :: _, _ => simp

theorem EP.polyE {r : Expr D} (h : EP r) : isPolyE r = true := by
  obtain ⟨L, hL, rfl⟩ := h
  exact sumOf_polyE (hL.sl (cfg := Cfg.std 0) (B := fun _ => True) (by simp))

theorem EP.isUndefined {r : Expr D} (h : EP r) : r.isUndefined = false := by
  obtain ⟨L, hL, rfl⟩ := h
  exact sumOf_isUndefined (hL.sl (cfg := Cfg.std 0) (B := fun _ => True) (by simp))

/-- Zero, or a monomial, or a sum. -/
theorem EP.cases {r : Expr D} (h : EP r) :
    r = Expr.zero ∨ (∃ m K, m.1 ≠ 0 ∧ IsKey m.2 K ∧ r = em m) ∨ ∃ L, EL L ∧ 2 ≤ L.length ∧ r = .sum (L.map em) := by
  obtain ⟨L, hL, rfl⟩ := h
  match L, hL with
  | [], _ => exact .inl rfl
  | [m], hL =>
    obtain ⟨K, hK⟩ := hL.ks.key m (by simp)
    exact .inr (.inl ⟨m, K, hL.ne m (by simp), hK, rfl⟩)
  | m :: n :: L, hL => exact .inr (.inr ⟨_, hL, by simp, rfl⟩)

theorem ep_lists {es : List (Expr D)} (h : ∀ e ∈ es, EP e) :
    ∃ Ls : List (List (Mono D)), (∀ L ∈ Ls, EL L) ∧ es = Ls.map fun L => sumOf (L.map em) := by
  induction es with
  | nil => exact ⟨[], by simp, rfl⟩
  | cons e es ih =>
    obtain ⟨Ls, h1, h2⟩ := ih fun x hx => h x (by simp [hx])
    obtain ⟨L, hL, hl⟩ := h e (by simp)
    exact ⟨L :: Ls, by simpa using ⟨hL, h1⟩, by rw [hl, h2]; rfl⟩

/-- The sum of expanded polynomials is expanded. -/
theorem tot_sum_ep (hc : cfg.Ok) {es : List (Expr D)} (hne : es ≠ []) (h : ∀ e ∈ es, EP e) :
    ∃ r, Tot cfg (fun E => sumCreate E es) r ∧ EP r ∧ poly r = (es.map poly).sum := by
  obtain ⟨Ls, h1, rfl⟩ := ep_lists h
  obtain ⟨R, hR, A⟩ := tot_sumCreate (B := fun _ => True) hc (Ls := Ls) (by simpa using hne) fun L hL => (h1 L hL).sl (by simp)
  refine ⟨_, hR, ⟨R, A.sl.el (A.ks fun L hL => (h1 L hL).ks), rfl⟩, ?_⟩
  rw [sumOf_poly, A.val, List.map_map]
  congr 1
  refine List.map_congr_left fun L _ => ?_
  simp [sumOf_poly]

/-- The result of expand. -/
def XE (cfg : Cfg D) (e : Expr D) : Prop := ∃ r, Tot cfg (fun E => expand E e) r ∧ EP r ∧ poly r = poly e

theorem tot_mapL_ex {α β : Type} {f : Eng D → α → M D β} {Q : α → β → Prop} {l : List α}
    (h : ∀ a ∈ l, ∃ b, Tot cfg (fun E => f E a) b ∧ Q a b) :
    ∃ bs, Tot cfg (fun E => M.mapL (f E) l) bs ∧ List.Forall₂ Q l bs := by
  induction l with
  | nil => exact ⟨[], tot_pure _, .nil⟩
  | cons a l ih =>
    obtain ⟨b, hb, hq⟩ := h a (by simp)
    obtain ⟨bs, hbs, hqs⟩ := ih fun x hx => h x (by simp [hx])
    exact ⟨b :: bs, tot_bind hb (tot_bind hbs (tot_pure _)), .cons hq hqs⟩

end Tsym
