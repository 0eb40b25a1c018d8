import Verif.PolyExp

set_option autoImplicit false
set_option linter.unusedSectionVars false
set_option linter.unusedSimpArgs false
set_option linter.unusedVariables false

/-!
# Expansion of products of polynomials
-/

namespace Tsym

open Expr

variable {D : Type} [Flt D] [ExactLt D] {cfg : Cfg D} {B : Expr D → Prop}

/-- Zero or a monomial in symbols. -/
def EM (e : Expr D) : Prop := EP e ∧ e.isSum = false

theorem EM.cases {e : Expr D} (h : EM e) : e = zero ∨ ∃ m K, m.1 ≠ 0 ∧ IsKey m.2 K ∧ e = em m := by
  rcases h.1.cases with h1 | h1 | ⟨L, _, _, rfl⟩
  · exact .inl h1
  · exact .inr h1
  · have := h.2; simp [Expr.isSum] at this

theorem EM.mono {m : Mono D} {K : Key} (h : m.1 ≠ 0) (hk : IsKey m.2 K) : EM (em m) := by
  refine ⟨EP.mono h hk, ?_⟩
  have hs := (EL.single h hk).sl (cfg := Cfg.std 0) (B := fun _ => True) (by simp)
  exact hs.cons.1.isSum

theorem IsKey.pfacs {P : List (Expr D × ℕ)} {K : Key} (h : IsKey P K) : PFacs cfg P := by rw [h.2.2]; exact h.1.pfacs

theorem EM.zero : EM (zero : Expr D) := ⟨EP.zero, rfl⟩

theorem poly_zero : poly (zero : Expr D) = 0 := by rw [zero_eq, poly_ratE]; simp
theorem poly_one : poly (one : Expr D) = 1 := by rw [one_eq, poly_ratE]; simp

theorem em_lists {A : List (Expr D)} (h : ∀ e ∈ A, EM e) (hz : ∀ e ∈ A, e ≠ zero) :
    ∃ (Ms : List (Mono D)) (K : Key), K.Ok ∧ (∀ m ∈ Ms, m.1 ≠ 0 ∧ PFacs cfg m.2) ∧ A = Ms.map em ∧ Ms.flatMap (·.2) = K.facs ∧
      (A.map poly).prod = MvPolynomial.C (Ms.map (·.1)).prod * pv poly (Ms.flatMap (·.2)) := by
  induction A with
  | nil => exact ⟨[], [], by simp [Key.Ok], by simp, rfl, rfl, by simp⟩
  | cons e A ih =>
    obtain ⟨Ms, K, h1, h2, h3, h4, h5⟩ := ih (fun x hx => h x (by simp [hx])) fun x hx => hz x (by simp [hx])
    rcases (h e (by simp)).cases with hh | ⟨m, J, hm, hJ, rfl⟩
    · exact absurd hh (hz e (by simp))
    · refine ⟨m :: Ms, J ++ K, ?_, ?_, by rw [h3]; rfl, ?_, ?_⟩
      · intro x hx
        rcases List.mem_append.1 hx with hx | hx
        exacts [hJ.1 x hx, h1 x hx]
      · intro n hn
        rcases List.mem_cons.1 hn with rfl | hn
        exacts [⟨hm, hJ.pfacs⟩, h2 n hn]
      · simp only [List.flatMap_cons, h4, hJ.2.2, Key.facs, List.map_append]
      · simp only [List.map_cons, List.prod_cons, h5, List.flatMap_cons, pv_append, em, mexpr_poly (cfg := Cfg.std 0) hJ.pfacs, map_mul]
        ring

theorem Norm.key_not_nx {K : Key} (hK : K.Ok) {R : List (Expr D × ℕ)} (h : Norm cfg K.facs R) (q : ℚ) : ¬ Nx q R := by
  obtain ⟨L, h1, h2, rfl⟩ := h.sorted K hK rfl
  rintro ⟨_, l, hl⟩
  match L with
  | [] => simp [Key.facs] at hl
  | [x] => simp [Key.facs] at hl
  | _ :: _ :: _ => simp [Key.facs] at hl

theorem prod_ne_zero {Ms : List (Mono D)} (h : ∀ m ∈ Ms, m.1 ≠ 0) : (Ms.map (·.1)).prod ≠ 0 := by
  refine List.prod_ne_zero fun h0 => ?_
  obtain ⟨m, hm, e⟩ := List.mem_map.1 h0
  exact h m hm e

/-- The product of monomials is a monomial. -/
theorem tot_prod_em (hc : cfg.Ok) {A : List (Expr D)} (hne : A ≠ []) (h : ∀ e ∈ A, EM e) :
    ∃ r, Tot cfg (fun E => prodCreate E A) r ∧ EM r ∧ poly r = (A.map poly).prod := by
  have hU : A.any isUndefined = false := by
    rw [List.any_eq_false]; intro e he; simp [(h e he).1.isUndefined]
  by_cases hz : ∀ e ∈ A, e ≠ zero
  · by_cases hl : A.length = 1
    · obtain ⟨x, rfl⟩ := List.length_eq_one_iff.1 hl
      refine ⟨x, ?_, h x (by simp), by simp⟩
      have hzx : x.isZero = false := by
        rcases (h x (by simp)).cases with hh | ⟨m, J, hm, hJ, rfl⟩
        · exact absurd hh (hz x (by simp))
        · exact mexpr_isZero hm (hJ.pfacs (cfg := cfg))
      unfold prodCreate
      simp only [hU, List.any_cons, List.any_nil, hzx, Bool.or_false, Bool.false_eq_true, if_false]
      exact tot_pure _
    · obtain ⟨Ms, K, h1, h2, h3, h4, h5⟩ := em_lists (cfg := cfg) h hz
      obtain ⟨R, hR, hT, _⟩ := tot_prodCreate hc h2 (by rw [h3] at hl; simpa using hl)
      have hR' := hR
      rw [h4] at hR'
      obtain ⟨L, hL, sL, eL⟩ := hR'.sorted K h1 rfl
      have hq := prod_ne_zero fun m hm => (h2 m hm).1
      generalize hqe : (Ms.map (·.1)).prod = q at hq h5 hT
      have hm : EM (mexpr q R) := EM.mono (m := (q, R)) (K := L) hq ⟨hL, sL, eL⟩
      refine ⟨_, by rw [h3]; exact hT (hR'.key_not_nx h1 _), hm, ?_⟩
      rw [mexpr_poly hR.facs, h5, hR.poly]
  · simp only [not_forall] at hz
    obtain ⟨e, he, h0⟩ := hz
    have h0 : e = zero := by simpa using h0
    subst h0
    have hZ : A.any isZero = true := by
      rw [List.any_eq_true]; exact ⟨_, he, by rw [zero_eq, isZero_ratE]; simp⟩
    refine ⟨zero, ?_, EM.zero, ?_⟩
    · unfold prodCreate
      simp only [hU, hZ, Bool.false_eq_true, if_false, if_true]; exact tot_pure _
    · rw [poly_zero]; symm
      rw [List.prod_eq_zero_iff]
      exact List.mem_map.2 ⟨_, he, poly_zero⟩

/-- What expanding the factors of a product gives. -/
theorem tot_defScalarAndSums {l : List (Expr D)} (h : ∀ e ∈ l, XE cfg e) :
    ∃ rs, List.Forall₂ (fun e r => Tot cfg (fun E => expand E e) r ∧ EP r ∧ poly r = poly e) l rs ∧
      Tot cfg (fun E => defScalarAndSums E l) (rs.filter (fun r => !r.isSum), rs.filter (fun r => r.isSum)) := by
  induction l with
  | nil => exact ⟨[], .nil, by simp only [defScalarAndSums]; exact tot_pure _⟩
  | cons e l ih =>
    obtain ⟨rs, h1, h2⟩ := ih fun x hx => h x (by simp [hx])
    obtain ⟨r, hr⟩ := h e (by simp)
    refine ⟨r :: rs, .cons hr h1, ?_⟩
    simp only [defScalarAndSums]
    refine tot_bind (tot_expand hr.1) (tot_bind h2 ?_)
    cases hs : r.isSum <;> simp only [hs, List.filter_cons, Bool.not_true, Bool.not_false, Bool.false_eq_true, if_true, if_false] <;>
      exact tot_pure _

theorem forall2_prod {l rs : List (Expr D)} {Q : Expr D → Expr D → Prop} (hQ : ∀ e r, Q e r → poly r = poly e)
    (h : List.Forall₂ Q l rs) : (rs.map poly).prod = (l.map poly).prod := by
  induction h with
  | nil => rfl
  | cons h _ ih => simp [ih, hQ _ _ h]

theorem filter_prod (rs : List (Expr D)) :
    ((rs.filter fun r => !r.isSum).map poly).prod * ((rs.filter fun r => r.isSum).map poly).prod = (rs.map poly).prod := by
  induction rs with
  | nil => simp
  | cons r rs ih =>
    rw [List.map_cons, List.prod_cons, ← ih]
    cases hs : r.isSum
    · simp only [hs, List.filter_cons, Bool.not_false, if_true, Bool.false_eq_true, if_false, List.map_cons, List.prod_cons]
      ring
    · simp only [hs, List.filter_cons, Bool.not_true, if_true, Bool.false_eq_true, if_false, List.map_cons, List.prod_cons]
      ring

theorem forall2_mem {α β : Type} {Q : α → β → Prop} {l : List α} {rs : List β} (h : List.Forall₂ Q l rs) :
    ∀ r ∈ rs, ∃ e ∈ l, Q e r := by
  induction h with
  | nil => simp
  | cons h _ ih =>
    intro r hr
    rcases List.mem_cons.1 hr with rfl | hr
    · exact ⟨_, by simp, h⟩
    · obtain ⟨e, he, hq⟩ := ih r hr
      exact ⟨e, by simp [he], hq⟩

theorem tot_scalar (hc : cfg.Ok) {A : List (Expr D)} (h : ∀ e ∈ A, EM e) :
    ∃ r, Tot cfg (fun E => if A.isEmpty then pure one else E.prodCreate A) r ∧ EM r ∧ poly r = (A.map poly).prod := by
  cases A with
  | nil =>
    refine ⟨one, by simp only [List.isEmpty_nil, if_true]; exact tot_pure _, ⟨?_, rfl⟩, by simp [poly_one]⟩
    rw [one_eq]; exact EP.num 1
  | cons a A =>
    obtain ⟨r, hr, h1, h2⟩ := tot_prod_em hc (by simp) h
    exact ⟨r, by simp only [List.isEmpty_cons, Bool.false_eq_true, if_false]; exact tot_prod hr, h1, h2⟩

/-- expandAsProduct if there are no sums. -/
theorem tot_expandAsProduct_nil {l : List (Expr D)} {A : List (Expr D)} {scalar : Expr D}
    (h1 : Tot cfg (fun E => defScalarAndSums E l) (A, []))
    (h2 : Tot cfg (fun E => if A.isEmpty then pure one else E.prodCreate A) scalar) :
    Tot cfg (fun E => expandAsProduct E l) scalar := by
  unfold expandAsProduct
  exact tot_bind h1 (tot_bind h2 (tot_pure _))

/-- expandAsProduct if the product of the sums is a sum. -/
theorem tot_expandAsProduct_cons {l : List (Expr D)} {A S ops : List (Expr D)} {s scalar : Expr D} {r : Expr D}
    (h1 : Tot cfg (fun E => defScalarAndSums E l) (A, s :: S))
    (h2 : Tot cfg (fun E => if A.isEmpty then pure one else E.prodCreate A) scalar)
    (h3 : Tot cfg (fun E => expandSums E s S) (.sum ops))
    (h4 : Tot cfg (fun E => expandScalarSum E scalar ops) r) : Tot cfg (fun E => expandAsProduct E l) r := by
  unfold expandAsProduct
  exact tot_bind h1 (tot_bind h2 (tot_bind h3 h4))

/-- Monomials are expanded. -/
theorem tot_expand_mono (hc : cfg.Ok) {m : Mono D} {K : Key} (hm : m.1 ≠ 0) (hk : IsKey m.2 K) :
    Tot cfg (fun E => expand E (em m)) (em m) := by
  have hfac : ∀ x : Sym × ℕ, x.1.id.Ok ∧ 1 ≤ x.2 → Tot cfg (fun E => expand E (symFac x)) (symFac x) := by
    intro x hx
    unfold symFac fac
    split
    · simp only [expand]; exact tot_pure _
    · rename_i h1
      have := tot_powCreate (cfg := cfg) (pbase_sym x.1) (k := x.2) (by omega)
      unfold fac at this
      simp only [if_neg h1] at this
      simp only [expand]
      refine tot_bind (tot_lift (a := true) ?_) ?_
      · simp [isInteger, int, numEval, bind, Except.bind, pure, Except.pure, Number.isInt, Number.isRational, Number.denominator]
      · simp only [if_true]; exact tot_pow this
  rcases mexpr_cases m.1 m.2 with ⟨h1, e⟩ | ⟨f, h1, hq, e⟩ | ⟨h1, hl, e⟩
  · rw [em, e]; simp only [expand]; exact tot_pure _
  · rw [em, e]
    have hK := hk.2.2
    rw [h1] at hK
    match K, hk with
    | [], _ => simp [Key.facs] at hK
    | [x], hk =>
      simp [Key.facs] at hK
      subst hK
      exact hfac x (hk.1 x (by simp))
    | _ :: _ :: _, _ => simp [Key.facs] at hK
  · have hx : ∀ e ∈ rl m.1 m.2, EM e ∧ Tot cfg (fun E => expand E e) e := by
      intro e he
      unfold rl at he
      rcases List.mem_append.1 he with he | he
      · split at he
        · simp at he
        · rw [List.mem_singleton.1 he]
          exact ⟨⟨EP.num _, rfl⟩, by simp only [expand]; exact tot_pure _⟩
      · rw [hk.2.2, Key.facs_map] at he
        obtain ⟨x, hx, rfl⟩ := List.mem_map.1 he
        refine ⟨?_, hfac x (hk.1 x hx)⟩
        have : (symFac x : Expr D) = em (1, Key.facs [x]) := by simp [em, mexpr, rl_one, prodOf, Key.facs, symFac]
        rw [this]
        refine EM.mono (K := [x]) (by simp) ⟨?_, by simp [Key.Sorted], rfl⟩
        intro y hy; rw [List.mem_singleton.1 hy]; exact hk.1 x hx
    obtain ⟨rs, f2, hT⟩ := tot_defScalarAndSums (cfg := cfg) (l := rl m.1 m.2) fun e he => ⟨e, (hx e he).2, (hx e he).1.1, rfl⟩
    have hrs : rs = rl m.1 m.2 := by
      have : ∀ (l rs : List (Expr D)), (∀ e ∈ l, Tot cfg (fun E => expand E e) e) →
          List.Forall₂ (fun e r => Tot cfg (fun E => expand E e) r ∧ EP r ∧ poly r = poly e) l rs → rs = l := by
        intro l rs hl h
        induction h with
        | nil => rfl
        | cons h _ ih => rw [ih fun x hx => hl x (by simp [hx]), (hl _ (by simp)).unique h.1]
      exact this _ _ (fun e he => (hx e he).2) f2
    subst hrs
    have f1 : (rl m.1 m.2).filter (fun r => !r.isSum) = rl m.1 m.2 := by
      rw [List.filter_eq_self]; intro e he; simp [(hx e he).1.2]
    have f0 : (rl m.1 m.2).filter (fun r => r.isSum) = [] := by
      rw [List.filter_eq_nil_iff]; intro e he; simp [(hx e he).1.2]
    rw [f1, f0] at hT
    obtain ⟨r, hr, h2, h3⟩ := tot_scalar hc fun e he => (hx e he).1
    have : r = em m := by
      refine h2.1.unique (EP.mono hm hk) ?_
      rw [h3, em, e, poly, polyProd_eq]
    subst this
    rw [show em m = _ from e] at hr ⊢
    simp only [expand]
    exact tot_expandAsProduct (tot_expandAsProduct_nil hT hr)

/-- Expanded polynomials stay as they are. -/
theorem tot_expand_ep (hc : cfg.Ok) {r : Expr D} (h : EP r) : Tot cfg (fun E => expand E r) r := by
  rcases h.cases with rfl | ⟨m, K, hm, hK, rfl⟩ | ⟨L, hL, h2, rfl⟩
  · rw [zero_eq]; simp only [expand]; exact tot_pure _
  · exact tot_expand_mono hc hm hK
  · simp only [expand]
    have hm : Tot cfg (fun E => M.mapL E.expand (L.map em)) (L.map em) := by
      have := tot_mapL (cfg := cfg) (f := fun E e => E.expand e) (g := id) (l := L.map em) (by
        intro a ha
        obtain ⟨m, hm, rfl⟩ := List.mem_map.1 ha
        obtain ⟨K, hK⟩ := hL.ks.key m hm
        exact tot_expand (tot_expand_mono hc (hL.ne m hm) hK))
      simpa using this
    obtain ⟨s, hs, es, ps⟩ := tot_sum_ep hc (es := L.map em) (by intro e; rw [List.map_eq_nil_iff.1 e] at h2; simp at h2) (by
      intro a ha
      obtain ⟨m, hm, rfl⟩ := List.mem_map.1 ha
      obtain ⟨K, hK⟩ := hL.ks.key m hm
      exact EP.mono (hL.ne m hm) hK)
    have : s = .sum (L.map em) := es.unique h (by rw [ps, poly, polySum_eq])
    subst this
    exact tot_bind hm (tot_sum hs)

theorem EP.xe (hc : cfg.Ok) {r : Expr D} (h : EP r) : XE cfg r := ⟨r, tot_expand_ep hc h, h, rfl⟩

theorem tot_expandScalarSum (hc : cfg.Ok) {scalar : Expr D} (hs : EM scalar) {L : List (Mono D)} (hL : EL L) (hne : L ≠ []) :
    ∃ r, Tot cfg (fun E => expandScalarSum E scalar (L.map em)) r ∧ EP r ∧ poly r = poly scalar * psum L := by
  obtain ⟨bs, hb, f2⟩ := tot_mapL_ex (cfg := cfg) (f := fun E item => (do
      let p ← E.prodCreate [scalar, item]
      E.expand p : M D (Expr D))) (l := L.map em) (Q := fun a b => EP b ∧ poly b = poly scalar * poly a) (by
    intro a ha
    obtain ⟨m, hm, rfl⟩ := List.mem_map.1 ha
    obtain ⟨K, hK⟩ := hL.ks.key m hm
    obtain ⟨r, hr, h1, h2⟩ := tot_prod_em hc (A := [scalar, em m]) (by simp) (by
      intro e he
      simp only [List.mem_cons, List.not_mem_nil, or_false] at he
      rcases he with rfl | rfl
      exacts [hs, EM.mono (hL.ne m hm) hK])
    exact ⟨r, tot_bind (tot_prod hr) (tot_expand (tot_expand_ep hc h1.1)), h1.1, by simpa using h2⟩)
  have hl : bs.length = (L.map (em : Mono D → Expr D)).length := f2.length_eq.symm
  obtain ⟨r, hr, er, pr⟩ := tot_sum_ep hc (es := bs) (by
    intro e; rw [e] at hl; simp at hl; exact hne (List.length_eq_zero_iff.1 hl.symm)) (fun e he => by
    obtain ⟨a, _, h⟩ := forall2_mem f2 e he; exact h.1)
  refine ⟨r, tot_bind hb (tot_sum hr), er, ?_⟩
  rw [pr]
  have : ∀ (l bs : List (Expr D)), List.Forall₂ (fun a b => EP b ∧ poly b = poly scalar * poly a) l bs →
      (bs.map poly).sum = poly scalar * (l.map poly).sum := by
    intro l bs h
    induction h with
    | nil => simp
    | cons h _ ih => simp only [List.map_cons, List.sum_cons, ih, h.2, mul_add]
  rw [this _ _ f2, psum, List.map_map]; rfl

/-- A product of expanded factors with at most one sum. -/
theorem tot_expand_one (hc : cfg.Ok) {l : List (Expr D)} (h : ∀ e ∈ l, EP e) (h1 : (l.filter fun r => r.isSum).length ≤ 1) :
    ∃ r, Tot cfg (fun E => expandAsProduct E l) r ∧ EP r ∧ poly r = (l.map poly).prod := by
  obtain ⟨rs, f2, hT⟩ := tot_defScalarAndSums (cfg := cfg) (l := l) fun e he => (h e he).xe hc
  have hrs : rs = l := by
    have : ∀ (l rs : List (Expr D)), (∀ e ∈ l, Tot cfg (fun E => expand E e) e) →
        List.Forall₂ (fun e r => Tot cfg (fun E => expand E e) r ∧ EP r ∧ poly r = poly e) l rs → rs = l := by
      intro l rs hl h
      induction h with
      | nil => rfl
      | cons h _ ih => rw [ih fun x hx => hl x (by simp [hx]), (hl _ (by simp)).unique h.1]
    exact this _ _ (fun e he => tot_expand_ep hc (h e he)) f2
  subst hrs
  obtain ⟨sc, hsc, e1, p1⟩ := tot_scalar hc (A := rs.filter fun r => !r.isSum) (fun e he => by
    rw [List.mem_filter] at he
    exact ⟨h e he.1, by simpa using he.2⟩)
  have fp := filter_prod rs
  rw [← p1] at fp
  match hS : rs.filter fun r => r.isSum with
  | [] =>
    rw [hS] at hT fp
    exact ⟨sc, tot_expandAsProduct_nil hT hsc, e1.1, by rw [← fp]; simp⟩
  | [s] =>
    rw [hS] at hT fp
    have hs : s ∈ rs.filter fun r => r.isSum := by rw [hS]; simp
    rw [List.mem_filter] at hs
    rcases (h s hs.1).cases with rfl | ⟨m, K, hm, hK, rfl⟩ | ⟨L, hL, h2, rfl⟩
    · simp [zero_eq, Expr.isSum] at hs
    · rw [(EM.mono hm hK).2] at hs; simp at hs
    · obtain ⟨r, hr, er, pr⟩ := tot_expandScalarSum hc e1 hL (by rintro rfl; simp at h2)
      refine ⟨r, tot_expandAsProduct_cons hT hsc (by simp only [expandSums]; exact tot_pure _) hr, er, ?_⟩
      rw [pr, ← fp]
      simp only [List.map_cons, List.map_nil, List.prod_cons, List.prod_nil, mul_one, poly, polySum_eq]
      congr 1
      rw [List.map_map]; rfl
  | _ :: _ :: _ => rw [hS] at h1; simp at h1

/-- Counts the sums among the bases. -/
def isSumBase : Expr D → Multiplicative ℕ
  | .sum _ => Multiplicative.ofAdd 1
  | _ => 1

theorem pv_sums {P : List (Expr D × ℕ)} (h : PFacs cfg P) :
    ((P.map fac).filter fun r => r.isSum).length ≤ (pv isSumBase P).toAdd := by
  induction P with
  | nil => simp
  | cons f P ih =>
    have ih := ih h.cons.2
    have h1 := h.cons.1.one_le
    rw [pv_cons, toAdd_mul, List.map_cons, List.filter_cons]
    split
    · rename_i hs
      rw [h.cons.1.isSum] at hs
      simp only [Bool.and_eq_true, decide_eq_true_eq] at hs
      have : isSumBase f.1 = Multiplicative.ofAdd 1 := by
        have := hs.2
        cases hb : f.1 <;> rw [hb] at this <;> simp [Expr.isSum] at this
        rfl
      rw [this, List.length_cons, toAdd_pow]
      simp only [toAdd_ofAdd, smul_eq_mul, mul_one]
      omega
    · omega

theorem key_sums (K : Key) : pv (isSumBase : Expr D → Multiplicative ℕ) K.facs = 1 := by
  induction K with
  | nil => rfl
  | cons x K ih => simp only [Key.facs, List.map_cons, pv_cons] at ih ⊢; rw [ih]; simp [isSumBase]

/-- A monomial times a sum, expanded. -/
theorem tot_item (hc : cfg.Ok) {m : Mono D} {K : Key} (hm : m.1 ≠ 0) (hk : IsKey m.2 K) {L : List (Mono D)} (hL : EL L)
    (h2 : 2 ≤ L.length) :
    ∃ p r, Tot cfg (fun E => prodCreate E [em m, .sum (L.map em)]) p ∧ Tot cfg (fun E => expand E p) r ∧ EP r ∧
      poly r = poly (em m) * psum L := by
  have eS : EP (.sum (L.map em) : Expr D) := ⟨L, hL, by match L, h2 with | _ :: _ :: _, _ => rfl⟩
  have bS : PBase cfg (.sum (L.map em) : Expr D) := pbase_sum (B := fun _ => True) (hL.sl (by simp)) h2
  have pS : poly (.sum (L.map em) : Expr D) = psum L := by rw [poly, polySum_eq, List.map_map]; rfl
  have fS : PFacs cfg [((.sum (L.map em) : Expr D), 1)] := by
    intro f hf; rw [List.mem_singleton.1 hf]; exact ⟨bS, le_refl 1⟩
  obtain ⟨R, hR, t1, t2⟩ := tot_prodCreate hc (Ms := [m, (1, [(.sum (L.map em), 1)])]) (by
    intro n hn
    simp only [List.mem_cons, List.not_mem_nil, or_false] at hn
    rcases hn with rfl | rfl
    exacts [⟨hm, hk.pfacs⟩, ⟨one_ne_zero, fS⟩]) (by simp)
  have hms : (.sum (L.map em) : Expr D) = mexpr 1 [(.sum (L.map em), 1)] := by simp [mexpr, rl_one, prodOf, fac]
  simp only [List.map_cons, List.map_nil, List.prod_cons, List.prod_nil, mul_one, List.flatMap_cons, List.flatMap_nil,
    List.append_nil, ← hms] at hR t1 t2
  have t1 : ¬ Nx m.1 R → Tot cfg (fun E => prodCreate E [em m, .sum (L.map em)]) (mexpr m.1 R) := t1
  have t2 : Nx m.1 R → ∀ r, Tot cfg (fun E => expandAsProduct E (rl m.1 R)) r →
      Tot cfg (fun E => prodCreate E [em m, .sum (L.map em)]) r := t2
  have hcount : ((R.map fac).filter fun r => r.isSum).length ≤ 1 := by
    refine (pv_sums hR.facs).trans ?_
    rw [← hR.same, pv_append, hk.2.2, key_sums]
    simp [isSumBase]
  have hep : ∀ e ∈ rl m.1 R, EP e := by
    intro e he
    unfold rl at he
    rcases List.mem_append.1 he with he | he
    · split at he
      · simp at he
      · rw [List.mem_singleton.1 he]; exact EP.num _
    · obtain ⟨f, hf, rfl⟩ := List.mem_map.1 he
      have h1 := (hR.facs f hf).one_le
      obtain ⟨g, hg, e1⟩ := hR.sub f hf
      rcases List.mem_append.1 hg with hg | hg
      · rw [hk.2.2] at hg
        obtain ⟨x, hx, rfl⟩ := List.mem_map.1 hg
        obtain ⟨b, k⟩ := f
        simp only at e1 h1
        subst e1
        have : fac ((.sym x.1 : Expr D), k) = em (1, Key.facs [(x.1, k)]) := by simp [em, mexpr, rl_one, prodOf, Key.facs]
        rw [this]
        refine EP.mono (K := [(x.1, k)]) (by simp) ⟨?_, by simp [Key.Sorted], rfl⟩
        intro y hy; rw [List.mem_singleton.1 hy]; exact ⟨(hk.1 x hx).1, h1⟩
      · rw [List.mem_singleton.1 hg] at e1
        obtain ⟨b, k⟩ := f
        simp only at e1 h1
        subst e1
        have hk1 : k = 1 := by
          have h3 : pv isSumBase R = Multiplicative.ofAdd 1 := by
            rw [← hR.same, pv_append, hk.2.2, key_sums]; simp [isSumBase]
          have h4 : ∀ (P : List (Expr D × ℕ)), ((.sum (L.map em) : Expr D), k) ∈ P → k ≤ (pv isSumBase P).toAdd := by
            intro P hP
            induction P with
            | nil => simp at hP
            | cons f P ih =>
              rw [pv_cons, toAdd_mul]
              rcases List.mem_cons.1 hP with h | h
              · rw [← h, toAdd_pow]
                simp only [isSumBase, toAdd_ofAdd, smul_eq_mul, mul_one]; omega
              · have := ih h; omega
          have := h4 R hf
          rw [h3] at this
          simp at this
          omega
        subst hk1
        simp only [fac, if_true]; exact eS
  have hcount' : ((rl m.1 R).filter fun r => r.isSum).length ≤ 1 := by
    unfold rl
    split
    · simpa using hcount
    · simpa [List.filter_cons, Expr.isSum] using hcount
  obtain ⟨r, hr, er, pr⟩ := tot_expand_one hc hep hcount'
  have pr' : poly r = poly (em m) * psum L := by
    rw [pr, ← polyProd_eq, polyProd_rl hR.facs, hR.poly, pv_append, em, mexpr_poly (hk.pfacs (cfg := cfg))]
    simp [pS]; ring
  by_cases hn : Nx m.1 R
  · exact ⟨r, r, t2 hn r hr, tot_expand_ep hc er, er, pr'⟩
  · rcases mexpr_cases m.1 R with ⟨e1, e⟩ | ⟨f, e1, e2, e⟩ | ⟨e1, e2, e⟩
    · have := (hR.nil_iff (by
        intro f hf
        rcases List.mem_append.1 hf with hf | hf
        exacts [hk.pfacs f hf, fS f hf])).2 e1
      simp at this
    · have hf : EP (fac f) := hep _ (by rw [e1, e2, rl_one]; simp)
      refine ⟨fac f, fac f, by rw [← e]; exact t1 hn, tot_expand_ep hc hf, hf, ?_⟩
      rw [← pr', pr, e1, e2, rl_one]; simp
    · refine ⟨.prod (rl m.1 R), r, by rw [← e]; exact t1 hn, ?_, er, pr'⟩
      simp only [expand]
      exact tot_expandAsProduct hr

/-- Products of sums. -/
theorem tot_expandSums (hc : cfg.Ok) {S : List (Expr D)} (hS : ∀ s ∈ S, EP s ∧ s.isSum = true) :
    ∀ {first : Expr D}, EP first → first.isSum = true →
    ∃ r, Tot cfg (fun E => expandSums E first S) r ∧ EP r ∧ r.isSum = true ∧ poly r = poly first * (S.map poly).prod := by
  induction S with
  | nil => intro first h1 h2; exact ⟨first, by simp only [expandSums]; exact tot_pure _, h1, h2, by simp⟩
  | cons s S ih =>
    intro first h1 h2
    have ih := @ih fun x hx => hS x (by simp [hx])
    obtain ⟨es, hs⟩ := hS s (by simp)
    rcases h1.cases with rfl | ⟨m, K, hm, hK, rfl⟩ | ⟨L, hL, hl, rfl⟩
    · simp [zero_eq, Expr.isSum] at h2
    · rw [(EM.mono hm hK).2] at h2; simp at h2
    rcases es.cases with rfl | ⟨m, K, hm, hK, rfl⟩ | ⟨L', hL', hl', rfl⟩
    · simp [zero_eq, Expr.isSum] at hs
    · rw [(EM.mono hm hK).2] at hs; simp at hs
    have pS : ∀ L : List (Mono D), poly (.sum (L.map em) : Expr D) = psum L := fun L => by rw [poly, polySum_eq, List.map_map]; rfl
    obtain ⟨bs, hb, f2⟩ := tot_mapL_ex (cfg := cfg) (f := fun E item => (do
        let p ← E.prodCreate [item, .sum (L'.map em)]
        E.expand p : M D (Expr D))) (l := L.map em) (Q := fun a b => EP b ∧ poly b = poly a * psum L') (by
      intro a ha
      obtain ⟨m, hm, rfl⟩ := List.mem_map.1 ha
      obtain ⟨K, hK⟩ := hL.ks.key m hm
      obtain ⟨p, r, hp, hr, er, pr⟩ := tot_item hc (hL.ne m hm) hK hL' hl'
      exact ⟨r, tot_bind (tot_prod hp) (tot_expand hr), er, pr⟩)
    have hlen : bs.length = (L.map (em : Mono D → Expr D)).length := f2.length_eq.symm
    obtain ⟨t, ht, et, pt⟩ := tot_sum_ep hc (es := bs) (by
      intro e; rw [e] at hlen; simp at hlen; rw [← hlen] at hl; simp at hl) (fun e he => by
      obtain ⟨a, _, h⟩ := forall2_mem f2 e he; exact h.1)
    have pt' : poly t = psum L * psum L' := by
      rw [pt]
      have : ∀ (l bs : List (Expr D)), List.Forall₂ (fun a b => EP b ∧ poly b = poly a * psum L') l bs →
          (bs.map poly).sum = (l.map poly).sum * psum L' := by
        intro l bs h
        induction h with
        | nil => simp
        | cons h _ ih => simp only [List.map_cons, List.sum_cons, ih, h.2, add_mul]
      rw [this _ _ f2, psum, List.map_map]; rfl
    have st : t.isSum = true := by
      rw [et.isSum, pt']
      intro hm
      rcases hm.of_mul with hm | hm
      · have := hL.isMon hm; omega
      · have := hL'.isMon hm; omega
    obtain ⟨r, hr, er, sr, pr⟩ := ih et st
    refine ⟨r, ?_, er, sr, ?_⟩
    · simp only [expandSums]
      refine tot_bind (tot_logIf (by rw [h2]; rfl)) (tot_bind hb (tot_bind (tot_sum ht) hr))
    · rw [pr, pt', List.map_cons, List.prod_cons, pS, pS, mul_assoc]

/-- Products of polynomials are expanded. -/
theorem tot_expandAsProduct_xe (hc : cfg.Ok) {l : List (Expr D)} (h : ∀ e ∈ l, XE cfg e) :
    ∃ r, Tot cfg (fun E => expandAsProduct E l) r ∧ EP r ∧ poly r = (l.map poly).prod := by
  obtain ⟨rs, f2, hT⟩ := tot_defScalarAndSums (cfg := cfg) h
  have hrs : ∀ r ∈ rs, EP r := fun r hr => by obtain ⟨e, _, h⟩ := forall2_mem f2 r hr; exact h.2.1
  have hp := forall2_prod (fun e r h => h.2.2) f2
  obtain ⟨sc, hsc, e1, p1⟩ := tot_scalar hc (A := rs.filter fun r => !r.isSum) (fun e he => by
    rw [List.mem_filter] at he
    exact ⟨hrs e he.1, by simpa using he.2⟩)
  have fp := filter_prod rs
  rw [← p1, hp] at fp
  match hS : rs.filter fun r => r.isSum with
  | [] =>
    rw [hS] at hT fp
    exact ⟨sc, tot_expandAsProduct_nil hT hsc, e1.1, by rw [← fp]; simp⟩
  | s :: S =>
    rw [hS] at hT fp
    have hs : ∀ x ∈ s :: S, EP x ∧ x.isSum = true := by
      intro x hx
      rw [← hS, List.mem_filter] at hx
      exact ⟨hrs x hx.1, hx.2⟩
    obtain ⟨t, ht, et, st, pt⟩ := tot_expandSums hc (S := S) (fun x hx => hs x (by simp [hx])) (hs s (by simp)).1 (hs s (by simp)).2
    rcases et.cases with rfl | ⟨m, K, hm, hK, rfl⟩ | ⟨L, hL, h2, rfl⟩
    · simp [zero_eq, Expr.isSum] at st
    · rw [(EM.mono hm hK).2] at st; simp at st
    · obtain ⟨r, hr, er, pr⟩ := tot_expandScalarSum hc e1 hL (by rintro rfl; simp at h2)
      refine ⟨r, tot_expandAsProduct_cons hT hsc ht hr, er, ?_⟩
      rw [pr, ← fp, List.map_cons, List.prod_cons, ← pt]
      congr 1
      rw [poly, polySum_eq, List.map_map]; rfl

end Tsym
