import Verif.ZExp

set_option autoImplicit false
set_option linter.unusedSectionVars false
set_option linter.unusedSimpArgs false
set_option linter.unusedVariables false

/-!
# Expansion of products of Laurent polynomials
-/

namespace Tsym

namespace Zf

open Expr
open scoped Classical

variable {D : Type} [Flt D] [LawfulFlt D] {cfg : Cfg D} {K : List (Expr D × ℤ) → Prop}

theorem em_lists (hK : Kl cfg K) {A : List (Expr D)} (h : ∀ e ∈ A, EM cfg K e) (hz : ∀ e ∈ A, e ≠ zero) :
    ∃ Ms : List (Mo D), (∀ m ∈ Ms, m.1 ≠ 0 ∧ Can cfg m.2 ∧ K m.2) ∧ A = Ms.map em ∧
      (A.map (lv cfg)).prod = AddMonoidAlgebra.single (cnt (Ms.flatMap (·.2))) (Ms.map (·.1)).prod := by
  induction A with
  | nil => exact ⟨[], by simp, rfl, by simp; rfl⟩
  | cons e A ih =>
    obtain ⟨Ms, h1, h2, h3⟩ := ih (fun x hx => h x (by simp [hx])) fun x hx => hz x (by simp [hx])
    rcases (h e (by simp)).cases with hh | ⟨m, hm, hC, hk, rfl⟩
    · exact absurd hh (hz e (by simp))
    · refine ⟨m :: Ms, ?_, by rw [h2]; rfl, ?_⟩
      · intro n hn
        rcases List.mem_cons.1 hn with rfl | hn
        exacts [⟨hm, hC, hk⟩, h1 n hn]
      · rw [List.map_cons, List.prod_cons, h3, lv_em (hK.sm hm hC hk), List.flatMap_cons, cnt_append, List.map_cons, List.prod_cons,
          AddMonoidAlgebra.single_mul_single]

theorem prod_ne_zero {Ms : List (Mo D)} (h : ∀ m ∈ Ms, m.1 ≠ 0) : (Ms.map (·.1)).prod ≠ 0 := by
  refine List.prod_ne_zero fun h0 => ?_
  obtain ⟨m, hm, e⟩ := List.mem_map.1 h0
  exact h m hm e

/-- The product of monomials is a monomial. -/
theorem tot_prod_em (hc : cfg.Ok) (hK : Kl cfg K) {A : List (Expr D)} (hne : A ≠ []) (h : ∀ e ∈ A, EM cfg K e) :
    ∃ r, Tot cfg (fun E => prodCreate E A) r ∧ EM cfg K r ∧ lv cfg r = (A.map (lv cfg)).prod := by
  have hU : A.any isUndefined = false := by
    rw [List.any_eq_false]; intro e he; simp [(h e he).1.isUndefined]
  by_cases hz : ∀ e ∈ A, e ≠ zero
  · by_cases hl : A.length = 1
    · obtain ⟨x, rfl⟩ := List.length_eq_one_iff.1 hl
      refine ⟨x, ?_, h x (by simp), by simp⟩
      have hzx : x.isZero = false := by
        rcases (h x (by simp)).cases with hh | ⟨m, hm, hC, hk, rfl⟩
        · exact absurd hh (hz x (by simp))
        · exact mexpr_isZero hm hC.facs
      unfold prodCreate
      simp only [hU, List.any_cons, List.any_nil, hzx, Bool.or_false, Bool.false_eq_true, if_false]
      exact tot_pure _
    · obtain ⟨Ms, h1, h2, h3⟩ := em_lists hK h hz
      obtain ⟨R, hR, hT, _⟩ := tot_prodCreate hc (Ms := Ms) (fun m hm => ⟨(h1 m hm).1, (h1 m hm).2.1.facs⟩)
        (by rw [h2] at hl; simpa using hl)
      have hq := prod_ne_zero fun m hm => (h1 m hm).1
      have hKR : K R := by
        refine hK.app (Ps := Ms.map (·.2)) ?_ (by rwa [← List.flatMap_def])
        intro P hP
        obtain ⟨m, hm, rfl⟩ := List.mem_map.1 hP
        exact (h1 m hm).2
      generalize hqe : (Ms.map (·.1)).prod = q at hq h3 hT
      refine ⟨_, by rw [h2]; exact hT (hK.not_nx hKR _), EM.mono hK (m := (q, R)) hq hR.can hKR, ?_⟩
      rw [h3, ← hR.cnt]
      exact lv_em (m := (q, R)) (hK.sm hq hR.can hKR)
  · simp only [not_forall] at hz
    obtain ⟨e, he, h0⟩ := hz
    have h0 : e = zero := by simpa using h0
    subst h0
    have hZ : A.any isZero = true := by
      rw [List.any_eq_true]; exact ⟨_, he, by rw [zero_eq, isZero_ratE]; simp⟩
    refine ⟨zero, ?_, EM.zero, ?_⟩
    · unfold prodCreate
      simp only [hU, hZ, Bool.false_eq_true, if_false, if_true]; exact tot_pure _
    · rw [lv_zero]; symm
      rw [List.prod_eq_zero_iff]
      exact List.mem_map.2 ⟨_, he, lv_zero⟩

/-- What expanding the factors of a product gives. -/
theorem tot_defScalarAndSums {l : List (Expr D)} {Q : Expr D → Expr D → Prop}
    (h : ∀ e ∈ l, ∃ r, Tot cfg (fun E => expand E e) r ∧ Q e r) :
    ∃ rs, List.Forall₂ (fun e r => Tot cfg (fun E => expand E e) r ∧ Q e r) l rs ∧
      Tot cfg (fun E => defScalarAndSums E l) (rs.filter (fun r => !r.isSum), rs.filter (fun r => r.isSum)) := by
  induction l with
  | nil => exact ⟨[], .nil, by simp only [defScalarAndSums]; exact tot_pure _⟩
  | cons e l ih =>
    obtain ⟨rs, h1, h2⟩ := ih fun x hx => h x (by simp [hx])
    obtain ⟨r, hr⟩ := h e (by simp)
    refine ⟨r :: rs, .cons hr h1, ?_⟩
    simp only [defScalarAndSums]
    refine tot_bind (tot_expand hr.1) (tot_bind h2 ?_)
    cases hs : r.isSum <;> simp only [hs, List.filter_cons, Bool.not_true, Bool.not_false, Bool.false_eq_true, if_true, if_false] <;>
      exact tot_pure _

theorem filter_prod (f : Expr D → Lr D) (rs : List (Expr D)) :
    ((rs.filter fun r => !r.isSum).map f).prod * ((rs.filter fun r => r.isSum).map f).prod = (rs.map f).prod := by
  induction rs with
  | nil => simp
  | cons r rs ih =>
    rw [List.map_cons, List.prod_cons, ← ih]
    cases hs : r.isSum
    · simp only [hs, List.filter_cons, Bool.not_false, if_true, Bool.false_eq_true, if_false, List.map_cons, List.prod_cons]
      ring
    · simp only [hs, List.filter_cons, Bool.not_true, if_true, Bool.false_eq_true, if_false, List.map_cons, List.prod_cons]
      ring

theorem tot_scalar (hc : cfg.Ok) (hK : Kl cfg K) {A : List (Expr D)} (h : ∀ e ∈ A, EM cfg K e) :
    ∃ r, Tot cfg (fun E => if A.isEmpty then pure one else E.prodCreate A) r ∧ EM cfg K r ∧ lv cfg r = (A.map (lv cfg)).prod := by
  cases A with
  | nil =>
    refine ⟨one, by simp only [List.isEmpty_nil, if_true]; exact tot_pure _, ?_, by simp [lv_one]⟩
    rw [one_eq]; exact EM.num hK 1
  | cons a A =>
    obtain ⟨r, hr, h1, h2⟩ := tot_prod_em hc hK (by simp) h
    exact ⟨r, by simp only [List.isEmpty_cons, Bool.false_eq_true, if_false]; exact tot_prod hr, h1, h2⟩

theorem Sb.cons {f : Expr D × ℤ} {P : List (Expr D × ℤ)} (h : Sb (f :: P)) : Sb [f] ∧ Sb P :=
  ⟨fun g hg => by rw [List.mem_singleton.1 hg]; exact h f (by simp), fun g hg => h g (by simp [hg])⟩

theorem isInteger_int (k : ℤ) : isInteger (int k : Expr D) = .ok true := by
  simp [isInteger, int, numEval, bind, Except.bind, pure, Except.pure, Number.isInt, Number.isRational, Number.denominator]

/-- Powers of symbols are expanded. -/
theorem tot_expand_symfac {f : Expr D × ℤ} (h : ZF cfg f) (hs : Sb [f]) : Tot cfg (fun E => expand E (fac f)) (fac f) := by
  obtain ⟨s, e⟩ := hs f (by simp)
  have ht := tot_powCreate h.base f.2
  unfold fac0 at ht
  rw [if_neg h.ne] at ht
  unfold fac at ht ⊢
  split
  · rw [e]; simp only [expand]; exact tot_pure _
  · rename_i h1
    rw [if_neg h1] at ht
    rw [e] at ht ⊢
    simp only [expand]
    refine tot_bind (tot_lift (a := true) (isInteger_int _)) ?_
    simp only [if_true]; exact tot_pow ht

/-- Monomials in symbols are expanded. -/
theorem tot_expand_mono (hc : cfg.Ok) {m : Mo D} (hm : m.1 ≠ 0) (hC : Can cfg m.2) (hs : Sb m.2) :
    Tot cfg (fun E => expand E (em m)) (em m) := by
  rcases mexpr_cases m.1 m.2 with ⟨h1, e⟩ | ⟨f, h1, hq, e⟩ | ⟨h1, hl, e⟩
  · rw [em, e]; simp only [expand]; exact tot_pure _
  · rw [em, e]
    rw [h1] at hC hs
    exact tot_expand_symfac hC.cons.1 hs
  · have hx : ∀ e ∈ rl m.1 m.2, EM cfg Sb e ∧ Tot cfg (fun E => expand E e) e := by
      intro e he
      unfold rl at he
      rcases List.mem_append.1 he with he | he
      · split at he
        · simp at he
        · rw [List.mem_singleton.1 he]
          exact ⟨EM.num kl_sb _, by simp only [expand]; exact tot_pure _⟩
      · obtain ⟨f, hf, rfl⟩ := List.mem_map.1 he
        have hf1 : Sb [f] := fun g hg => by rw [List.mem_singleton.1 hg]; exact hs f hf
        refine ⟨?_, tot_expand_symfac (hC.facs f hf) hf1⟩
        rw [fac_mexpr]
        exact EM.mono kl_sb (m := (1, [f])) one_ne_zero (Can.single (hC.facs f hf)) hf1
    obtain ⟨rs, f2, hT⟩ := tot_defScalarAndSums (cfg := cfg) (l := rl m.1 m.2) (Q := fun _ _ => True) fun e he => ⟨e, (hx e he).2, trivial⟩
    have hrs : rs = rl m.1 m.2 := by
      have : ∀ (l rs : List (Expr D)), (∀ e ∈ l, Tot cfg (fun E => expand E e) e) →
          List.Forall₂ (fun e r => Tot cfg (fun E => expand E e) r ∧ True) l rs → rs = l := by
        intro l rs hl h
        induction h with
        | nil => rfl
        | cons h _ ih => rw [ih fun x hx => hl x (by simp [hx]), (hl _ (by simp)).unique h.1]
      exact this _ _ (fun e he => (hx e he).2) f2
    subst hrs
    have f1 : (rl m.1 m.2).filter (fun r => !r.isSum) = rl m.1 m.2 := by
      rw [List.filter_eq_self]; intro e he; simp [(hx e he).1.2]
    have f0 : (rl m.1 m.2).filter (fun r => r.isSum) = [] := by
      rw [List.filter_eq_nil_iff]; intro e he; simp [(hx e he).1.2]
    rw [f1, f0] at hT
    obtain ⟨r, hr, h2, h3⟩ := tot_scalar hc kl_sb fun e he => (hx e he).1
    have : r = em m := by
      refine h2.1.unique (EP.mono kl_sb hm hC hs) ?_
      rw [h3, lv_em (kl_sb.sm hm hC hs)]
      have hP : ∀ P : List (Expr D × ℤ), Can cfg P → Sb P → ((P.map fac).map (lv cfg)).prod = AddMonoidAlgebra.single (cnt P) 1 := by
        intro P h1 h2
        induction P with
        | nil => rfl
        | cons f P ih =>
          rw [List.map_cons, List.map_cons, List.prod_cons, ih h1.cons.2.1 h2.cons.2, fac_mexpr]
          have := lv_em (m := ((1 : ℚ), [f])) (kl_sb.sm one_ne_zero (Can.single h1.cons.1) h2.cons.1)
          rw [show mexpr 1 [f] = em ((1 : ℚ), [f]) from rfl, this, AddMonoidAlgebra.single_mul_single]
          simp
      unfold rl
      split
      · rename_i hq; rw [List.nil_append, hP _ hC hs, hq]
      · rw [List.map_append, List.prod_append, hP _ hC hs]
        simp [lv_num, AddMonoidAlgebra.single_mul_single]
    subst this
    rw [show em m = _ from e] at hr ⊢
    simp only [expand]
    exact tot_expandAsProduct (tot_expandAsProduct_nil hT hr)

/-- Expanded Laurent polynomials stay as they are. -/
theorem tot_expand_ep (hc : cfg.Ok) {r : Expr D} (h : EP cfg Sb r) : Tot cfg (fun E => expand E r) r := by
  rcases h.cases with rfl | ⟨m, hm, hC, hs, rfl⟩ | ⟨L, hL, h2, rfl⟩
  · rw [zero_eq]; simp only [expand]; exact tot_pure _
  · exact tot_expand_mono hc hm hC hs
  · simp only [expand]
    have hm : Tot cfg (fun E => M.mapL E.expand (L.map em)) (L.map em) := by
      have := tot_mapL (cfg := cfg) (f := fun E e => E.expand e) (g := id) (l := L.map em) (by
        intro a ha
        obtain ⟨m, hm, rfl⟩ := List.mem_map.1 ha
        exact tot_expand (tot_expand_mono hc (hL.sl.sm m hm).ne (hL.sl.sm m hm).can (hL.sb m hm)))
      simpa using this
    obtain ⟨s, hs, es, ps⟩ := tot_sum_ep hc (es := L.map em) (K := Sb)
      (by intro e; rw [List.map_eq_nil_iff.1 e] at h2; simp at h2) (by
      intro a ha
      obtain ⟨m, hm, rfl⟩ := List.mem_map.1 ha
      exact EP.mono kl_sb (hL.sl.sm m hm).ne (hL.sl.sm m hm).can (hL.sb m hm))
    have : s = .sum (L.map em) := es.unique h (by
      rw [ps, lv_sum hL.sl h2]
      have : ∀ L : List (Mo D), SL cfg L → ((L.map em).map (lv cfg)).sum = rv L := by
        intro L h
        induction L with
        | nil => simp
        | cons m L ih => rw [List.map_cons, List.map_cons, List.sum_cons, ih h.cons.2.1, lv_em h.cons.1, rv_cons]
      exact this L hL.sl)
    subst this
    exact tot_bind hm (tot_sum hs)

/-- An expression that expands to a Laurent polynomial. -/
def XE (cfg : Cfg D) (e : Expr D) : Prop := ∃ r, Tot cfg (fun E => expand E e) r ∧ EP cfg Sb r

theorem EP.xe (hc : cfg.Ok) {r : Expr D} (h : EP cfg Sb r) : XE cfg r := ⟨r, tot_expand_ep hc h, h⟩

theorem rv_sum {L : List (Mo D)} (h : SL cfg L) : ((L.map em).map (lv cfg)).sum = rv L := by
  induction L with
  | nil => simp
  | cons m L ih => rw [List.map_cons, List.map_cons, List.sum_cons, ih h.cons.2.1, lv_em h.cons.1, rv_cons]

theorem tot_expandScalarSum (hc : cfg.Ok) {scalar : Expr D} (hs : EM cfg Sb scalar) {L : List (Mo D)} (hL : EL cfg Sb L) (hne : L ≠ []) :
    ∃ r, Tot cfg (fun E => expandScalarSum E scalar (L.map em)) r ∧ EP cfg Sb r ∧ lv cfg r = lv cfg scalar * rv L := by
  obtain ⟨bs, hb, f2⟩ := tot_mapL_ex (cfg := cfg) (f := fun E item => (do
      let p ← E.prodCreate [scalar, item]
      E.expand p : M D (Expr D))) (l := L.map em) (Q := fun a b => EP cfg Sb b ∧ lv cfg b = lv cfg scalar * lv cfg a) (by
    intro a ha
    obtain ⟨m, hm, rfl⟩ := List.mem_map.1 ha
    obtain ⟨r, hr, h1, h2⟩ := tot_prod_em hc kl_sb (A := [scalar, em m]) (by simp) (by
      intro e he
      simp only [List.mem_cons, List.not_mem_nil, or_false] at he
      rcases he with rfl | rfl
      exacts [hs, EM.mono kl_sb (hL.sl.sm m hm).ne (hL.sl.sm m hm).can (hL.sb m hm)])
    exact ⟨r, tot_bind (tot_prod hr) (tot_expand (tot_expand_ep hc h1.1)), h1.1, by simpa using h2⟩)
  have hl : bs.length = (L.map (em : Mo D → Expr D)).length := f2.length_eq.symm
  obtain ⟨r, hr, er, pr⟩ := tot_sum_ep hc (es := bs) (K := Sb) (by
    intro e; rw [e] at hl; simp at hl; exact hne (List.length_eq_zero_iff.1 hl.symm)) (fun e he => by
    obtain ⟨a, _, h⟩ := forall2_mem f2 e he; exact h.1)
  refine ⟨r, tot_bind hb (tot_sum hr), er, ?_⟩
  rw [pr]
  have : ∀ (l bs : List (Expr D)), List.Forall₂ (fun a b => EP cfg Sb b ∧ lv cfg b = lv cfg scalar * lv cfg a) l bs →
      (bs.map (lv cfg)).sum = lv cfg scalar * (l.map (lv cfg)).sum := by
    intro l bs h
    induction h with
    | nil => simp
    | cons h _ ih => simp only [List.map_cons, List.sum_cons, ih, h.2, mul_add]
  rw [this _ _ f2, rv_sum hL.sl]

/-- A product of expanded factors with at most one sum. -/
theorem tot_expand_one (hc : cfg.Ok) {l : List (Expr D)} (h : ∀ e ∈ l, EP cfg Sb e) (h1 : (l.filter fun r => r.isSum).length ≤ 1) :
    ∃ r, Tot cfg (fun E => expandAsProduct E l) r ∧ EP cfg Sb r ∧ lv cfg r = (l.map (lv cfg)).prod := by
  obtain ⟨rs, f2, hT⟩ := tot_defScalarAndSums (cfg := cfg) (l := l) (Q := fun _ _ => True) fun e he =>
    ⟨e, tot_expand_ep hc (h e he), trivial⟩
  have hrs : rs = l := by
    have : ∀ (l rs : List (Expr D)), (∀ e ∈ l, Tot cfg (fun E => expand E e) e) →
        List.Forall₂ (fun e r => Tot cfg (fun E => expand E e) r ∧ True) l rs → rs = l := by
      intro l rs hl h
      induction h with
      | nil => rfl
      | cons h _ ih => rw [ih fun x hx => hl x (by simp [hx]), (hl _ (by simp)).unique h.1]
    exact this _ _ (fun e he => tot_expand_ep hc (h e he)) f2
  subst hrs
  obtain ⟨sc, hsc, e1, p1⟩ := tot_scalar hc (K := Sb) kl_sb (A := rs.filter fun r => !r.isSum) (fun e he => by
    rw [List.mem_filter] at he
    exact ⟨h e he.1, by simpa using he.2⟩)
  have fp := filter_prod (lv cfg) rs
  rw [← p1] at fp
  match hS : rs.filter fun r => r.isSum with
  | [] =>
    rw [hS] at hT fp
    exact ⟨sc, tot_expandAsProduct_nil hT hsc, e1.1, by rw [← fp]; simp⟩
  | [s] =>
    rw [hS] at hT fp
    have hs : s ∈ rs.filter fun r => r.isSum := by rw [hS]; simp
    rw [List.mem_filter] at hs
    rcases (h s hs.1).cases with rfl | ⟨m, hm, hC, hK, rfl⟩ | ⟨L, hL, h2, rfl⟩
    · simp [zero_eq, Expr.isSum] at hs
    · rw [(EM.mono kl_sb hm hC hK).2] at hs; simp at hs
    · obtain ⟨r, hr, er, pr⟩ := tot_expandScalarSum hc e1 hL (by rintro rfl; simp at h2)
      refine ⟨r, tot_expandAsProduct_cons hT hsc (by simp only [expandSums]; exact tot_pure _) hr, er, ?_⟩
      rw [pr, ← fp, ← lv_sum hL.sl h2]
      simp only [List.map_cons, List.map_nil, List.prod_cons, List.prod_nil, mul_one]
  | _ :: _ :: _ => rw [hS] at h1; simp at h1

/-- A product with a new base. -/
theorem Nf.new {P R : List (Expr D × ℤ)} {b : Expr D} {k : ℤ} (hP : Can cfg P) (hb : ∀ f ∈ P, f.1 ≠ b) (hk : k ≠ 0)
    (h : Nf cfg (P ++ [(b, k)]) R) : R.Perm ((b, k) :: P) := by
  refine (List.perm_ext_iff_of_nodup h.can.nodup (List.nodup_cons.2 ⟨fun hm => hb _ hm rfl, hP.nodup⟩)).2 fun f => ?_
  rw [h.can.mem_iff, h.cnt, cnt_append, cnt_cons, cnt_nil, add_zero, List.mem_cons, hP.mem_iff, Finsupp.add_apply]
  by_cases e : f.1 = b
  · rw [e, Finsupp.single_eq_same, cnt_none hb, zero_add]
    constructor
    · rintro ⟨h1, _⟩; exact .inl (Prod.ext e h1.symm)
    · rintro (rfl | ⟨h1, h2⟩)
      · exact ⟨rfl, hk⟩
      · exact absurd h1.symm h2
  · rw [Finsupp.single_eq_of_ne e, add_zero]
    constructor
    · exact .inr
    · rintro (rfl | h)
      · exact absurd rfl e
      · exact h

/-- A monomial times a sum, expanded. -/
theorem tot_item (hc : cfg.Ok) {m : Mo D} (hm : m.1 ≠ 0) (hC : Can cfg m.2) (hs : Sb m.2) {L : List (Mo D)} (hL : EL cfg Sb L)
    (h2 : 2 ≤ L.length) :
    ∃ p r, Tot cfg (fun E => prodCreate E [em m, .sum (L.map em)]) p ∧ Tot cfg (fun E => expand E p) r ∧ EP cfg Sb r ∧
      lv cfg r = lv cfg (em m) * rv L := by
  have eS : EP cfg Sb (.sum (L.map em) : Expr D) := EP.sum hL h2
  have bS : ZB cfg (.sum (L.map em) : Expr D) := zb_sum hL.sl h2
  have fS : ZFs cfg [((.sum (L.map em) : Expr D), 1)] := ZFs.single ⟨bS, one_ne_zero⟩
  obtain ⟨R, hR, t1, t2⟩ := tot_prodCreate hc (Ms := [m, (1, [(.sum (L.map em), 1)])]) (by
    intro n hn
    simp only [List.mem_cons, List.not_mem_nil, or_false] at hn
    rcases hn with rfl | rfl
    exacts [⟨hm, hC.facs⟩, ⟨one_ne_zero, fS⟩]) (by simp)
  have hms : (.sum (L.map em) : Expr D) = mexpr 1 [(.sum (L.map em), 1)] := by simp [mexpr, rl_one, prodOf, fac]
  simp only [List.map_cons, List.map_nil, List.prod_cons, List.prod_nil, mul_one, List.flatMap_cons, List.flatMap_nil,
    List.append_nil, ← hms] at hR t1 t2
  have t1 : ¬ Nx m.1 R → Tot cfg (fun E => prodCreate E [em m, .sum (L.map em)]) (mexpr m.1 R) := t1
  have t2 : Nx m.1 R → ∀ r, Tot cfg (fun E => expandAsProduct E (rl m.1 R)) r →
      Tot cfg (fun E => prodCreate E [em m, .sum (L.map em)]) r := t2
  have hp : R.Perm (((.sum (L.map em) : Expr D), 1) :: m.2) := hR.new hC (by
    intro f hf e
    obtain ⟨s, h⟩ := hs f hf
    rw [e] at h; cases h) one_ne_zero
  have hsym : ∀ f ∈ m.2, EM cfg Sb (fac f) := by
    intro f hf
    rw [fac_mexpr]
    exact EM.mono kl_sb (m := (1, [f])) one_ne_zero (Can.single (hC.facs f hf)) fun g hg => by
      rw [List.mem_singleton.1 hg]; exact hs f hf
  have hrl : (rl m.1 R).Perm ((.sum (L.map em) : Expr D) :: rl m.1 m.2) := by
    unfold rl
    refine (List.Perm.append_left _ (hp.map fac)).trans ?_
    rw [List.map_cons, show fac ((.sum (L.map em) : Expr D), (1 : ℤ)) = .sum (L.map em) by simp [fac]]
    exact List.perm_middle
  have hem : ∀ e ∈ rl m.1 m.2, EM cfg Sb e := by
    intro e he
    unfold rl at he
    rcases List.mem_append.1 he with he | he
    · split at he
      · simp at he
      · rw [List.mem_singleton.1 he]; exact EM.num kl_sb _
    · obtain ⟨f, hf, rfl⟩ := List.mem_map.1 he
      exact hsym f hf
  have hcount : ((rl m.1 R).filter fun r => r.isSum).length ≤ 1 := by
    rw [(hrl.filter _).length_eq, List.filter_cons_of_pos (by rfl),
      List.filter_eq_nil_iff.2 fun e he => by simp [(hem e he).2]]
    simp
  have hep : ∀ e ∈ rl m.1 R, EP cfg Sb e := by
    intro e he
    rcases List.mem_cons.1 (hrl.mem_iff.1 he) with rfl | he
    exacts [eS, (hem e he).1]
  obtain ⟨r, hr, er, pr⟩ := tot_expand_one hc hep hcount
  have hlm : ((rl m.1 m.2).map (lv cfg)).prod = lv cfg (em m) := by
    have hP : ∀ P : List (Expr D × ℤ), Can cfg P → Sb P → ((P.map fac).map (lv cfg)).prod = AddMonoidAlgebra.single (cnt P) 1 := by
      intro P h1 h2
      induction P with
      | nil => rfl
      | cons f P ih =>
        rw [List.map_cons, List.map_cons, List.prod_cons, ih h1.cons.2.1 h2.cons.2, fac_mexpr]
        have := lv_em (m := ((1 : ℚ), [f])) (kl_sb.sm one_ne_zero (Can.single h1.cons.1) h2.cons.1)
        rw [show mexpr 1 [f] = em ((1 : ℚ), [f]) from rfl, this, AddMonoidAlgebra.single_mul_single]
        simp
    rw [lv_em (kl_sb.sm hm hC hs)]
    unfold rl
    split
    · rename_i hq; rw [List.nil_append, hP _ hC hs, hq]
    · rw [List.map_append, List.prod_append, hP _ hC hs]
      simp [lv_num, AddMonoidAlgebra.single_mul_single]
  have pr' : lv cfg r = lv cfg (em m) * rv L := by
    rw [pr, (hrl.map _).prod_eq, List.map_cons, List.prod_cons, lv_sum hL.sl h2, hlm, mul_comm]
  by_cases hn : Nx m.1 R
  · exact ⟨r, r, t2 hn r hr, tot_expand_ep hc er, er, pr'⟩
  · rcases mexpr_cases m.1 R with ⟨e1, e⟩ | ⟨f, e1, e2, e⟩ | ⟨e1, e2, e⟩
    · rw [e1] at hp; simpa using hp.length_eq
    · have hf : EP cfg Sb (fac f) := hep _ (by rw [e1, e2, rl_one]; simp)
      refine ⟨fac f, fac f, by rw [← e]; exact t1 hn, tot_expand_ep hc hf, hf, ?_⟩
      rw [← pr', pr, e1, e2, rl_one]; simp
    · refine ⟨.prod (rl m.1 R), r, by rw [← e]; exact t1 hn, ?_, er, pr'⟩
      simp only [expand]
      exact tot_expandAsProduct hr

/-- Products of sums. -/
theorem tot_expandSums (hc : cfg.Ok) {S : List (Expr D)} (hS : ∀ s ∈ S, EP cfg Sb s ∧ s.isSum = true) :
    ∀ {first : Expr D}, EP cfg Sb first → first.isSum = true →
    ∃ r, Tot cfg (fun E => expandSums E first S) r ∧ EP cfg Sb r ∧ r.isSum = true := by
  induction S with
  | nil => intro first h1 h2; exact ⟨first, by simp only [expandSums]; exact tot_pure _, h1, h2⟩
  | cons s S ih =>
    intro first h1 h2
    have ih := @ih fun x hx => hS x (by simp [hx])
    obtain ⟨es, hs⟩ := hS s (by simp)
    have c1 := h1.card h2
    have c2 := es.card hs
    rcases h1.cases with rfl | ⟨m, hm, hC, hK, rfl⟩ | ⟨L, hL, hl, rfl⟩
    · simp [zero_eq, Expr.isSum] at h2
    · rw [(EM.mono kl_sb hm hC hK).2] at h2; simp at h2
    rcases es.cases with rfl | ⟨m, hm, hC, hK, rfl⟩ | ⟨L', hL', hl', rfl⟩
    · simp [zero_eq, Expr.isSum] at hs
    · rw [(EM.mono kl_sb hm hC hK).2] at hs; simp at hs
    obtain ⟨bs, hb, f2⟩ := tot_mapL_ex (cfg := cfg) (f := fun E item => (do
        let p ← E.prodCreate [item, .sum (L'.map em)]
        E.expand p : M D (Expr D))) (l := L.map em) (Q := fun a b => EP cfg Sb b ∧ lv cfg b = lv cfg a * rv L') (by
      intro a ha
      obtain ⟨m, hm, rfl⟩ := List.mem_map.1 ha
      obtain ⟨p, r, hp, hr, er, pr⟩ := tot_item hc (hL.sl.sm m hm).ne (hL.sl.sm m hm).can (hL.sb m hm) hL' hl'
      exact ⟨r, tot_bind (tot_prod hp) (tot_expand hr), er, pr⟩)
    have hlen : bs.length = (L.map (em : Mo D → Expr D)).length := f2.length_eq.symm
    obtain ⟨t, ht, et, pt⟩ := tot_sum_ep hc (es := bs) (K := Sb) (by
      intro e; rw [e] at hlen; simp at hlen; rw [← hlen] at hl; simp at hl) (fun e he => by
      obtain ⟨a, _, h⟩ := forall2_mem f2 e he; exact h.1)
    have pt' : lv cfg t = rv L * rv L' := by
      rw [pt]
      have : ∀ (l bs : List (Expr D)), List.Forall₂ (fun a b => EP cfg Sb b ∧ lv cfg b = lv cfg a * rv L') l bs →
          (bs.map (lv cfg)).sum = (l.map (lv cfg)).sum * rv L' := by
        intro l bs h
        induction h with
        | nil => simp
        | cons h _ ih => simp only [List.map_cons, List.sum_cons, ih, h.2, add_mul]
      rw [this _ _ f2, rv_sum hL.sl]
    have st : t.isSum = true := by
      refine et.isSum ?_
      rw [lv_sum hL.sl hl] at c1
      rw [lv_sum hL'.sl hl'] at c2
      rw [pt']; exact card_mul c1 c2
    obtain ⟨r, hr, er, sr⟩ := ih et st
    refine ⟨r, ?_, er, sr⟩
    simp only [expandSums]
    exact tot_bind (tot_logIf (by rw [h2]; rfl)) (tot_bind hb (tot_bind (tot_sum ht) hr))

/-- Products of Laurent polynomials are expanded. -/
theorem tot_expandAsProduct_xe (hc : cfg.Ok) {l : List (Expr D)} (h : ∀ e ∈ l, XE cfg e) :
    ∃ r, Tot cfg (fun E => expandAsProduct E l) r ∧ EP cfg Sb r := by
  obtain ⟨rs, f2, hT⟩ := tot_defScalarAndSums (cfg := cfg) (Q := fun _ r => EP cfg Sb r) h
  have hrs : ∀ r ∈ rs, EP cfg Sb r := fun r hr => by obtain ⟨e, _, h⟩ := forall2_mem f2 r hr; exact h.2
  obtain ⟨sc, hsc, e1, p1⟩ := tot_scalar hc kl_sb (K := Sb) (A := rs.filter fun r => !r.isSum) (fun e he => by
    rw [List.mem_filter] at he
    exact ⟨hrs e he.1, by simpa using he.2⟩)
  match hS : rs.filter fun r => r.isSum with
  | [] =>
    rw [hS] at hT
    exact ⟨sc, tot_expandAsProduct_nil hT hsc, e1.1⟩
  | s :: S =>
    rw [hS] at hT
    have hs : ∀ x ∈ s :: S, EP cfg Sb x ∧ x.isSum = true := by
      intro x hx
      rw [← hS, List.mem_filter] at hx
      exact ⟨hrs x hx.1, hx.2⟩
    obtain ⟨t, ht, et, st⟩ := tot_expandSums hc (S := S) (fun x hx => hs x (by simp [hx])) (hs s (by simp)).1 (hs s (by simp)).2
    rcases et.cases with rfl | ⟨m, hm, hC, hK, rfl⟩ | ⟨L, hL, h2, rfl⟩
    · simp [zero_eq, Expr.isSum] at st
    · rw [(EM.mono kl_sb hm hC hK).2] at st; simp at st
    · obtain ⟨r, hr, er, pr⟩ := tot_expandScalarSum hc e1 hL (by rintro rfl; simp at h2)
      exact ⟨r, tot_expandAsProduct_cons hT hsc ht hr, er⟩

end Zf
end Tsym
