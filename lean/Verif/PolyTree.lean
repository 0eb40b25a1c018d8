import Verif.PolyExpand
import Verif.Api

set_option autoImplicit false
set_option linter.unusedSectionVars false
set_option linter.unusedSimpArgs false
set_option linter.unusedVariables false

/-!
# The expressions that sums and products of numbers and symbols give
-/

namespace Tsym

open Expr

variable {D : Type} [Flt D] [ExactLt D] {cfg : Cfg D}

/-- Symbols and sums of products of powers of such. -/
inductive XB (cfg : Cfg D) : Expr D → Prop
  | sym (s : Sym) (h : s.id.Ok) : XB cfg (.sym s)
  | sum (L : List (Mono D)) (h : SL cfg (fun _ => True) L) (h2 : 2 ≤ L.length) (hb : ∀ m ∈ L, ∀ f ∈ m.2, XB cfg f.1) :
      XB cfg (.sum (L.map em))

theorem SL.mono {B B' : Expr D → Prop} {L : List (Mono D)} (h : SL cfg B L) (hb : ∀ m ∈ L, ∀ f ∈ m.2, B' f.1) : SL cfg B' L :=
  ⟨fun m hm => ⟨(h.sm m hm).ne, (h.sm m hm).facs, hb m hm, (h.sm m hm).ns⟩, h.tail⟩

theorem XB.pbase {b : Expr D} (h : XB cfg b) : PBase cfg b := by
  cases h with
  | sym s _ => exact pbase_sym s
  | sum L h h2 _ => exact pbase_sum h h2

theorem EP.symFac {x : Sym × ℕ} (hx : x.1.id.Ok ∧ 1 ≤ x.2) : EP (symFac x : Expr D) := by
  have : (Tsym.symFac x : Expr D) = em (1, Key.facs [x]) := by simp [em, mexpr, rl_one, prodOf, Key.facs, Tsym.symFac]
  rw [this]
  refine EP.mono (K := [x]) (by simp) ⟨?_, by simp [Key.Sorted], rfl⟩
  intro y hy; rw [List.mem_singleton.1 hy]; exact hx

/-- A monomial can be expanded if its factors can. -/
theorem XE.mexpr (hc : cfg.Ok) {q : ℚ} {P : List (Expr D × ℕ)} (hP : PFacs cfg P) (h : ∀ f ∈ P, XE cfg (fac f)) :
    XE cfg (mexpr q P) := by
  rcases mexpr_cases q P with ⟨rfl, e⟩ | ⟨f, rfl, _, e⟩ | ⟨_, _, e⟩
  · rw [e]; exact (EP.num q).xe hc
  · rw [e]; exact h f (by simp)
  · rw [e]
    obtain ⟨r, hr, er, pr⟩ := tot_expandAsProduct_xe hc (l := rl q P) (by
      intro x hx
      unfold rl at hx
      rcases List.mem_append.1 hx with hx | hx
      · split at hx
        · simp at hx
        · rw [List.mem_singleton.1 hx]; exact (EP.num q).xe hc
      · obtain ⟨f, hf, rfl⟩ := List.mem_map.1 hx; exact h f hf)
    refine ⟨r, ?_, er, by rw [pr, poly, polyProd_eq]⟩
    simp only [expand]; exact tot_expandAsProduct hr

theorem XB.xe (hc : cfg.Ok) {b : Expr D} (h : XB cfg b) : ∀ k, 1 ≤ k → XE cfg (fac (b, k)) := by
  induction h with
  | sym s hs => intro k hk; exact (EP.symFac (x := (s, k)) ⟨hs, hk⟩).xe hc
  | sum L hL h2 hb ih =>
    have h1 : XE cfg (.sum (L.map em)) := by
      obtain ⟨bs, hbs, f2⟩ := tot_mapL_ex (cfg := cfg) (f := fun E e => E.expand e) (l := L.map em)
        (Q := fun a b => EP b ∧ poly b = poly a) (by
        intro a ha
        obtain ⟨m, hm, rfl⟩ := List.mem_map.1 ha
        obtain ⟨r, hr, h⟩ := XE.mexpr hc (q := m.1) (hL.sm m hm).facs fun f hf =>
          ih m hm f hf f.2 ((hL.sm m hm).facs f hf).one_le
        exact ⟨r, tot_expand hr, h⟩)
      have hl : bs.length = (L.map (em : Mono D → Expr D)).length := f2.length_eq.symm
      obtain ⟨r, hr, er, pr⟩ := tot_sum_ep hc (es := bs) (by
        intro e; rw [e] at hl; simp at hl; rw [← hl] at h2; simp at h2) (fun e he => by
        obtain ⟨a, _, h⟩ := forall2_mem f2 e he; exact h.1)
      refine ⟨r, ?_, er, ?_⟩
      · simp only [expand]; exact tot_bind hbs (tot_sum hr)
      · rw [pr, poly, polySum_eq]
        have : ∀ (l bs : List (Expr D)), List.Forall₂ (fun a b => EP b ∧ poly b = poly a) l bs →
            (bs.map poly).sum = (l.map poly).sum := by
          intro l bs h
          induction h with
          | nil => simp
          | cons h _ ih => simp only [List.map_cons, List.sum_cons, ih, h.2]
        exact this _ _ f2
    intro k hk
    by_cases hk1 : k = 1
    · subst hk1; exact h1
    · have hf : fac ((.sum (L.map em) : Expr D), k) = .pow (.sum (L.map em)) (.int k) := by simp [fac, hk1]
      rw [hf]
      obtain ⟨r, hr, er, pr⟩ := tot_expandAsProduct_xe hc (l := List.replicate k (.sum (L.map em))) (by
        intro x hx; rw [List.eq_of_mem_replicate hx]; exact h1)
      refine ⟨r, ?_, er, ?_⟩
      · simp only [expand]
        refine tot_bind (tot_lift (a := true) ?_) ?_
        · simp [isInteger, int, numEval, bind, Except.bind, pure, Except.pure, Number.isInt, Number.isRational, Number.denominator]
        · simp only [if_true, expandSumBaseIntExp]
          refine tot_bind (a := (.rat k : Number D)) ?_ ?_
          · simp only [NumTrigo.evalE]
            exact tot_bind (tot_lift (a := some (.rat k)) (by simp [int, numEval, pure, Except.pure])) (tot_pure _)
          · simp only [Number.numerator, Rat.num_natCast, Int.natAbs_natCast]
            refine tot_bind (tot_expandAsProduct hr) ?_
            have : ¬ ((k : ℤ) < 0) := by omega
            simp only [this, if_false]
            exact tot_pure _
      · rw [pr]
        simp [int, poly]

/-- What sums and products of numbers and symbols give. -/
def Pol (cfg : Cfg D) (e : Expr D) : Prop := ∃ L, SL cfg (XB cfg) L ∧ e = sumOf (L.map em)

theorem Pol.polyE {e : Expr D} (h : Pol cfg e) : isPolyE e = true := by
  obtain ⟨L, hL, rfl⟩ := h; exact sumOf_polyE hL

theorem Pol.isUndefined {e : Expr D} (h : Pol cfg e) : e.isUndefined = false := by
  obtain ⟨L, hL, rfl⟩ := h; exact sumOf_isUndefined hL

theorem EP.pol {e : Expr D} (h : EP e) : Pol cfg e := by
  obtain ⟨L, hL, rfl⟩ := h
  exact ⟨L, hL.sl fun s hs => .sym s hs, rfl⟩

theorem Pol.zero : Pol cfg (zero : Expr D) := EP.zero.pol
theorem Pol.rat (q : ℚ) : Pol cfg (.num (.rat q) : Expr D) := (EP.num q).pol
theorem Pol.sym {s : Sym} (h : s.id.Ok) : Pol cfg (.sym s : Expr D) :=
  (EP.symFac (x := (s, 1)) ⟨h, le_refl 1⟩).pol

/-- Zero, or a number times powers. -/
theorem Pol.cases {e : Expr D} (h : Pol cfg e) :
    e = Expr.zero ∨ ∃ q P, q ≠ 0 ∧ PFacs cfg P ∧ (∀ f ∈ P, XB cfg f.1) ∧ e = mexpr q P := by
  obtain ⟨L, hL, rfl⟩ := h
  match L, hL with
  | [], _ => exact .inl rfl
  | [m], hL => exact .inr ⟨m.1, m.2, hL.cons.1.ne, hL.cons.1.facs, hL.cons.1.base, rfl⟩
  | m :: n :: L, hL =>
    refine .inr ⟨1, [(.sum ((m :: n :: L).map em), 1)], one_ne_zero, ?_, ?_, by simp [mexpr, rl_one, prodOf, fac, sumOf]⟩
    · intro f hf; rw [List.mem_singleton.1 hf]; exact ⟨pbase_sum hL (by simp), le_refl 1⟩
    · intro f hf; rw [List.mem_singleton.1 hf]
      exact .sum _ (hL.mono fun _ _ _ _ => trivial) (by simp) fun m hm => (hL.sm m hm).base

theorem Pol.of_mexpr {q : ℚ} {P : List (Expr D × ℕ)} (hq : q ≠ 0) (hP : PFacs cfg P) (hb : ∀ f ∈ P, XB cfg f.1)
    (hn : ¬ Nx q P) : Pol cfg (mexpr q P) := by
  by_cases hs : ∃ l, P = [(.sum l, 1)]
  · have h1 : q = 1 := by by_contra h; exact hn ⟨h, hs⟩
    obtain ⟨l, rfl⟩ := hs
    subst h1
    have hl : XB cfg (.sum l) := hb _ (List.mem_singleton_self (Expr.sum l, 1))
    have he : (mexpr 1 [(.sum l, 1)] : Expr D) = .sum l := by simp [mexpr, rl_one, prodOf, fac]
    rw [he]
    generalize hx : (Expr.sum l : Expr D) = x at hl
    cases hl with
    | sym s _ => cases hx
    | sum L h h2 hb' =>
      refine ⟨L, h.mono hb', ?_⟩
      match L, h2 with
      | _ :: _ :: _, _ => rfl
  · exact ⟨[(q, P)], SL.single ⟨hq, hP, hb, hs⟩, rfl⟩

theorem pol_lists {es : List (Expr D)} (h : ∀ e ∈ es, Pol cfg e) :
    ∃ Ls : List (List (Mono D)), (∀ L ∈ Ls, SL cfg (XB cfg) L) ∧ es = Ls.map fun L => sumOf (L.map em) := by
  induction es with
  | nil => exact ⟨[], by simp, rfl⟩
  | cons e es ih =>
    obtain ⟨Ls, h1, h2⟩ := ih fun x hx => h x (by simp [hx])
    obtain ⟨L, hL, hl⟩ := h e (by simp)
    exact ⟨L :: Ls, by simpa using ⟨hL, h1⟩, by rw [hl, h2]; rfl⟩

/-- Sums. -/
theorem tot_sum_pol (hc : cfg.Ok) {es : List (Expr D)} (hne : es ≠ []) (h : ∀ e ∈ es, Pol cfg e) :
    ∃ r, Tot cfg (fun E => sumCreate E es) r ∧ Pol cfg r ∧ poly r = (es.map poly).sum := by
  obtain ⟨Ls, h1, rfl⟩ := pol_lists h
  obtain ⟨R, hR, A⟩ := tot_sumCreate (B := XB cfg) hc (Ls := Ls) (by simpa using hne) h1
  refine ⟨_, hR, ⟨R, A.sl, rfl⟩, ?_⟩
  rw [sumOf_poly, A.val, List.map_map]
  congr 1
  refine List.map_congr_left fun L _ => ?_
  simp [sumOf_poly]

theorem mono_lists {es : List (Expr D)} (h : ∀ e ∈ es, Pol cfg e) (hz : ∀ e ∈ es, e ≠ Expr.zero) :
    ∃ Ms : List (Mono D), (∀ m ∈ Ms, m.1 ≠ 0 ∧ PFacs cfg m.2) ∧ (∀ m ∈ Ms, ∀ f ∈ m.2, XB cfg f.1) ∧ es = Ms.map em ∧
      (es.map poly).prod = MvPolynomial.C (Ms.map (·.1)).prod * pv poly (Ms.flatMap (·.2)) := by
  induction es with
  | nil => exact ⟨[], by simp, by simp, rfl, by simp⟩
  | cons e es ih =>
    obtain ⟨Ms, h1, h2, h3, h4⟩ := ih (fun x hx => h x (by simp [hx])) fun x hx => hz x (by simp [hx])
    rcases (h e (by simp)).cases with hh | ⟨q, P, hq, hP, hb, rfl⟩
    · exact absurd hh (hz e (by simp))
    · refine ⟨(q, P) :: Ms, ?_, ?_, by rw [h3]; rfl, ?_⟩
      · intro n hn
        rcases List.mem_cons.1 hn with rfl | hn
        exacts [⟨hq, hP⟩, h1 n hn]
      · intro n hn
        rcases List.mem_cons.1 hn with rfl | hn
        exacts [hb, h2 n hn]
      · simp only [List.map_cons, List.prod_cons, h4, List.flatMap_cons, pv_append, mexpr_poly hP, map_mul]
        ring

/-- Products. -/
theorem tot_prod_pol (hc : cfg.Ok) {es : List (Expr D)} (hne : es ≠ []) (h : ∀ e ∈ es, Pol cfg e) :
    ∃ r, Tot cfg (fun E => prodCreate E es) r ∧ Pol cfg r ∧ poly r = (es.map poly).prod := by
  have hU : es.any Expr.isUndefined = false := by
    rw [List.any_eq_false]; intro e he; simp [(h e he).isUndefined]
  by_cases hz : ∀ e ∈ es, e ≠ Expr.zero
  · obtain ⟨Ms, h1, h2, h3, h4⟩ := mono_lists h hz
    by_cases hl : Ms.length = 1
    · obtain ⟨m, rfl⟩ := List.length_eq_one_iff.1 hl
      refine ⟨em m, ?_, by have := h (em m) (by rw [h3]; simp); exact this, by rw [h3]; simp⟩
      have hzx : (em m).isZero = false := mexpr_isZero (h1 m (by simp)).1 (h1 m (by simp)).2
      have hux : (em m).isUndefined = false := mexpr_isUndefined (h1 m (by simp)).2
      subst h3
      unfold prodCreate
      simp only [List.map_cons, List.map_nil, List.any_cons, List.any_nil, hzx, hux, Bool.or_false, Bool.false_eq_true, if_false]
      exact tot_pure _
    · obtain ⟨R, hR, t1, t2⟩ := tot_prodCreate hc h1 hl
      have hq := prod_ne_zero fun m hm => (h1 m hm).1
      have hbR : ∀ f ∈ R, XB cfg f.1 := by
        intro f hf
        obtain ⟨g, hg, e⟩ := hR.sub f hf
        obtain ⟨m, hm, hg⟩ := List.mem_flatMap.1 hg
        rw [← e]; exact h2 m hm g hg
      generalize hqe : (Ms.map (·.1)).prod = q at hq h4 t1 t2
      by_cases hn : Nx q R
      · obtain ⟨r, hr, er, pr⟩ := tot_expandAsProduct_xe hc (l := rl q R) (by
          intro x hx
          unfold rl at hx
          rcases List.mem_append.1 hx with hx | hx
          · split at hx
            · simp at hx
            · rw [List.mem_singleton.1 hx]; exact (EP.num q).xe hc
          · obtain ⟨f, hf, rfl⟩ := List.mem_map.1 hx
            exact (hbR f hf).xe hc f.2 (hR.facs f hf).one_le)
        refine ⟨r, by rw [h3]; exact t2 hn r hr, er.pol, ?_⟩
        rw [pr, ← polyProd_eq, polyProd_rl hR.facs, h4, hR.poly]
      · refine ⟨mexpr q R, by rw [h3]; exact t1 hn, Pol.of_mexpr hq hR.facs hbR hn, ?_⟩
        rw [mexpr_poly hR.facs, h4, hR.poly]
  · simp only [not_forall] at hz
    obtain ⟨e, he, h0⟩ := hz
    have h0 : e = Expr.zero := by simpa using h0
    subst h0
    have hZ : es.any Expr.isZero = true := by
      rw [List.any_eq_true]; exact ⟨_, he, by rw [zero_eq, isZero_ratE]; simp⟩
    refine ⟨Expr.zero, ?_, Pol.zero, ?_⟩
    · unfold prodCreate
      simp only [hU, hZ, Bool.false_eq_true, if_false, if_true]; exact tot_pure _
    · rw [poly_zero]; symm
      rw [List.prod_eq_zero_iff]
      exact List.mem_map.2 ⟨_, he, poly_zero⟩

/-- Expansion. -/
theorem tot_expand_pol (hc : cfg.Ok) {e : Expr D} (h : Pol cfg e) : XE cfg e := by
  rcases h.cases with rfl | ⟨q, P, hq, hP, hb, rfl⟩
  · exact EP.zero.xe hc
  · exact XE.mexpr hc hP fun f hf => (hb f hf).xe hc f.2 (hP f hf).one_le

end Tsym
