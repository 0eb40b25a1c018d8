import Verif.QTwo

set_option autoImplicit false
set_option linter.unusedSectionVars false
set_option linter.unusedSimpArgs false
set_option linter.unusedVariables false

/-!
# Sums

The operands of a sum are in order. They are determined by the number in front of each product of
powers, so that the result of Sum::create does not depend on the order of its operands.
-/

namespace Tsym.Qf

open Expr
open scoped Classical

variable {D : Type} [Flt D] [LawfulFlt D] {cfg : Cfg D}

/-! ## The order of summands -/

theorem L_num_fac (q : ℚ) {f : Expr D × ℚ} (h : QF cfg f) : L (.num (.rat q)) (fac f) = true ∧ L (fac f) (.num (.rat q)) = false :=
  ⟨h.permute_num' q, h.permute_num q⟩

/-- The numbers at the end do not matter. -/
theorem lex_tail {X Y : List (Expr D × ℚ)} (hX : QFs cfg X) (hY : QFs cfg Y) (hne : X ≠ Y) {A B : List (Expr D)}
    (hA : A = [] ∨ ∃ q, A = [.num (.rat q)]) (hB : B = [] ∨ ∃ q, B = [.num (.rat q)]) :
    lexCmp L (X.map fac ++ A) (Y.map fac ++ B) = lexCmp L (X.map fac) (Y.map fac) := by
  induction X generalizing Y with
  | nil =>
    match Y with
    | [] => exact absurd rfl hne
    | g :: Y =>
      rcases hA with rfl | ⟨q, rfl⟩
      · simp [lexCmp]
      · simp [lexCmp, (L_num_fac q hY.cons.1).1]
  | cons f X ih =>
    match Y with
    | [] =>
      rcases hB with rfl | ⟨q, rfl⟩
      · simp [lexCmp]
      · simp [lexCmp, (L_num_fac q hX.cons.1).1, (L_num_fac q hX.cons.1).2]
    | g :: Y =>
      simp only [List.map_cons, List.cons_append, lexCmp]
      by_cases e : f = g
      · subst e
        rw [hX.cons.1.good.irrefl]
        simp only [Bool.false_eq_true, if_false]
        exact ih hX.cons.2 hY.cons.2 fun e => hne (by rw [e])
      · have hfg : fac f ≠ fac g := fun h => e (hX.cons.1.inj hY.cons.1 h)
        by_cases hl : L (fac f) (fac g) = true
        · rw [if_pos hl, if_pos hl]
        · rw [if_neg hl, if_neg hl]
          have := hX.cons.1.good.total hY.cons.1.good (by simpa using hl) hfg
          rw [if_pos this, if_pos this]

/-- The order of products of powers. -/
def klt (P Q : List (Expr D × ℚ)) : Bool := L (mexpr 1 P) (mexpr 1 Q)

theorem viewP_mexpr (q : ℚ) {P : List (Expr D × ℚ)} (h : QFs cfg P) (hP : P ≠ []) : viewP (mexpr q P) = rl q P := by
  rcases mexpr_cases q P with ⟨e, _⟩ | ⟨f, rfl, rfl, e⟩ | ⟨_, _, e⟩
  · exact absurd e hP
  · rw [e, h.cons.1.viewP]; simp [rl_one]
  · rw [e]; rfl

theorem big_mexpr (q : ℚ) {P : List (Expr D × ℚ)} (h : QFs cfg P) (hP : P ≠ []) : big (mexpr q P) = true := by
  rcases mexpr_cases q P with ⟨e, _⟩ | ⟨f, rfl, rfl, e⟩ | ⟨_, _, e⟩
  · exact absurd e hP
  · rw [e, h.cons.1.big]
  · rw [e]; rfl

theorem rl_reverse (q : ℚ) (P : List (Expr D × ℚ)) :
    ∃ A : List (Expr D), (A = [] ∨ ∃ q, A = [.num (.rat q)]) ∧ (rl q P).reverse = P.reverse.map fac ++ A := by
  by_cases hq : q = 1
  · subst hq; exact ⟨[], .inl rfl, by simp [rl_one]⟩
  · exact ⟨[.num (.rat q)], .inr ⟨q, rfl⟩, by simp [rl_ne hq]⟩

theorem L_num_mexpr (p q : ℚ) {P : List (Expr D × ℚ)} (hP : QFs cfg P) (h : P ≠ []) :
    L (.num (.rat p) : Expr D) (mexpr q P) = true ∧ L (mexpr q P) (.num (.rat p) : Expr D) = false := by
  unfold L
  have hf : ∀ f : Expr D × ℚ, QF cfg f → (∃ s, fac f = .sym s) ∨ (∃ l, fac f = .sum l) ∨ (∃ b e, fac f = .pow b e) := by
    intro f hf
    rcases hf.cases with ⟨s, hs⟩ | ⟨l, _, hl⟩ | ⟨k, hk⟩
    exacts [.inl ⟨s, hs⟩, .inr (.inl ⟨l, hl⟩), .inr (.inr ⟨_, _, hk⟩)]
  rw [doPermute_eq, doPermute_eq (.num (.rat p))]
  rcases mexpr_cases q P with ⟨rfl, e⟩ | ⟨f, rfl, _, e⟩ | ⟨_, _, e⟩
  · exact absurd rfl h
  · rw [e]
    rcases hf f hP.cons.1 with ⟨s, hs⟩ | ⟨l, hl⟩ | ⟨b, x, hx⟩
    · rw [hs]; simp [permStep, permSame, permDiff]
    · rw [hl]; simp [permStep, permSame, permDiff]
    · rw [hx]; simp [permStep, permSame, permDiff]
  · rw [e]; simp [permStep, permSame, permDiff]

theorem L_mexpr (p q : ℚ) {P Q : List (Expr D × ℚ)} (hP : QFs cfg P) (hQ : QFs cfg Q) (hne : P ≠ Q) :
    L (mexpr p P) (mexpr q Q) = lexCmp L (P.reverse.map fac) (Q.reverse.map fac) := by
  by_cases h : P = []
  · subst h
    have hQ' : Q ≠ [] := fun e => hne e.symm
    rw [← num_mexpr, (L_num_mexpr p q hQ hQ').1]
    obtain ⟨x, X, e⟩ := List.exists_cons_of_ne_nil (l := Q.reverse) (by simpa using hQ')
    rw [e]; simp [lexCmp]
  · by_cases h' : Q = []
    · subst h'
      rw [← num_mexpr, (L_num_mexpr q p hP h).2]
      obtain ⟨x, X, e⟩ := List.exists_cons_of_ne_nil (l := P.reverse) (by simpa using h)
      rw [e]; simp [lexCmp]
    · rw [L_viewP (mexpr_good hP) (mexpr_good hQ) (big_mexpr p hP h) (big_mexpr q hQ h'), viewP_mexpr p hP h, viewP_mexpr q hQ h']
      obtain ⟨A, hA, eA⟩ := rl_reverse p P
      obtain ⟨B, hB, eB⟩ := rl_reverse q Q
      rw [eA, eB]
      exact lex_tail (cfg := cfg) (fun f hf => hP f (by simpa using hf)) (fun f hf => hQ f (by simpa using hf))
        (fun e => hne (List.reverse_injective e)) hA hB

/-- The numbers in front do not matter for the order. -/
theorem L_klt (p q : ℚ) {P Q : List (Expr D × ℚ)} (hP : QFs cfg P) (hQ : QFs cfg Q) (hne : P ≠ Q) :
    L (mexpr p P) (mexpr q Q) = klt P Q := by
  unfold klt; rw [L_mexpr p q hP hQ hne, L_mexpr 1 1 hP hQ hne]

theorem klt_irrefl {P : List (Expr D × ℚ)} (hP : QFs cfg P) : klt P P = false := (mexpr_good hP).irrefl

theorem klt_trans {P Q R : List (Expr D × ℚ)} (hP : QFs cfg P) (hQ : QFs cfg Q) (hR : QFs cfg R)
    (h1 : klt P Q = true) (h2 : klt Q R = true) : klt P R = true :=
  (mexpr_good hP).trans (mexpr_good hQ) (mexpr_good hR) h1 h2

theorem klt_asymm {P Q : List (Expr D × ℚ)} (hP : QFs cfg P) (hQ : QFs cfg Q) (h : klt P Q = true) : klt Q P = false :=
  (mexpr_good hP).asymm (mexpr_good hQ) h

theorem klt_total {P Q : List (Expr D × ℚ)} (hP : QFs cfg P) (hQ : QFs cfg Q) (hne : P ≠ Q) (h : klt P Q = false) : klt Q P = true :=
  (mexpr_good hP).total (mexpr_good hQ) h fun e => hne (mexpr_inj hP hQ e).2

/-! ## Lists of summands -/

/-- A number and factors. -/
abbrev Mo (D : Type) := ℚ × List (Expr D × ℚ)

/-- The expression of a summand. -/
def em (m : Mo D) : Expr D := mexpr m.1 m.2

/-- The operands of a sum, in order. -/
structure SL (cfg : Cfg D) (L : List (Mo D)) : Prop where
  sm : ∀ m ∈ L, SM cfg m.1 m.2
  sorted : L.Pairwise fun m n => klt m.2 n.2 = true

/-- The number in front of each product of powers. -/
noncomputable def co (L : List (Mo D)) : List (Expr D × ℚ) →₀ ℚ := (L.map fun m => Finsupp.single m.2 m.1).sum

@[simp] theorem co_nil : co ([] : List (Mo D)) = 0 := rfl
@[simp] theorem co_cons (m : Mo D) (L : List (Mo D)) : co (m :: L) = Finsupp.single m.2 m.1 + co L := by simp [co]

theorem SL.nil : SL cfg [] := ⟨by simp, by simp⟩

theorem SL.single {m : Mo D} (h : SM cfg m.1 m.2) : SL cfg [m] := ⟨by simpa using h, by simp⟩

theorem SL.cons {m : Mo D} {L : List (Mo D)} (h : SL cfg (m :: L)) :
    SM cfg m.1 m.2 ∧ SL cfg L ∧ ∀ n ∈ L, klt m.2 n.2 = true :=
  ⟨h.sm m (by simp), ⟨fun n hn => h.sm n (by simp [hn]), (List.pairwise_cons.1 h.sorted).2⟩, (List.pairwise_cons.1 h.sorted).1⟩

theorem SL.mk' {m : Mo D} {L : List (Mo D)} (h : SM cfg m.1 m.2) (hL : SL cfg L) (ht : ∀ n ∈ L, klt m.2 n.2 = true) :
    SL cfg (m :: L) :=
  ⟨fun n hn => by rcases List.mem_cons.1 hn with rfl | hn; exacts [h, hL.sm n hn], List.pairwise_cons.2 ⟨ht, hL.sorted⟩⟩

theorem co_none {L : List (Mo D)} {P : List (Expr D × ℚ)} (h : ∀ m ∈ L, m.2 ≠ P) : co L P = 0 := by
  induction L with
  | nil => simp
  | cons m L ih =>
    rw [co_cons, Finsupp.add_apply, ih fun n hn => h n (by simp [hn]), Finsupp.single_eq_of_ne (h m (by simp)).symm, add_zero]

theorem SL.ne {m : Mo D} {L : List (Mo D)} (h : SL cfg (m :: L)) : ∀ n ∈ L, n.2 ≠ m.2 := by
  intro n hn e
  have := h.cons.2.2 n hn
  rw [e, klt_irrefl h.cons.1.facs] at this
  cases this

theorem SL.mem_iff {L : List (Mo D)} (h : SL cfg L) (m : Mo D) : m ∈ L ↔ co L m.2 = m.1 ∧ m.1 ≠ 0 := by
  induction L with
  | nil => simp; exact fun h => h.symm
  | cons g L ih =>
    obtain ⟨hg, hL, hl⟩ := h.cons
    rw [List.mem_cons, ih hL, co_cons, Finsupp.add_apply]
    by_cases e : g.2 = m.2
    · rw [e, Finsupp.single_eq_same, co_none (by rw [← e]; exact h.ne), add_zero]
      constructor
      · rintro (rfl | ⟨h1, h2⟩)
        · exact ⟨rfl, hg.ne⟩
        · exact absurd h1.symm h2
      · rintro ⟨h1, h2⟩
        exact .inl (Prod.ext h1.symm e.symm)
    · rw [Finsupp.single_eq_of_ne (Ne.symm e), zero_add]
      constructor
      · rintro (rfl | h)
        · exact absurd rfl e
        · exact h
      · exact .inr

theorem SL.nodup {L : List (Mo D)} (h : SL cfg L) : L.Nodup := by
  induction L with
  | nil => simp
  | cons f P ih => exact List.nodup_cons.2 ⟨fun hm => h.ne f hm rfl, ih h.cons.2.1⟩

/-- Lists in order are determined by the numbers in front. -/
theorem SL.ext {L M : List (Mo D)} (hL : SL cfg L) (hM : SL cfg M) (h : co L = co M) : L = M := by
  have hp : L.Perm M := (List.perm_ext_iff_of_nodup hL.nodup hM.nodup).2 fun f => by rw [hL.mem_iff, hM.mem_iff, h]
  refine hp.eq_of_pairwise (le := fun f g : Mo D => klt f.2 g.2 = true) ?_ hL.sorted hM.sorted
  intro a b ha hb h1 h2
  rw [klt_asymm (hL.sm a ha).facs (hM.sm b hb).facs h1] at h2
  cases h2

/-- Every summand of the result is one of the given products of powers. -/
theorem SL.sub {L : List (Mo D)} (h : SL cfg L) {M N : List (Mo D)} (hc : co L = co M + co N) : ∀ m ∈ L, ∃ n ∈ M ++ N, n.2 = m.2 := by
  intro m hm
  by_contra hn
  have := (h.mem_iff m).1 hm
  rw [hc, Finsupp.add_apply, co_none fun g hg e => hn ⟨g, by simp [hg], e⟩, co_none fun g hg e => hn ⟨g, by simp [hg], e⟩] at this
  exact this.2 (by rw [← this.1, add_zero])

theorem SM.isSum {q : ℚ} {P : List (Expr D × ℚ)} (h : SM cfg q P) : (mexpr q P).isSum = false := by
  rcases mexpr_cases q P with ⟨rfl, e⟩ | ⟨f, rfl, _, e⟩ | ⟨_, _, e⟩
  · rw [e]; rfl
  · rw [e]
    rcases h.facs.cons.1.cases with ⟨s, hs⟩ | ⟨l, h1, hl⟩ | ⟨k, hk⟩
    · rw [hs]; rfl
    · exfalso
      refine h.ns ⟨l, ?_⟩
      obtain ⟨b, k⟩ := f
      unfold fac at hl
      split at hl
      · rename_i e1; simp only at e1 hl; rw [e1, hl]
      · cases hl
    · rw [hk]; rfl
  · rw [e]; rfl

/-- What merging two lists of summands gives. -/
structure Merged (cfg : Cfg D) (L L' R : List (Mo D)) : Prop where
  sl : SL cfg R
  co : co R = co L + co L'

theorem tot_mergeSum_sl (hc : cfg.Ok) {L L' : List (Mo D)} (h : SL cfg L) (h' : SL cfg L') :
    ∃ R, Tot cfg (fun E => mergeSum E (L.map em) (L'.map em)) (R.map em) ∧ Merged cfg L L' R := by
  induction hn : L.length + L'.length using Nat.strong_induction_on generalizing L L' with
  | _ n ih =>
  match L, L' with
  | [], L' =>
    refine ⟨L', ?_, h', by simp⟩
    simp only [List.map_nil, mergeSum]; exact tot_pure _
  | m :: L, [] =>
    refine ⟨m :: L, ?_, h, by simp⟩
    simp only [List.map_nil, List.map_cons, mergeSum]; exact tot_pure _
  | m :: L, m' :: L' =>
    obtain ⟨hm, hL, nL⟩ := h.cons
    obtain ⟨hm', hL', nL'⟩ := h'.cons
    obtain ⟨r, hT, hr⟩ := tot_two hc hm hm'
    have hT2 : Tot cfg (fun E => simplTwoSummands E (em m) (em m')) r := by
      simp only [simplTwoSummands, em, hm.isSum, hm'.isSum, Bool.or_self, Bool.false_eq_true, if_false]
      exact hT
    simp only [List.length_cons] at hn
    simp only [List.map_cons, mergeSum]
    cases hr with
    | gone hr hs he =>
      obtain ⟨R, hR, Mg⟩ := ih (L.length + L'.length) (by omega) hL hL' rfl
      refine ⟨R, tot_bind hT2 ?_, Mg.sl, ?_⟩
      · rcases hr with rfl | rfl
        · exact tot_mergeSum hR
        · simp only [zero_eq, isZero_ratE, decide_true, if_true]; exact tot_mergeSum hR
      · rw [Mg.co, co_cons, co_cons, add_add_add_comm, he, ← Finsupp.single_add, hs, Finsupp.single_zero, zero_add]
    | one hr hs he =>
      obtain ⟨R, hR, Mg⟩ := ih (L.length + L'.length) (by omega) hL hL' rfl
      refine ⟨(m.1 + m'.1, m.2) :: R, tot_bind hT2 ?_, SL.mk' (hm.coef hs) Mg.sl ?_, ?_⟩
      · subst hr
        have : (mexpr (m.1 + m'.1) m.2).isZero = false := mexpr_isZero hs hm.facs
        simp only [this, Bool.false_eq_true, if_false]
        exact tot_bind (tot_mergeSum hR) (tot_pure _)
      · intro x hx
        obtain ⟨y, hy, e⟩ := Mg.sl.sub Mg.co x hx
        simp only
        rw [← e]
        rcases List.mem_append.1 hy with hy | hy
        · exact nL y hy
        · rw [he]; exact nL' y hy
      · rw [co_cons, Mg.co, co_cons, co_cons, add_add_add_comm, ← he, ← Finsupp.single_add]
    | both hr hne =>
      have ex : Exact (em m) := mexpr_exact hm.facs
      have ex' : Exact (em m') := mexpr_exact hm'.facs
      have hne1 : em m ≠ em m' := fun e => hne (mexpr_inj hm.facs hm'.facs e).2
      have hp1 : doPermute (em m) (em m') = klt m'.2 m.2 := L_klt m'.1 m.1 hm'.facs hm.facs hne.symm
      by_cases hp : doPermute (em m) (em m') = true
      · have hr' : r = [em m', em m] := by rw [hr]; unfold ordered; exact if_pos hp
        obtain ⟨R, hR, Mg⟩ := ih ((m :: L).length + L'.length) (by simp only [List.length_cons]; omega) h hL' rfl
        refine ⟨m' :: R, tot_bind hT2 ?_, SL.mk' hm' Mg.sl ?_, ?_⟩
        · subst hr'
          simp only [areEqual_pair, isEqual_ne ex' ex hne1.symm, isEqual_refl ex, isEqual_refl ex', Bool.false_and,
            Bool.and_self, Bool.false_eq_true, if_false, if_true]
          exact tot_bind (tot_mergeSum hR) (tot_pure _)
        · rw [hp1] at hp
          intro x hx
          obtain ⟨y, hy, e⟩ := Mg.sl.sub Mg.co x hx
          rw [← e]
          rcases List.mem_append.1 hy with hy | hy
          · rcases List.mem_cons.1 hy with rfl | hy
            · exact hp
            · exact klt_trans hm'.facs hm.facs (hL.sm y hy).facs hp (nL y hy)
          · exact nL' y hy
        · rw [co_cons, Mg.co, co_cons m']; abel
      · have hp : doPermute (em m) (em m') = false := by simpa using hp
        have hr' : r = [em m, em m'] := by
          rw [hr]; unfold ordered; exact if_neg (by rw [show doPermute (mexpr m.1 m.2) (mexpr m'.1 m'.2) = false from hp]; simp)
        obtain ⟨R, hR, Mg⟩ := ih (L.length + (m' :: L').length) (by simp only [List.length_cons]; omega) hL h' rfl
        refine ⟨m :: R, tot_bind hT2 ?_, SL.mk' hm Mg.sl ?_, ?_⟩
        · subst hr'
          simp only [areEqual_pair, isEqual_refl ex, isEqual_refl ex', Bool.and_self, if_true]
          exact tot_bind (tot_mergeSum hR) (tot_pure _)
        · rw [hp1] at hp
          have hp := klt_total hm'.facs hm.facs hne.symm hp
          intro x hx
          obtain ⟨y, hy, e⟩ := Mg.sl.sub Mg.co x hx
          rw [← e]
          rcases List.mem_append.1 hy with hy | hy
          · exact nL y hy
          · rcases List.mem_cons.1 hy with rfl | hy
            · exact hp
            · exact klt_trans hm.facs hm'.facs (hL'.sm y hy).facs hp (nL' y hy)
        · rw [co_cons, Mg.co, co_cons m]; abel

/-- A list of operands of a sum: summands, or a single zero. -/
def Rep (l : List (Expr D)) (L : List (Mo D)) : Prop := l = L.map em ∨ (L = [] ∧ l = [zero])

theorem tot_mergeSum_rep (hc : cfg.Ok) {l l' : List (Expr D)} {L L' : List (Mo D)} (h : SL cfg L) (h' : SL cfg L')
    (hl : Rep l L) (hl' : Rep l' L') :
    ∃ r R, Tot cfg (fun E => mergeSum E l l') r ∧ Rep r R ∧ Merged cfg L L' R := by
  rcases hl with rfl | ⟨rfl, rfl⟩
  · rcases hl' with rfl | ⟨rfl, rfl⟩
    · obtain ⟨R, hR, Mg⟩ := tot_mergeSum_sl hc h h'
      exact ⟨_, R, hR, .inl rfl, Mg⟩
    · have Mg : Merged cfg L [] L := ⟨h, by simp⟩
      match L with
      | [] => exact ⟨_, [], (by simp only [List.map_nil, mergeSum]; exact tot_pure _), .inr ⟨rfl, rfl⟩, Mg⟩
      | m :: L =>
        refine ⟨(m :: L).map em, m :: L, ?_, .inl rfl, Mg⟩
        have hz : (em m).isZero = false := mexpr_isZero h.cons.1.ne h.cons.1.facs
        have hs : (em m).isSum = false := h.cons.1.isSum
        have hs0 : (.num (.rat 0) : Expr D).isSum = false := rfl
        simp only [List.map_cons, mergeSum, simplTwoSummands, hs, zero_eq, hs0, Bool.or_self, Bool.false_eq_true,
          if_false, simplTwoSummandsWithoutSum, hz, isZero_ratE, decide_true, if_true]
        refine tot_bind (tot_pure _) ?_
        simp only [hz, Bool.false_eq_true, if_false]
        refine tot_bind (tot_mergeSum (a := L.map em) ?_) (tot_pure _)
        cases L with
        | nil => simp only [List.map_nil, mergeSum]; exact tot_pure _
        | cons x L => simp only [List.map_cons, mergeSum]; exact tot_pure _
  · have Mg : Merged cfg [] L' L' := ⟨h', by simp⟩
    rcases hl' with rfl | ⟨rfl, rfl⟩
    · match L' with
      | [] => exact ⟨_, [], (by simp only [List.map_nil, mergeSum]; exact tot_pure _), .inr ⟨rfl, rfl⟩, Mg⟩
      | m :: L =>
        refine ⟨(m :: L).map em, m :: L, ?_, .inl rfl, Mg⟩
        have hz : (em m).isZero = false := mexpr_isZero h'.cons.1.ne h'.cons.1.facs
        have hs : (em m).isSum = false := h'.cons.1.isSum
        have hs0 : (.num (.rat 0) : Expr D).isSum = false := rfl
        simp only [List.map_cons, mergeSum, simplTwoSummands, hs, zero_eq, hs0, Bool.or_self, Bool.false_eq_true,
          if_false, simplTwoSummandsWithoutSum, hz, isZero_ratE, decide_true, if_true]
        refine tot_bind (tot_pure _) ?_
        simp only [hz, Bool.false_eq_true, if_false]
        refine tot_bind (tot_mergeSum (a := L.map em) ?_) (tot_pure _)
        simp only [mergeSum]; exact tot_pure _
    · refine ⟨[], [], ?_, .inl rfl, Mg⟩
      simp only [mergeSum, simplTwoSummands, zero_eq, Expr.isSum, Bool.or_self, Bool.false_eq_true,
        if_false, simplTwoSummandsWithoutSum, isZero_ratE, decide_true, if_true]
      refine tot_bind (tot_pure _) ?_
      simp only [isZero_ratE, decide_true, if_true]
      exact tot_mergeSum (by simp only [mergeSum]; exact tot_pure _)

theorem rep_summands {L : List (Mo D)} (h : SL cfg L) : Rep (summands (sumOf (L.map em))) L := by
  match L with
  | [] => exact .inr ⟨rfl, by simp [sumOf, summands, zero_eq]⟩
  | [m] =>
    refine .inl ?_
    have hs : (em m).isSum = false := h.cons.1.isSum
    simp only [List.map_cons, List.map_nil, sumOf]
    cases he : em m <;> first | rfl | (rw [he] at hs; cases hs)
  | m :: m' :: L => exact .inl rfl

theorem sumOf_isSum {L : List (Mo D)} (h : SL cfg L) : (sumOf (L.map em)).isSum = decide (2 ≤ L.length) := by
  match L with
  | [] => rfl
  | [m] => simp [sumOf, show (em m).isSum = false from h.cons.1.isSum]
  | m :: m' :: L => simp [sumOf, Expr.isSum]

theorem sumOf_isUndefined {L : List (Mo D)} (h : SL cfg L) : (sumOf (L.map em)).isUndefined = false := by
  match L with
  | [] => rfl
  | [m] => simp only [List.map_cons, List.map_nil, sumOf]; exact mexpr_isUndefined h.cons.1.facs
  | m :: m' :: L => rfl

/-- Two summands, each a sum or not. -/
theorem tot_simplTwoSummands (hc : cfg.Ok) {L L' : List (Mo D)} (h : SL cfg L) (h' : SL cfg L') :
    ∃ r R, Tot cfg (fun E => simplTwoSummands E (sumOf (L.map em)) (sumOf (L'.map em))) r ∧ Rep r R ∧ Merged cfg L L' R := by
  by_cases hs : ((sumOf (L.map em)).isSum || (sumOf (L'.map em)).isSum) = true
  · obtain ⟨r, R, hT, hr, Mg⟩ := tot_mergeSum_rep hc h h' (rep_summands h) (rep_summands h')
    refine ⟨r, R, ?_, hr, Mg⟩
    simp only [simplTwoSummands, hs, if_true]
    exact tot_mergeSum hT
  · have hs' := hs
    rw [Bool.or_eq_true, not_or, sumOf_isSum h, sumOf_isSum h'] at hs'
    simp only [simplTwoSummands, hs, Bool.false_eq_true, if_false]
    match L, L' with
    | [], L' =>
      refine ⟨[sumOf (L'.map em)], L', ?_, ?_, h', by simp⟩
      · simp only [List.map_nil, sumOf, simplTwoSummandsWithoutSum, zero_eq, isZero_ratE, decide_true, if_true]; exact tot_pure _
      · match L' with
        | [] => exact .inr ⟨rfl, rfl⟩
        | [m] => exact .inl rfl
        | _ :: _ :: _ => simp at hs'
    | [m], [] =>
      refine ⟨[em m], [m], ?_, .inl rfl, h, by simp⟩
      have hz : (em m).isZero = false := mexpr_isZero h.cons.1.ne h.cons.1.facs
      simp only [List.map_nil, List.map_cons, sumOf, simplTwoSummandsWithoutSum, hz, zero_eq, isZero_ratE, decide_true, if_true,
        Bool.false_eq_true, if_false]
      exact tot_pure _
    | [m], [m'] =>
      obtain ⟨r, hT, hr⟩ := tot_two hc h.cons.1 h'.cons.1
      obtain ⟨R, hR, Mg⟩ := tot_mergeSum_sl hc h h'
      have hT2 : Tot cfg (fun E => simplTwoSummands E (em m) (em m')) r := by
        simp only [simplTwoSummands, em, h.cons.1.isSum, h'.cons.1.isSum, Bool.or_self, Bool.false_eq_true, if_false]
        exact hT
      refine ⟨r, R, hT, ?_, Mg⟩
      simp only [List.map_cons, List.map_nil, mergeSum] at hR
      have nil2 : Tot cfg (fun E => E.mergeSum [] []) ([] : List (Expr D)) := tot_mergeSum (by simp only [mergeSum]; exact tot_pure _)
      have ex : Exact (em m) := mexpr_exact h.cons.1.facs
      have ex' : Exact (em m') := mexpr_exact h'.cons.1.facs
      cases hr with
      | gone hr hs he =>
        have hR2 : R.map em = [] := by
          refine hR.unique (tot_bind hT2 ?_)
          rcases hr with rfl | rfl
          · exact nil2
          · simp only [zero_eq, isZero_ratE, decide_true, if_true]; exact nil2
        have hR3 : R = [] := List.map_eq_nil_iff.1 hR2
        rcases hr with rfl | rfl
        · exact .inl (by rw [hR2])
        · exact .inr ⟨hR3, rfl⟩
      | one hr hs he =>
        refine .inl (Eq.symm ?_)
        rw [hr]
        refine hR.unique (tot_bind hT2 ?_)
        subst hr
        have : (mexpr (m.1 + m'.1) m.2).isZero = false := mexpr_isZero hs h.cons.1.facs
        simp only [this, Bool.false_eq_true, if_false]
        exact tot_bind nil2 (tot_pure _)
      | both hr hne =>
        refine .inl (Eq.symm ?_)
        refine hR.unique (tot_bind hT2 ?_)
        have hne1 : em m ≠ em m' := fun e => hne (mexpr_inj h.cons.1.facs h'.cons.1.facs e).2
        by_cases hp : doPermute (em m) (em m') = true
        · have hr' : r = [em m', em m] := by rw [hr]; unfold ordered; exact if_pos hp
          rw [hr']
          simp only [areEqual_pair, isEqual_ne ex' ex hne1.symm, isEqual_refl ex, isEqual_refl ex', Bool.false_and,
            Bool.and_self, Bool.false_eq_true, if_false, if_true]
          exact tot_bind (tot_mergeSum (a := [em m]) (by simp only [mergeSum]; exact tot_pure _)) (tot_pure _)
        · have hr' : r = [em m, em m'] := by rw [hr]; unfold ordered; exact if_neg hp
          rw [hr']
          simp only [areEqual_pair, isEqual_refl ex, isEqual_refl ex', Bool.and_self, if_true]
          exact tot_bind (tot_mergeSum (a := [em m']) (by simp only [mergeSum]; exact tot_pure _)) (tot_pure _)
    | [m], _ :: _ :: _ => simp at hs'
    | _ :: _ :: _, _ => simp at hs'

/-- What adding several lists of summands gives. -/
structure Added (cfg : Cfg D) (Ls : List (List (Mo D))) (R : List (Mo D)) : Prop where
  sl : SL cfg R
  co : co R = (Ls.map co).sum

theorem tot_simplSum_sl (hc : cfg.Ok) : ∀ Ls : List (List (Mo D)), 2 ≤ Ls.length → (∀ L ∈ Ls, SL cfg L) →
    ∃ r R, Tot cfg (fun E => simplSum E (Ls.map fun L => sumOf (L.map em))) r ∧ Rep r R ∧ Added cfg Ls R
  | [], h, _ => by simp at h
  | [_], h, _ => by simp at h
  | [L, L'], _, h => by
    obtain ⟨r, R, hT, hr, Mg⟩ := tot_simplTwoSummands hc (h L (by simp)) (h L' (by simp))
    exact ⟨r, R, hT, hr, Mg.sl, by simp [Mg.co]⟩
  | L :: L' :: L'' :: Ls, _, h => by
    obtain ⟨r, R, hT, hr, A⟩ := tot_simplSum_sl hc (L' :: L'' :: Ls) (by simp) (fun x hx => h x (by simp [hx]))
    obtain ⟨s, S, hT2, hs, Mg⟩ := tot_mergeSum_rep hc (h L (by simp)) A.sl (rep_summands (h L (by simp))) hr
    refine ⟨s, S, ?_, hs, Mg.sl, by rw [Mg.co, A.co]; simp⟩
    simp only [List.map_cons, simplSum]
    exact tot_bind (tot_simplSum hT) (tot_mergeSum hT2)

/-- Sum::create for sums in order: the numbers in front are added. -/
theorem tot_sumCreate (hc : cfg.Ok) {Ls : List (List (Mo D))} (hne : Ls ≠ []) (h : ∀ L ∈ Ls, SL cfg L) :
    ∃ R, Tot cfg (fun E => sumCreate E (Ls.map fun L => sumOf (L.map em))) (sumOf (R.map em)) ∧ Added cfg Ls R := by
  have hu : ∀ Ls : List (List (Mo D)), (∀ L ∈ Ls, SL cfg L) → (Ls.map fun L => sumOf (L.map em)).any isUndefined = false := by
    intro Ls h
    rw [List.any_eq_false]
    intro e he
    obtain ⟨L, hL, rfl⟩ := List.mem_map.1 he
    rw [sumOf_isUndefined (h L hL)]; simp
  have hu := hu Ls h
  match Ls, hne, h, hu with
  | [], hne, _, _ => exact absurd rfl hne
  | [L], _, h, hu =>
    refine ⟨L, ?_, h L (by simp), by simp⟩
    unfold sumCreate
    simp only [hu, Bool.false_eq_true, if_false]
    exact tot_pure _
  | L :: L' :: Ls, _, h, hu =>
    obtain ⟨r, R, hT, hr, A⟩ := tot_simplSum_sl hc (L :: L' :: Ls) (by simp) h
    refine ⟨R, ?_, A⟩
    unfold sumCreate
    simp only [hu, Bool.false_eq_true, if_false]
    simp only [List.map_cons] at hT ⊢
    refine tot_bind (tot_sumSimplify hT) ?_
    rcases hr with rfl | ⟨rfl, rfl⟩
    · match R with
      | [] => exact tot_pure _
      | [m] => exact tot_pure _
      | _ :: _ :: _ => exact tot_pure _
    · exact tot_pure _

end Tsym.Qf
