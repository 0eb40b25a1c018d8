import Verif.SurdList
import Verif.SqrtIndep

set_option autoImplicit false
set_option linter.unusedSectionVars false
set_option linter.unusedSimpArgs false
set_option linter.unusedVariables false

/-!
# Helper lemmas: sums of lists of multiples of square roots, in order
-/

namespace Tsym.Sd

open Expr NumPowerSimpl
open scoped Classical

variable {D : Type} [Flt D] [LawfulFlt D] {cfg : Cfg D}

/-- The operands of a sum, in order. -/
structure SL (L : List Mo) : Prop where
  sm : ∀ m ∈ L, SM m.1 m.2
  sorted : L.Pairwise fun m n => m.2 < n.2

/-- The number in front of each product of powers. -/
noncomputable def co (L : List Mo) : ℕ →₀ ℚ := (L.map fun m => Finsupp.single m.2 m.1).sum

@[simp] theorem co_nil : co ([] : List Mo) = 0 := rfl
@[simp] theorem co_cons (m : Mo) (L : List Mo) : co (m :: L) = Finsupp.single m.2 m.1 + co L := by simp [co]

theorem SL.nil : SL [] := ⟨by simp, by simp⟩

theorem SL.single {m : Mo} (h : SM m.1 m.2) : SL [m] := ⟨by simpa using h, by simp⟩

theorem SL.cons {m : Mo} {L : List Mo} (h : SL (m :: L)) :
    SM m.1 m.2 ∧ SL L ∧ ∀ n ∈ L, m.2 < n.2 :=
  ⟨h.sm m (by simp), ⟨fun n hn => h.sm n (by simp [hn]), (List.pairwise_cons.1 h.sorted).2⟩, (List.pairwise_cons.1 h.sorted).1⟩

theorem SL.mk' {m : Mo} {L : List Mo} (h : SM m.1 m.2) (hL : SL L) (ht : ∀ n ∈ L, m.2 < n.2) :
    SL (m :: L) :=
  ⟨fun n hn => by rcases List.mem_cons.1 hn with rfl | hn; exacts [h, hL.sm n hn], List.pairwise_cons.2 ⟨ht, hL.sorted⟩⟩

theorem co_none {L : List Mo} {P : ℕ} (h : ∀ m ∈ L, m.2 ≠ P) : co L P = 0 := by
  induction L with
  | nil => simp
  | cons m L ih =>
    rw [co_cons, Finsupp.add_apply, ih fun n hn => h n (by simp [hn]), Finsupp.single_eq_of_ne (h m (by simp)).symm, add_zero]

theorem SL.ne {m : Mo} {L : List Mo} (h : SL (m :: L)) : ∀ n ∈ L, n.2 ≠ m.2 := by
  intro n hn e
  have := h.cons.2.2 n hn
  rw [e] at this
  exact lt_irrefl _ this

theorem SL.mem_iff {L : List Mo} (h : SL L) (m : Mo) : m ∈ L ↔ co L m.2 = m.1 ∧ m.1 ≠ 0 := by
  induction L with
  | nil => simp; exact fun h => h.symm
  | cons g L ih =>
    obtain ⟨hg, hL, hl⟩ := h.cons
    rw [List.mem_cons, ih hL, co_cons, Finsupp.add_apply]
    by_cases e : g.2 = m.2
    · rw [e, Finsupp.single_eq_same, co_none (by rw [← e]; exact h.ne), add_zero]
      constructor
      · rintro (rfl | ⟨h1, h2⟩)
        · exact ⟨rfl, hg.ne⟩
        · exact absurd h1.symm h2
      · rintro ⟨h1, h2⟩
        exact .inl (Prod.ext h1.symm e.symm)
    · rw [Finsupp.single_eq_of_ne (Ne.symm e), zero_add]
      constructor
      · rintro (rfl | h)
        · exact absurd rfl e
        · exact h
      · exact .inr

theorem SL.nodup {L : List Mo} (h : SL L) : L.Nodup := by
  induction L with
  | nil => simp
  | cons f P ih => exact List.nodup_cons.2 ⟨fun hm => h.ne f hm rfl, ih h.cons.2.1⟩

/-- Lists in order are determined by the numbers in front. -/
theorem SL.ext {L M : List Mo} (hL : SL L) (hM : SL M) (h : co L = co M) : L = M := by
  have hp : L.Perm M := (List.perm_ext_iff_of_nodup hL.nodup hM.nodup).2 fun f => by rw [hL.mem_iff, hM.mem_iff, h]
  refine hp.eq_of_pairwise (le := fun f g : Mo => f.2 < g.2) ?_ hL.sorted hM.sorted
  intro a b ha hb h1 h2
  exact absurd h1 (not_lt.2 h2.le)

/-- Every summand of the result is one of the given products of powers. -/
theorem SL.sub {L : List Mo} (h : SL L) {M N : List Mo} (hc : co L = co M + co N) : ∀ m ∈ L, ∃ n ∈ M ++ N, n.2 = m.2 := by
  intro m hm
  by_contra hn
  have := (h.mem_iff m).1 hm
  rw [hc, Finsupp.add_apply, co_none fun g hg e => hn ⟨g, by simp [hg], e⟩, co_none fun g hg e => hn ⟨g, by simp [hg], e⟩] at this
  exact this.2 (by rw [← this.1, add_zero])

/-- What merging two lists of summands gives. -/
structure Merged (L L' R : List Mo) : Prop where
  sl : SL R
  co : co R = co L + co L'

theorem tot_mergeSum_sl {L L' : List Mo} (h : SL L) (h' : SL L') :
    ∃ R, Tot cfg (fun E => mergeSum E (L.map (em (D := D))) (L'.map (em (D := D)))) (R.map (em (D := D))) ∧ Merged L L' R := by
  induction hn : L.length + L'.length using Nat.strong_induction_on generalizing L L' with
  | _ n ih =>
  match L, L' with
  | [], L' =>
    refine ⟨L', ?_, h', by simp⟩
    simp only [List.map_nil, mergeSum]; exact tot_pure _
  | m :: L, [] =>
    refine ⟨m :: L, ?_, h, by simp⟩
    simp only [List.map_nil, List.map_cons, mergeSum]; exact tot_pure _
  | m :: L, m' :: L' =>
    obtain ⟨hm, hL, nL⟩ := h.cons
    obtain ⟨hm', hL', nL'⟩ := h'.cons
    obtain ⟨r, hT, hr⟩ := tot_two (D := D) (cfg := cfg) hm hm'
    have hT2 : Tot cfg (fun E => simplTwoSummands E (em m) (em m')) r := by
      simp only [simplTwoSummands, hm.isSum, hm'.isSum, Bool.or_self, Bool.false_eq_true, if_false]
      exact hT
    simp only [List.length_cons] at hn
    simp only [List.map_cons, mergeSum]
    cases hr with
    | gone hr hs he =>
      obtain ⟨R, hR, Mg⟩ := ih (L.length + L'.length) (by omega) hL hL' rfl
      refine ⟨R, tot_bind hT2 ?_, Mg.sl, ?_⟩
      · subst hr
        exact tot_mergeSum hR
      · rw [Mg.co, co_cons, co_cons, add_add_add_comm, he, ← Finsupp.single_add, hs, Finsupp.single_zero, zero_add]
    | one hr hs he =>
      obtain ⟨R, hR, Mg⟩ := ih (L.length + L'.length) (by omega) hL hL' rfl
      refine ⟨(m.1 + m'.1, m.2) :: R, tot_bind hT2 ?_, SL.mk' (hm.add (he ▸ hm') hs) Mg.sl ?_, ?_⟩
      · subst hr
        have : (em (m.1 + m'.1, m.2) : Expr D).isZero = false := SM.isZero (m := (m.1 + m'.1, m.2)) (hm.add (he ▸ hm') hs)
        simp only [this, Bool.false_eq_true, if_false]
        exact tot_bind (tot_mergeSum hR) (tot_pure _)
      · intro x hx
        obtain ⟨y, hy, e⟩ := Mg.sl.sub Mg.co x hx
        simp only
        rw [← e]
        rcases List.mem_append.1 hy with hy | hy
        · exact nL y hy
        · rw [he]; exact nL' y hy
      · rw [co_cons, Mg.co, co_cons, co_cons, add_add_add_comm, ← he, ← Finsupp.single_add]
    | both hr hne =>
      have ex : Exact (em m : Expr D) := em_exact m
      have ex' : Exact (em m' : Expr D) := em_exact m'
      have hne1 : (em m : Expr D) ≠ em m' := fun e => hne (congrArg Prod.snd (em_inj e))
      have hp1 : doPermute (em m : Expr D) (em m') = decide (m'.2 < m.2) := perm_em hm.pos.ne' hm'.pos.ne' hne
      by_cases hp : doPermute (em m : Expr D) (em m') = true
      · have hr' : r = [em m', em m] := by rw [hr]; unfold ordered; exact if_pos hp
        rw [hp1, decide_eq_true_eq] at hp
        obtain ⟨R, hR, Mg⟩ := ih ((m :: L).length + L'.length) (by simp only [List.length_cons]; omega) h hL' rfl
        refine ⟨m' :: R, tot_bind hT2 ?_, SL.mk' hm' Mg.sl ?_, ?_⟩
        · subst hr'
          simp only [areEqual_pair, isEqual_ne ex' ex hne1.symm, isEqual_refl ex, isEqual_refl ex', Bool.false_and,
            Bool.and_self, Bool.false_eq_true, if_false, if_true]
          exact tot_bind (tot_mergeSum hR) (tot_pure _)
        · intro x hx
          obtain ⟨y, hy, e⟩ := Mg.sl.sub Mg.co x hx
          rw [← e]
          rcases List.mem_append.1 hy with hy | hy
          · rcases List.mem_cons.1 hy with rfl | hy
            · exact hp
            · exact hp.trans (nL y hy)
          · exact nL' y hy
        · rw [co_cons, Mg.co, co_cons m']; abel
      · have hp : doPermute (em m : Expr D) (em m') = false := by simpa using hp
        have hr' : r = [em m, em m'] := by
          rw [hr]; unfold ordered; exact if_neg (by rw [hp]; simp)
        obtain ⟨R, hR, Mg⟩ := ih (L.length + (m' :: L').length) (by simp only [List.length_cons]; omega) hL h' rfl
        refine ⟨m :: R, tot_bind hT2 ?_, SL.mk' hm Mg.sl ?_, ?_⟩
        · subst hr'
          simp only [areEqual_pair, isEqual_refl ex, isEqual_refl ex', Bool.and_self, if_true]
          exact tot_bind (tot_mergeSum hR) (tot_pure _)
        · rw [hp1, decide_eq_false_iff_not] at hp
          have hp : m.2 < m'.2 := by omega
          intro x hx
          obtain ⟨y, hy, e⟩ := Mg.sl.sub Mg.co x hx
          rw [← e]
          rcases List.mem_append.1 hy with hy | hy
          · exact nL y hy
          · rcases List.mem_cons.1 hy with rfl | hy
            · exact hp
            · exact hp.trans (nL' y hy)
        · rw [co_cons, Mg.co, co_cons m]; abel

/-- A list of operands of a sum: summands, or a single zero. -/
def Rep (l : List (Expr D)) (L : List Mo) : Prop := l = L.map (em (D := D)) ∨ (L = [] ∧ l = [zero])

theorem tot_mergeSum_rep {l l' : List (Expr D)} {L L' : List Mo} (h : SL L) (h' : SL L')
    (hl : Rep l L) (hl' : Rep l' L') :
    ∃ r R, Tot cfg (fun E => mergeSum E l l') r ∧ Rep r R ∧ Merged L L' R := by
  rcases hl with rfl | ⟨rfl, rfl⟩
  · rcases hl' with rfl | ⟨rfl, rfl⟩
    · obtain ⟨R, hR, Mg⟩ := tot_mergeSum_sl (D := D) (cfg := cfg) h h'
      exact ⟨_, R, hR, .inl rfl, Mg⟩
    · have Mg : Merged L [] L := ⟨h, by simp⟩
      match L with
      | [] => exact ⟨_, [], (by simp only [List.map_nil, mergeSum]; exact tot_pure _), .inr ⟨rfl, rfl⟩, Mg⟩
      | m :: L =>
        refine ⟨(m :: L).map (em (D := D)), m :: L, ?_, .inl rfl, Mg⟩
        have hz : (em m : Expr D).isZero = false := h.cons.1.isZero
        have hs : (em m : Expr D).isSum = false := h.cons.1.isSum
        have hs0 : (.num (.rat 0) : Expr D).isSum = false := rfl
        simp only [List.map_cons, mergeSum, simplTwoSummands, hs, zero_eq, hs0, Bool.or_self, Bool.false_eq_true,
          if_false, simplTwoSummandsWithoutSum, hz, isZero_ratE, decide_true, if_true]
        refine tot_bind (tot_pure _) ?_
        simp only [hz, Bool.false_eq_true, if_false]
        refine tot_bind (tot_mergeSum (a := L.map (em (D := D))) ?_) (tot_pure _)
        cases L with
        | nil => simp only [List.map_nil, mergeSum]; exact tot_pure _
        | cons x L => simp only [List.map_cons, mergeSum]; exact tot_pure _
  · have Mg : Merged [] L' L' := ⟨h', by simp⟩
    rcases hl' with rfl | ⟨rfl, rfl⟩
    · match L' with
      | [] => exact ⟨_, [], (by simp only [List.map_nil, mergeSum]; exact tot_pure _), .inr ⟨rfl, rfl⟩, Mg⟩
      | m :: L =>
        refine ⟨(m :: L).map (em (D := D)), m :: L, ?_, .inl rfl, Mg⟩
        have hz : (em m : Expr D).isZero = false := h'.cons.1.isZero
        have hs : (em m : Expr D).isSum = false := h'.cons.1.isSum
        have hs0 : (.num (.rat 0) : Expr D).isSum = false := rfl
        simp only [List.map_cons, mergeSum, simplTwoSummands, hs, zero_eq, hs0, Bool.or_self, Bool.false_eq_true,
          if_false, simplTwoSummandsWithoutSum, hz, isZero_ratE, decide_true, if_true]
        refine tot_bind (tot_pure _) ?_
        simp only [hz, Bool.false_eq_true, if_false]
        refine tot_bind (tot_mergeSum (a := L.map (em (D := D))) ?_) (tot_pure _)
        simp only [mergeSum]; exact tot_pure _
    · refine ⟨[], [], ?_, .inl rfl, Mg⟩
      simp only [mergeSum, simplTwoSummands, zero_eq, Expr.isSum, Bool.or_self, Bool.false_eq_true,
        if_false, simplTwoSummandsWithoutSum, isZero_ratE, decide_true, if_true]
      refine tot_bind (tot_pure _) ?_
      simp only [isZero_ratE, decide_true, if_true]
      exact tot_mergeSum (by simp only [mergeSum]; exact tot_pure _)

theorem rep_summands {L : List Mo} (h : SL L) : Rep (summands (sumOf (L.map (em (D := D))))) L := by
  match L with
  | [] => exact .inr ⟨rfl, by simp [sumOf, summands, zero_eq]⟩
  | [m] =>
    refine .inl ?_
    have hs : (em m : Expr D).isSum = false := h.cons.1.isSum
    simp only [List.map_cons, List.map_nil, sumOf]
    cases he : em m <;> first | rfl | (rw [he] at hs; cases hs)
  | m :: m' :: L => exact .inl rfl

theorem sumOf_isSum {L : List Mo} (h : SL L) : (sumOf (L.map (em (D := D)))).isSum = decide (2 ≤ L.length) := by
  match L with
  | [] => rfl
  | [m] => simp [sumOf, show (em m : Expr D).isSum = false from h.cons.1.isSum]
  | m :: m' :: L => simp [sumOf, Expr.isSum]

theorem sumOf_isUndefined {L : List Mo} (h : SL L) : (sumOf (L.map (em (D := D)))).isUndefined = false := by
  match L with
  | [] => rfl
  | [m] => simp only [List.map_cons, List.map_nil, sumOf]; exact h.cons.1.isUndefined
  | m :: m' :: L => rfl

/-- Two summands, each a sum or not. -/
theorem tot_simplTwoSummands {L L' : List Mo} (h : SL L) (h' : SL L') :
    ∃ r R, Tot cfg (fun E => simplTwoSummands E (sumOf (L.map (em (D := D)))) (sumOf (L'.map (em (D := D))))) r ∧ Rep r R ∧ Merged L L' R := by
  by_cases hs : ((sumOf (L.map (em (D := D)))).isSum || (sumOf (L'.map (em (D := D)))).isSum) = true
  · obtain ⟨r, R, hT, hr, Mg⟩ := tot_mergeSum_rep (D := D) (cfg := cfg) h h' (rep_summands h) (rep_summands h')
    refine ⟨r, R, ?_, hr, Mg⟩
    simp only [simplTwoSummands, hs, if_true]
    exact tot_mergeSum hT
  · have hs' := hs
    rw [Bool.or_eq_true, not_or, sumOf_isSum h, sumOf_isSum h'] at hs'
    simp only [simplTwoSummands, hs, Bool.false_eq_true, if_false]
    match L, L' with
    | [], L' =>
      refine ⟨[sumOf (L'.map (em (D := D)))], L', ?_, ?_, h', by simp⟩
      · simp only [List.map_nil, sumOf, simplTwoSummandsWithoutSum, zero_eq, isZero_ratE, decide_true, if_true]; exact tot_pure _
      · match L' with
        | [] => exact .inr ⟨rfl, rfl⟩
        | [m] => exact .inl rfl
        | _ :: _ :: _ => simp at hs'
    | [m], [] =>
      refine ⟨[em m], [m], ?_, .inl rfl, h, by simp⟩
      have hz : (em m : Expr D).isZero = false := h.cons.1.isZero
      simp only [List.map_nil, List.map_cons, sumOf, simplTwoSummandsWithoutSum, hz, zero_eq, isZero_ratE, decide_true, if_true,
        Bool.false_eq_true, if_false]
      exact tot_pure _
    | [m], [m'] =>
      obtain ⟨r, hT, hr⟩ := tot_two (D := D) (cfg := cfg) h.cons.1 h'.cons.1
      obtain ⟨R, hR, Mg⟩ := tot_mergeSum_sl (D := D) (cfg := cfg) h h'
      have hT2 : Tot cfg (fun E => simplTwoSummands E (em m) (em m')) r := by
        simp only [simplTwoSummands, h.cons.1.isSum, h'.cons.1.isSum, Bool.or_self, Bool.false_eq_true, if_false]
        exact hT
      refine ⟨r, R, hT, ?_, Mg⟩
      simp only [List.map_cons, List.map_nil, mergeSum] at hR
      have nil2 : Tot cfg (fun E => E.mergeSum [] []) ([] : List (Expr D)) := tot_mergeSum (by simp only [mergeSum]; exact tot_pure _)
      have ex : Exact (em m : Expr D) := em_exact m
      have ex' : Exact (em m' : Expr D) := em_exact m'
      cases hr with
      | gone hr hs he =>
        have hR2 : R.map (em (D := D)) = [] := by
          refine hR.unique (tot_bind hT2 ?_)
          subst hr
          exact nil2
        have hR3 : R = [] := List.map_eq_nil_iff.1 hR2
        exact .inl (by rw [hR2, hr])
      | one hr hs he =>
        refine .inl (Eq.symm ?_)
        rw [hr]
        refine hR.unique (tot_bind hT2 ?_)
        subst hr
        have : (em (m.1 + m'.1, m.2) : Expr D).isZero = false := SM.isZero (m := (m.1 + m'.1, m.2)) (h.cons.1.add (he ▸ h'.cons.1) hs)
        simp only [this, Bool.false_eq_true, if_false]
        exact tot_bind nil2 (tot_pure _)
      | both hr hne =>
        refine .inl (Eq.symm ?_)
        refine hR.unique (tot_bind hT2 ?_)
        have hne1 : (em m : Expr D) ≠ em m' := fun e => hne (congrArg Prod.snd (em_inj e))
        by_cases hp : doPermute (em m : Expr D) (em m') = true
        · have hr' : r = [em m', em m] := by rw [hr]; unfold ordered; exact if_pos hp
          rw [hr']
          simp only [areEqual_pair, isEqual_ne ex' ex hne1.symm, isEqual_refl ex, isEqual_refl ex', Bool.false_and,
            Bool.and_self, Bool.false_eq_true, if_false, if_true]
          exact tot_bind (tot_mergeSum (a := [em m]) (by simp only [mergeSum]; exact tot_pure _)) (tot_pure _)
        · have hr' : r = [em m, em m'] := by rw [hr]; unfold ordered; exact if_neg hp
          rw [hr']
          simp only [areEqual_pair, isEqual_refl ex, isEqual_refl ex', Bool.and_self, if_true]
          exact tot_bind (tot_mergeSum (a := [em m']) (by simp only [mergeSum]; exact tot_pure _)) (tot_pure _)
    | [m], _ :: _ :: _ => simp at hs'
    | _ :: _ :: _, _ => simp at hs'

/-- What adding several lists of summands gives. -/
structure Added (Ls : List (List Mo)) (R : List Mo) : Prop where
  sl : SL R
  co : co R = (Ls.map co).sum

theorem tot_simplSum_sl : ∀ Ls : List (List Mo), 2 ≤ Ls.length → (∀ L ∈ Ls, SL L) →
    ∃ r R, Tot cfg (fun E => simplSum E (Ls.map fun L => sumOf (L.map (em (D := D))))) r ∧ Rep r R ∧ Added Ls R
  | [], h, _ => by simp at h
  | [_], h, _ => by simp at h
  | [L, L'], _, h => by
    obtain ⟨r, R, hT, hr, Mg⟩ := tot_simplTwoSummands (D := D) (cfg := cfg) (h L (by simp)) (h L' (by simp))
    exact ⟨r, R, hT, hr, Mg.sl, by simp [Mg.co]⟩
  | L :: L' :: L'' :: Ls, _, h => by
    obtain ⟨r, R, hT, hr, A⟩ := tot_simplSum_sl (L' :: L'' :: Ls) (by simp) (fun x hx => h x (by simp [hx]))
    obtain ⟨s, S, hT2, hs, Mg⟩ := tot_mergeSum_rep (h L (by simp)) A.sl (rep_summands (h L (by simp))) hr
    refine ⟨s, S, ?_, hs, Mg.sl, by rw [Mg.co, A.co]; simp⟩
    simp only [List.map_cons, simplSum]
    exact tot_bind (tot_simplSum hT) (tot_mergeSum hT2)

/-- Sum::create for sums in order: the numbers in front are added. -/
theorem tot_sumCreate {Ls : List (List Mo)} (hne : Ls ≠ []) (h : ∀ L ∈ Ls, SL L) :
    ∃ R, Tot cfg (fun E => sumCreate E (Ls.map fun L => sumOf (L.map (em (D := D))))) (sumOf (R.map (em (D := D)))) ∧ Added Ls R := by
  have hu : ∀ Ls : List (List Mo), (∀ L ∈ Ls, SL L) → (Ls.map fun L => sumOf (L.map (em (D := D)))).any isUndefined = false := by
    intro Ls h
    rw [List.any_eq_false]
    intro e he
    obtain ⟨L, hL, rfl⟩ := List.mem_map.1 he
    rw [sumOf_isUndefined (h L hL)]; simp
  have hu := hu Ls h
  match Ls, hne, h, hu with
  | [], hne, _, _ => exact absurd rfl hne
  | [L], _, h, hu =>
    refine ⟨L, ?_, h L (by simp), by simp⟩
    unfold sumCreate
    simp only [hu, Bool.false_eq_true, if_false]
    exact tot_pure _
  | L :: L' :: Ls, _, h, hu =>
    obtain ⟨r, R, hT, hr, A⟩ := tot_simplSum_sl (D := D) (cfg := cfg) (L :: L' :: Ls) (by simp) h
    refine ⟨R, ?_, A⟩
    unfold sumCreate
    simp only [hu, Bool.false_eq_true, if_false]
    simp only [List.map_cons] at hT ⊢
    refine tot_bind (tot_sumSimplify hT) ?_
    rcases hr with rfl | ⟨rfl, rfl⟩
    · match R with
      | [] => exact tot_pure _
      | [m] => exact tot_pure _
      | _ :: _ :: _ => exact tot_pure _
    · exact tot_pure _

end Tsym.Sd
