import Verif.QSummand

set_option autoImplicit false
set_option linter.unusedSectionVars false
set_option linter.unusedSimpArgs false
set_option linter.unusedVariables false

/-!
# Two summands (continued)
-/

namespace Tsym.Qf

open Expr
open scoped Classical

variable {D : Type} [Flt D] [LawfulFlt D] {cfg : Cfg D}

/-- The outcome for two summands. -/
inductive Two (q : ℚ) (P : List (Expr D × ℚ)) (q' : ℚ) (P' : List (Expr D × ℚ)) (r : List (Expr D)) : Prop
  | gone (hr : r = [] ∨ r = [zero]) (hs : q + q' = 0) (he : P = P')
  | one (hr : r = [mexpr (q + q') P]) (hs : q + q' ≠ 0) (he : P = P')
  | both (hr : r = ordered (mexpr q P) (mexpr q' P')) (hne : P ≠ P')

section

variable {q q' : ℚ} {P P' : List (Expr D × ℚ)}

theorem isEqual_mexpr (hP : QFs cfg P) (hP' : QFs cfg P') : isEqual (mexpr 1 P) (mexpr 1 P') = decide (P = P') := by
  by_cases h : P = P'
  · subst h; rw [isEqual_refl (mexpr_exact hP)]; simp
  · rw [isEqual_ne (mexpr_exact hP) (mexpr_exact hP') fun e => h (mexpr_inj hP hP' e).2]; simp [h]

theorem tot_haveEqualNonConst (hc : cfg.Ok) (h : SM cfg q P) (h' : SM cfg q' P') :
    Tot cfg (fun E => haveEqualNonConstTerms E (mexpr q P) (mexpr q' P')) (decide (P = P' ∧ P ≠ [])) := by
  have hT := tot_nonConstTerm hc (q := q) h.can
  have hT' := tot_nonConstTerm hc (q := q') h'.can
  have e : (if (mexpr 1 P).isOne || (mexpr 1 P').isOne then false else isEqual (mexpr 1 P) (mexpr 1 P'))
      = decide (P = P' ∧ P ≠ []) := by
    rw [isEqual_mexpr h.facs h'.facs]
    by_cases hP : P = []
    · subst hP
      rw [← num_mexpr, isOne_ratE]; simp
    · rw [mexpr_isOne h.facs hP]
      by_cases hP' : P' = []
      · subst hP'
        rw [← num_mexpr, isOne_ratE]; simp [hP]
      · rw [mexpr_isOne h'.facs hP']; simp [hP]
  rw [← e]
  exact tot_bind hT (tot_bind hT' (tot_pure _))

theorem tot_simplTwoOther (hc : cfg.Ok) (h : SM cfg q P) (h' : SM cfg q' P') (hn : ¬ (P = [] ∧ P' = [])) :
    ∃ r, Tot cfg (fun E => simplTwoOther E (mexpr q P) (mexpr q' P')) r ∧ Two q P q' P' r := by
  have hb := tot_haveEqualNonConst hc h h'
  have hT := tot_nonConstTerm hc (q := q) h.can
  unfold simplTwoOther
  by_cases hPP : P = P'
  · subst hPP
    have hne : P ≠ [] := fun e => hn ⟨e, e⟩
    have hbt : decide (P = P ∧ P ≠ []) = true := by simp [hne]
    rw [hbt] at hb
    by_cases hz : q + q' = 0
    · refine ⟨[zero], tot_bind (tot_whenTrue hb) ?_, .gone (.inr rfl) hz rfl⟩
      simp only [if_true, simplEqualNonConstTerms]
      refine tot_bind (tot_constTerm h.ne h.facs) (tot_bind (tot_constTerm h'.ne h'.facs) (tot_bind (tot_sum_num q q') ?_))
      simp only [Expr.isSum, Bool.not_false, if_true]
      refine tot_bind hT (tot_bind (a := zero) (tot_prod ?_) (tot_pure _))
      rw [hz]
      have hu := mexpr_isUndefined (q := 1) h.facs
      simp only [prodCreate, List.any_cons, List.any_nil, isZero_ratE, decide_true, Bool.true_or, if_true,
        Expr.isUndefined, hu, Bool.or_self, Bool.false_eq_true, if_false]
      have : Expr.isUndefined (mexpr 1 P) = false := hu
      unfold Expr.isUndefined at this
      simp only [this]
      exact tot_pure _
    · refine ⟨[mexpr (q + q') P], tot_bind (tot_whenTrue hb) ?_, .one rfl hz rfl⟩
      simp only [if_true, simplEqualNonConstTerms]
      refine tot_bind (tot_constTerm h.ne h.facs) (tot_bind (tot_constTerm h'.ne h'.facs) (tot_bind (tot_sum_num q q') ?_))
      simp only [Expr.isSum, Bool.not_false, if_true]
      exact tot_bind hT (tot_bind (tot_prod (tot_scale hc hz h)) (tot_pure _))
  · have hT1 := tot_nonNumericTerm hc (q := q) h.can
    have hT1' := tot_nonNumericTerm hc (q := q') h'.can
    have hbf : decide (P = P' ∧ P ≠ []) = false := by simp [hPP]
    rw [hbf] at hb
    refine ⟨_, tot_bind (tot_whenTrue hb) ?_, .both rfl hPP⟩
    simp only [Bool.false_eq_true, if_false]
    have hb2 : Tot cfg (fun E => haveEqualNonNumericTerms E (mexpr q P) (mexpr q' P')) (isEqual (mexpr 1 P) (mexpr 1 P')) :=
      tot_bind hT1 (tot_bind hT1' (tot_pure _))
    rw [isEqual_mexpr h.facs h'.facs, decide_eq_false hPP] at hb2
    refine tot_bind (tot_whenTrue hb2) ?_
    simp only [Bool.false_eq_true, if_false]
    have hTU' := tot_nonConstTerm hc (q := q') h'.can
    refine tot_bind (a := false) (tot_whenTrue ?_) ?_
    · unfold haveContractableSinCos
      refine tot_bind hT (tot_bind hTU' (tot_bind (tot_constTerm h.ne h.facs) (tot_bind (tot_constTerm h'.ne h'.facs) ?_)))
      by_cases hq : isEqual (.num (.rat q) : Expr D) (.num (.rat q')) = true
      · simp only [hq, if_true]
        refine tot_bind (a := false) ?_ ?_
        · unfold areSinAndCosSquare
          by_cases hp : (!(mexpr 1 P).isPower || !(mexpr 1 P').isPower) = true
          · simp only [hp, if_true]; exact tot_pure _
          · simp only [hp, Bool.false_eq_true, if_false]
            simp only [Bool.or_eq_true, Bool.not_eq_true', not_or, Bool.not_eq_false] at hp
            have pw : ∀ V : List (Expr D × ℚ), QFs cfg V → (mexpr 1 V).isPower = true →
                ∃ b k, mexpr 1 V = .pow b (.num (.rat k)) ∧ ∀ f x, b ≠ .fn f x := by
              intro V hV hp
              rcases mexpr_cases 1 V with ⟨rfl, e⟩ | ⟨f, rfl, _, e⟩ | ⟨_, _, e⟩
              · rw [e] at hp; simp [Expr.isPower] at hp
              · rcases hV.cons.1.cases with ⟨s, hs⟩ | ⟨l, _, hl⟩ | ⟨k, hk⟩
                · rw [e, hs] at hp; simp [Expr.isPower] at hp
                · rw [e, hl] at hp; simp [Expr.isPower] at hp
                · refine ⟨f.1, k, e.trans hk, ?_⟩
                  intro g x hg
                  rcases hV.cons.1.base.shape with ⟨s, hs⟩ | ⟨l, hl⟩
                  · rw [hs] at hg; cases hg
                  · rw [hl] at hg; cases hg
              · rw [e] at hp; simp [Expr.isPower] at hp
            obtain ⟨b, k, e1, f1⟩ := pw P h.facs hp.1
            obtain ⟨b', k', e2, f2⟩ := pw P' h'.facs hp.2
            rw [e1, e2]
            simp only [Expr.exp, Expr.base]
            have ev : ∀ k : ℚ, ∃ v, Tot cfg (fun _ => evalsTo (.num (.rat k) : Expr D) 2) v := fun k =>
              ⟨_, tot_bind (tot_lift (a := some (.rat k)) rfl) (tot_pure _)⟩
            obtain ⟨v, hv⟩ := ev k
            obtain ⟨v', hv'⟩ := ev k'
            refine tot_bind hv ?_
            cases v with
            | false => simp only [Bool.false_eq_true, if_false]; exact tot_pure _
            | true =>
              simp only [if_true]
              refine tot_bind hv' ?_
              have : areSinAndCos b b' = false := by
                unfold areSinAndCos
                split
                · exact absurd rfl (f1 _ _)
                · exact absurd rfl (f1 _ _)
                · rfl
              rw [this, Bool.and_false]
              exact tot_pure _
        · simp only [Bool.false_eq_true, if_false]; exact tot_pure _
      · simp only [hq, Bool.false_eq_true, if_false]; exact tot_pure _
    · simp only [Bool.false_eq_true, if_false]; exact tot_pure _

theorem tot_two (hc : cfg.Ok) (h : SM cfg q P) (h' : SM cfg q' P') :
    ∃ r, Tot cfg (fun E => simplTwoSummandsWithoutSum E (mexpr q P) (mexpr q' P')) r ∧ Two q P q' P' r := by
  by_cases hn : P = [] ∧ P' = []
  · obtain ⟨rfl, rfl⟩ := hn
    rw [← num_mexpr, ← num_mexpr]
    simp only [simplTwoSummandsWithoutSum, isZero_ratE, h.ne, h'.ne, decide_false, Bool.false_eq_true, if_false, addNumerics,
      Number.add, eqv_rat_zero, decide_eq_true_eq]
    by_cases hz : q + q' = 0
    · refine ⟨[], ?_, .gone (.inl rfl) hz rfl⟩
      simp only [hz, if_true]; exact tot_pure _
    · refine ⟨[mexpr (q + q') []], ?_, .one rfl hz rfl⟩
      simp only [hz, if_false, ← num_mexpr]; exact tot_pure _
  · obtain ⟨r, hr, ht⟩ := tot_simplTwoOther hc h h' hn
    refine ⟨r, ?_, ht⟩
    simp only [simplTwoSummandsWithoutSum, mexpr_isZero h.ne h.facs, mexpr_isZero h'.ne h'.facs, Bool.false_eq_true, if_false]
    split
    · rename_i a b e1 e2
      exfalso
      have i1 := mexpr_isNumeric (q := q) h.facs
      have i2 := mexpr_isNumeric (q := q') h'.facs
      rw [e1] at i1
      rw [e2] at i2
      simp only [Expr.isNumeric] at i1 i2
      exact hn ⟨by simpa using i1.symm, by simpa using i2.symm⟩
    · exact hr

end

end Tsym.Qf
