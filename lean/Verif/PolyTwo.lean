import Verif.PolySummand

set_option autoImplicit false
set_option linter.unusedSectionVars false
set_option linter.unusedSimpArgs false
set_option linter.unusedVariables false

/-!
# Two summands (continued)
-/

namespace Tsym

open Expr

variable {D : Type} [Flt D] {cfg : Cfg D} {B : Expr D → Prop}

/-- The factors are the symbols of a monomial in order. -/
def IsKey (P : List (Expr D × ℕ)) (K : Key) : Prop := K.Ok ∧ K.Sorted ∧ P = K.facs

theorem IsKey.norm {P R : List (Expr D × ℕ)} {K : Key} (h : IsKey P K) (hn : Norm cfg P R) : IsKey R K := by
  obtain ⟨h1, h2, rfl⟩ := h
  exact ⟨h1, h2, hn.id h1 h2⟩

theorem IsKey.unique {P : List (Expr D × ℕ)} {K L : Key} (h : IsKey P K) (h' : IsKey P L) : K = L :=
  Key.facs_inj (h.2.2.symm.trans h'.2.2)

/-- The outcome for two summands. -/
inductive Two (cfg : Cfg D) (B : Expr D → Prop) (q : ℚ) (P : List (Expr D × ℕ)) (q' : ℚ) (P' : List (Expr D × ℕ))
    (r : List (Expr D)) : Prop
  | gone (hr : r = [] ∨ r = [zero]) (hs : poly (mexpr q P) + poly (mexpr q' P') = 0)
      (hk : ∀ K K', IsKey P K → IsKey P' K' → K = K') (hnil : P = [] ↔ P' = [])
  | one (p : ℚ) (R : List (Expr D × ℕ)) (hr : r = [mexpr p R]) (hm : SM cfg B p R)
      (hs : poly (mexpr p R) = poly (mexpr q P) + poly (mexpr q' P'))
      (hk : ∀ K K', IsKey P K → IsKey P' K' → K = K' ∧ IsKey R K) (hnil : P = [] ↔ P' = []) (hnil' : R = [] ↔ P = [])
  | both (hr : r = ordered (mexpr q P) (mexpr q' P')) (hne : mexpr q P ≠ mexpr q' P')
      (hk : ∀ K, IsKey P K → ¬ IsKey P' K) (hnil : ¬ (P = [] ∧ P' = []))

theorem Norm.poly {P R : List (Expr D × ℕ)} (h : Norm cfg P R) : pv Tsym.poly R = pv Tsym.poly P :=
  (h.same (MvPolynomial Sym ℚ) Tsym.poly).symm

section

variable {q q' : ℚ} {P P' : List (Expr D × ℕ)}

theorem tot_haveEqualNonConst (hc : cfg.Ok) (h : SM cfg B q P) (h' : SM cfg B q' P') :
    ∃ b, Tot cfg (fun E => haveEqualNonConstTerms E (mexpr q P) (mexpr q' P')) b ∧
      (b = true → ∃ R, Norm cfg P R ∧ Norm cfg P' R ∧ P ≠ [] ∧ P' ≠ []) ∧
      (b = false → mexpr q P = mexpr q' P' → P = []) ∧
      (b = false → ∀ K, IsKey P K → IsKey P' K → P = [] ∨ P' = []) := by
  obtain ⟨R, hR, hT⟩ := tot_nonConstTerm hc (q := q) h.facs
  obtain ⟨R', hR', hT'⟩ := tot_nonConstTerm hc (q := q') h'.facs
  refine ⟨_, tot_bind hT (tot_bind hT' (tot_pure _)), ?_, ?_, ?_⟩
  · intro hb
    split at hb
    · cases hb
    · rename_i ho
      simp only [Bool.or_eq_true, not_or, Bool.not_eq_true] at ho
      rw [isEqual_eq _ (mexpr_exact hR.facs) _ (mexpr_exact hR'.facs)] at hb
      obtain ⟨_, rfl⟩ := mexpr_inj hR.facs hR'.facs hb
      refine ⟨R, hR, hR', ?_, ?_⟩
      · intro e
        have := (hR.nil_iff h.facs).1 e
        subst this
        rw [← num_mexpr, isOne_ratE] at ho
        simp at ho
      · intro e
        have := (hR'.nil_iff h'.facs).1 e
        subst this
        rw [← num_mexpr, isOne_ratE] at ho
        simp at ho
  · intro hb e
    obtain ⟨rfl, rfl⟩ := mexpr_inj h.facs h'.facs e
    have := hT.unique hT'
    obtain ⟨_, rfl⟩ := mexpr_inj hR.facs hR'.facs this
    split at hb
    · rename_i ho
      rw [hR.nil_iff h.facs]
      by_contra hne
      rw [mexpr_isOne hR.facs hne] at ho
      simp at ho
    · rw [isEqual_refl (mexpr_exact hR.facs)] at hb
      cases hb
  · intro hb K k1 k2
    split at hb
    · rename_i ho
      rw [hR.nil_iff h.facs, hR'.nil_iff h'.facs]
      by_contra hne
      rw [not_or] at hne
      rw [mexpr_isOne hR.facs hne.1, mexpr_isOne hR'.facs hne.2] at ho
      simp at ho
    · have e1 := (k1.norm hR).2.2
      have e2 := (k2.norm hR').2.2
      rw [e1, e2, isEqual_refl (mexpr_exact (e1 ▸ hR.facs))] at hb
      cases hb

theorem tot_simplTwoOther (hc : cfg.Ok) (h : SM cfg B q P) (h' : SM cfg B q' P') (hn : ¬ (P = [] ∧ P' = [])) :
    ∃ r, Tot cfg (fun E => simplTwoOther E (mexpr q P) (mexpr q' P')) r ∧ Two cfg B q P q' P' r := by
  obtain ⟨b, hb, b1, b2, b3⟩ := tot_haveEqualNonConst hc h h'
  unfold simplTwoOther
  cases b with
  | true =>
    obtain ⟨R0, n1, n2, ne1, ne2⟩ := b1 rfl
    obtain ⟨R, hR, hT⟩ := tot_nonConstTerm hc (q := q) h.facs
    have hnil : P = [] ↔ P' = [] := ⟨fun e => absurd e ne1, fun e => absurd e ne2⟩
    have hpol : pv poly P = pv poly P' := n1.poly.symm.trans n2.poly
    have hkk : ∀ K K', IsKey P K → IsKey P' K' → K = K' := fun K K' k k' => (k.norm n1).unique (k'.norm n2)
    by_cases hz : q + q' = 0
    · refine ⟨[zero], tot_bind (tot_whenTrue hb) ?_, .gone (.inr rfl) ?_ hkk hnil⟩
      · simp only [if_true, simplEqualNonConstTerms]
        refine tot_bind (tot_constTerm h.ne h.facs) (tot_bind (tot_constTerm h'.ne h'.facs) (tot_bind (tot_sum_num q q') ?_))
        simp only [Expr.isSum, Bool.not_false, if_true]
        refine tot_bind hT (tot_bind (a := zero) (tot_prod ?_) (tot_pure _))
        rw [hz]
        have hu := mexpr_isUndefined (q := 1) hR.facs
        simp only [prodCreate, List.any_cons, List.any_nil, isZero_ratE, decide_true, Bool.true_or, if_true,
          Expr.isUndefined, hu, Bool.or_self, Bool.false_eq_true, if_false]
        have : Expr.isUndefined (mexpr 1 R) = false := hu
        unfold Expr.isUndefined at this
        simp only [this]
        exact tot_pure _
      · rw [mexpr_poly h.facs, mexpr_poly h'.facs, hpol, ← add_mul, ← map_add, hz]
        simp
    · obtain ⟨S, hS, hT2⟩ := tot_scale hc hz (h.norm hR one_ne_zero)
      refine ⟨[mexpr (q + q') S], tot_bind (tot_whenTrue hb) ?_, .one (q + q') S rfl ?_ ?_ ?_ hnil ?_⟩
      · simp only [if_true, simplEqualNonConstTerms]
        refine tot_bind (tot_constTerm h.ne h.facs) (tot_bind (tot_constTerm h'.ne h'.facs) (tot_bind (tot_sum_num q q') ?_))
        simp only [Expr.isSum, Bool.not_false, if_true]
        exact tot_bind hT (tot_bind (tot_prod hT2) (tot_pure _))
      · exact (h.norm hR one_ne_zero).norm hS hz
      · rw [mexpr_poly hS.facs, mexpr_poly h.facs, mexpr_poly h'.facs, hS.poly, hR.poly, hpol, ← add_mul, ← map_add]
      · exact fun K K' k k' => ⟨hkk K K' k k', (k.norm hR).norm hS⟩
      · rw [hR.nil_iff h.facs, hS.nil_iff hR.facs]
  | false =>
    obtain ⟨R, hR, hT⟩ := tot_nonNumericTerm hc (q := q) h.facs
    obtain ⟨R', hR', hT'⟩ := tot_nonNumericTerm hc (q := q') h'.facs
    have fR : PFacs cfg R := by rcases hR with rfl | hR; exacts [h.facs, hR.facs]
    have fR' : PFacs cfg R' := by rcases hR' with rfl | hR'; exacts [h'.facs, hR'.facs]
    have pR : pv poly R = pv poly P := by rcases hR with rfl | hR; exacts [rfl, hR.poly]
    have pR' : pv poly R' = pv poly P' := by rcases hR' with rfl | hR'; exacts [rfl, hR'.poly]
    have zR : R = [] ↔ P = [] := by rcases hR with rfl | hR; exacts [.rfl, (hR.nil_iff h.facs).symm]
    have zR' : R' = [] ↔ P' = [] := by rcases hR' with rfl | hR'; exacts [.rfl, (hR'.nil_iff h'.facs).symm]
    have kR : ∀ K, IsKey P K → IsKey R K := by rcases hR with rfl | hR; exacts [fun K k => k, fun K k => k.norm hR]
    have kR' : ∀ K, IsKey P' K → IsKey R' K := by rcases hR' with rfl | hR'; exacts [fun K k => k, fun K k => k.norm hR']
    have sR : ∀ p, p ≠ 0 → SM cfg B p R := fun p hp => by
      rcases hR with rfl | hR
      · exact h.coef hp
      · exact h.norm hR hp
    suffices hh : ∃ r, Tot cfg _ r ∧ Two cfg B q P q' P' r from
      hh.imp fun r hr => ⟨tot_bind (tot_whenTrue hb) hr.1, hr.2⟩
    simp only [Bool.false_eq_true, if_false]
    have hb2 : Tot cfg (fun E => haveEqualNonNumericTerms E (mexpr q P) (mexpr q' P')) (isEqual (mexpr 1 R) (mexpr 1 R')) :=
      tot_bind hT (tot_bind hT' (tot_pure _))
    suffices hh : ∃ r, Tot cfg _ r ∧ Two cfg B q P q' P' r from
      hh.imp fun r hr => ⟨tot_bind (tot_whenTrue hb2) hr.1, hr.2⟩
    by_cases he : isEqual (mexpr 1 R) (mexpr 1 R') = true
    · rw [he]
      simp only [if_true]
      rw [isEqual_eq _ (mexpr_exact fR) _ (mexpr_exact fR')] at he
      obtain ⟨_, rfl⟩ := mexpr_inj fR fR' he
      have hnil : P = [] ↔ P' = [] := by rw [← zR, zR']
      have hkk : ∀ K K', IsKey P K → IsKey P' K' → K = K' := fun K K' k k' => (kR K k).unique (kR' K' k')
      by_cases hz : q + q' = 0
      · refine ⟨[], ?_, .gone (.inl rfl) ?_ hkk hnil⟩
        · unfold simplEqualNonNumericTerms
          refine tot_bind (tot_numericTerm h.facs) (tot_bind (tot_numericTerm h'.facs) (tot_bind (tot_sum_num q q')
            (tot_bind hT (tot_bind (a := zero) (tot_prod ?_) ?_))))
          · rw [hz]
            have hu := mexpr_isUndefined (q := 1) fR
            have : Expr.isUndefined (mexpr 1 R) = false := hu
            unfold Expr.isUndefined at this
            simp only [prodCreate, List.any_cons, List.any_nil, isZero_ratE, decide_true, Bool.true_or, if_true,
              Expr.isUndefined, hu, Bool.or_self, Bool.false_eq_true, if_false, this]
            exact tot_pure _
          · simp only [zero_eq, isZero_ratE, decide_true, if_true]
            exact tot_pure _
        · rw [mexpr_poly h.facs, mexpr_poly h'.facs, ← pR, ← pR', ← add_mul, ← map_add, hz]
          simp
      · obtain ⟨S, hS, hT2⟩ := tot_scale hc hz (sR 1 one_ne_zero)
        refine ⟨[mexpr (q + q') S], ?_, .one (q + q') S rfl ((sR 1 one_ne_zero).norm hS hz) ?_ ?_ hnil ?_⟩
        · unfold simplEqualNonNumericTerms
          refine tot_bind (tot_numericTerm h.facs) (tot_bind (tot_numericTerm h'.facs) (tot_bind (tot_sum_num q q')
            (tot_bind hT (tot_bind (tot_prod hT2) ?_))))
          simp only [mexpr_isZero hz hS.facs, Bool.false_eq_true, if_false]
          exact tot_pure _
        · rw [mexpr_poly hS.facs, mexpr_poly h.facs, mexpr_poly h'.facs, hS.poly, ← pR', pR, ← add_mul, ← map_add]
        · exact fun K K' k k' => ⟨hkk K K' k k', (kR K k).norm hS⟩
        · rw [← hS.nil_iff fR, zR]
    · have he' : isEqual (mexpr 1 R) (mexpr 1 R') = false := by simpa using he
      rw [he']
      simp only [Bool.false_eq_true, if_false]
      refine ⟨ordered (mexpr q P) (mexpr q' P'), ?_, .both rfl ?_ ?_ hn⟩
      · obtain ⟨U, hU, hTU⟩ := tot_nonConstTerm hc (q := q) h.facs
        obtain ⟨U', hU', hTU'⟩ := tot_nonConstTerm hc (q := q') h'.facs
        refine tot_bind (a := false) (tot_whenTrue ?_) ?_
        · unfold haveContractableSinCos
          refine tot_bind hTU (tot_bind hTU' (tot_bind (tot_constTerm h.ne h.facs) (tot_bind (tot_constTerm h'.ne h'.facs) ?_)))
          by_cases hq : isEqual (.num (.rat q) : Expr D) (.num (.rat q')) = true
          · simp only [hq, if_true]
            refine tot_bind (a := false) ?_ ?_
            · unfold areSinAndCosSquare
              by_cases hp : (!(mexpr 1 U).isPower || !(mexpr 1 U').isPower) = true
              · simp only [hp, if_true]; exact tot_pure _
              · simp only [hp, Bool.false_eq_true, if_false]
                simp only [Bool.or_eq_true, Bool.not_eq_true', not_or, Bool.not_eq_false] at hp
                have pw : ∀ V : List (Expr D × ℕ), PFacs cfg V → (mexpr 1 V).isPower = true →
                    ∃ b k, mexpr 1 V = .pow b (.int k) ∧ ∀ f x, b ≠ .fn f x := by
                  intro V hV hp
                  rcases mexpr_cases 1 V with ⟨rfl, e⟩ | ⟨f, rfl, _, e⟩ | ⟨_, _, e⟩
                  · rw [e] at hp; simp [Expr.isPower] at hp
                  · rcases hV.cons.1.cases with ⟨s, hs⟩ | ⟨l, _, hl⟩ | ⟨k, hk⟩
                    · rw [e, hs] at hp; simp [Expr.isPower] at hp
                    · rw [e, hl] at hp; simp [Expr.isPower] at hp
                    · refine ⟨f.1, k, e.trans hk, ?_⟩
                      intro g x hg
                      rcases hV.cons.1.base.shape with ⟨s, hs⟩ | ⟨l, hl⟩
                      · rw [hs] at hg; cases hg
                      · rw [hl] at hg; cases hg
                  · rw [e] at hp; simp [Expr.isPower] at hp
                obtain ⟨b, k, e1, f1⟩ := pw U hU.facs hp.1
                obtain ⟨b', k', e2, f2⟩ := pw U' hU'.facs hp.2
                rw [e1, e2]
                simp only [Expr.exp, Expr.base]
                have ev : ∀ k : ℤ, ∃ v, Tot cfg (fun _ => evalsTo (.int k : Expr D) 2) v := fun k =>
                  ⟨_, tot_bind (tot_lift (a := some (.rat k)) rfl) (tot_pure _)⟩
                obtain ⟨v, hv⟩ := ev k
                obtain ⟨v', hv'⟩ := ev k'
                refine tot_bind hv ?_
                cases v with
                | false => simp only [Bool.false_eq_true, if_false]; exact tot_pure _
                | true =>
                  simp only [if_true]
                  refine tot_bind hv' ?_
                  have : areSinAndCos b b' = false := by
                    unfold areSinAndCos
                    split
                    · exact absurd rfl (f1 _ _)
                    · exact absurd rfl (f1 _ _)
                    · rfl
                  rw [this, Bool.and_false]
                  exact tot_pure _
            · simp only [Bool.false_eq_true, if_false]; exact tot_pure _
          · simp only [hq, Bool.false_eq_true, if_false]; exact tot_pure _
        · simp only [Bool.false_eq_true, if_false]; exact tot_pure _
      · intro e
        have hP := b2 rfl e
        obtain ⟨_, rfl⟩ := mexpr_inj h.facs h'.facs e
        exact hn ⟨hP, hP⟩
      · intro K k k'
        have e1 := (kR K k).2.2
        have e2 := (kR' K k').2.2
        rw [e1, e2] at he'
        rw [isEqual_refl (mexpr_exact (e1 ▸ fR))] at he'
        cases he'

theorem tot_two (hc : cfg.Ok) (h : SM cfg B q P) (h' : SM cfg B q' P') :
    ∃ r, Tot cfg (fun E => simplTwoSummandsWithoutSum E (mexpr q P) (mexpr q' P')) r ∧ Two cfg B q P q' P' r := by
  by_cases hn : P = [] ∧ P' = []
  · obtain ⟨rfl, rfl⟩ := hn
    rw [← num_mexpr, ← num_mexpr]
    simp only [simplTwoSummandsWithoutSum, isZero_ratE, h.ne, h'.ne, decide_false, Bool.false_eq_true, if_false, addNumerics,
      Number.add, eqv_rat_zero, decide_eq_true_eq]
    have hkk : ∀ K K', IsKey ([] : List (Expr D × ℕ)) K → IsKey ([] : List (Expr D × ℕ)) K' → K = K' :=
      fun K K' k k' => k.unique k'
    by_cases hz : q + q' = 0
    · refine ⟨[], ?_, .gone (.inl rfl) ?_ hkk .rfl⟩
      · simp only [hz, if_true]; exact tot_pure _
      · rw [← num_mexpr, ← num_mexpr, poly_ratE, poly_ratE, ← map_add, hz]; simp
    · refine ⟨[mexpr (q + q') []], ?_, .one (q + q') [] rfl (h.coef hz) ?_ (fun K K' k k' => ⟨hkk K K' k k', k⟩) .rfl .rfl⟩
      · simp only [hz, if_false, ← num_mexpr]; exact tot_pure _
      · rw [← num_mexpr, ← num_mexpr, ← num_mexpr, poly_ratE, poly_ratE, poly_ratE, ← map_add]
  · obtain ⟨r, hr, ht⟩ := tot_simplTwoOther hc h h' hn
    refine ⟨r, ?_, ht⟩
    simp only [simplTwoSummandsWithoutSum, mexpr_isZero h.ne h.facs, mexpr_isZero h'.ne h'.facs, Bool.false_eq_true, if_false]
    split
    · rename_i a b e1 e2
      exfalso
      have i1 := mexpr_isNumeric (q := q) h.facs
      have i2 := mexpr_isNumeric (q := q') h'.facs
      rw [e1] at i1
      rw [e2] at i2
      simp only [Expr.isNumeric] at i1 i2
      exact hn ⟨by simpa using i1.symm, by simpa using i2.symm⟩
    · exact hr

end

end Tsym
