import Verif.PolyKey

set_option autoImplicit false
set_option linter.unusedSectionVars false
set_option linter.unusedSimpArgs false
set_option linter.unusedVariables false

/-!
# Sums of monomials
-/

namespace Tsym

open Expr

variable {D : Type} [Flt D] [ExactLt D] {cfg : Cfg D} {B : Expr D → Prop}

/-- A number and factors. -/
abbrev Mono (D : Type) := ℚ × List (Expr D × ℕ)

/-- The expression of a summand. -/
def em (m : Mono D) : Expr D := mexpr m.1 m.2

/-- The operands of a sum: a number occurs only in front. -/
structure SL (cfg : Cfg D) (B : Expr D → Prop) (L : List (Mono D)) : Prop where
  sm : ∀ m ∈ L, SM cfg B m.1 m.2
  tail : ∀ m ∈ L.tail, m.2 ≠ []

/-- The summands are monomials in symbols, in order. -/
structure Ks (L : List (Mono D)) : Prop where
  key : ∀ m ∈ L, ∃ K, IsKey m.2 K
  sorted : L.Pairwise fun m n => ∀ K K', IsKey m.2 K → IsKey n.2 K' → keyLt K K' = true

/-- The value of a list of summands. -/
noncomputable def psum (L : List (Mono D)) : MvPolynomial Sym ℚ := (L.map fun m => poly (em m)).sum

@[simp] theorem psum_nil : psum ([] : List (Mono D)) = 0 := rfl
@[simp] theorem psum_cons (m : Mono D) (L : List (Mono D)) : psum (m :: L) = poly (em m) + psum L := by simp [psum]

theorem SL.nil : SL cfg B [] := ⟨by simp, by simp⟩

theorem SL.single {m : Mono D} (h : SM cfg B m.1 m.2) : SL cfg B [m] := ⟨by simpa using h, by simp⟩

theorem SL.cons {m : Mono D} {L : List (Mono D)} (h : SL cfg B (m :: L)) :
    SM cfg B m.1 m.2 ∧ SL cfg B L ∧ ∀ n ∈ L, n.2 ≠ [] :=
  ⟨h.sm m (by simp), ⟨fun n hn => h.sm n (by simp [hn]), fun n hn => h.tail n (List.mem_of_mem_tail hn)⟩, fun n hn => h.tail n hn⟩

theorem SL.mk' {m : Mono D} {L : List (Mono D)} (h : SM cfg B m.1 m.2) (hL : SL cfg B L) (ht : ∀ n ∈ L, n.2 ≠ []) :
    SL cfg B (m :: L) :=
  ⟨fun n hn => by rcases List.mem_cons.1 hn with rfl | hn; exacts [h, hL.sm n hn], ht⟩

theorem Ks.nil : Ks ([] : List (Mono D)) := ⟨by simp, by simp⟩

theorem Ks.cons {m : Mono D} {L : List (Mono D)} (h : Ks (m :: L)) :
    (∃ K, IsKey m.2 K) ∧ Ks L ∧ ∀ n ∈ L, ∀ K K', IsKey m.2 K → IsKey n.2 K' → keyLt K K' = true :=
  ⟨h.key m (by simp), ⟨fun n hn => h.key n (by simp [hn]), (List.pairwise_cons.1 h.sorted).2⟩, (List.pairwise_cons.1 h.sorted).1⟩

theorem Ks.mk' {m : Mono D} {L : List (Mono D)} (h : ∃ K, IsKey m.2 K) (hL : Ks L)
    (hs : ∀ n ∈ L, ∀ K K', IsKey m.2 K → IsKey n.2 K' → keyLt K K' = true) : Ks (m :: L) :=
  ⟨fun n hn => by rcases List.mem_cons.1 hn with rfl | hn; exacts [h, hL.key n hn], List.pairwise_cons.2 ⟨hs, hL.sorted⟩⟩

theorem SM.isSum {q : ℚ} {P : List (Expr D × ℕ)} (h : SM cfg B q P) : (mexpr q P).isSum = false := by
  rcases mexpr_cases q P with ⟨rfl, e⟩ | ⟨f, rfl, _, e⟩ | ⟨_, _, e⟩
  · rw [e]; rfl
  · rw [e]
    rcases h.facs.cons.1.cases with ⟨s, hs⟩ | ⟨l, h1, hl⟩ | ⟨k, hk⟩
    · rw [hs]; rfl
    · exfalso
      refine h.ns ⟨l, ?_⟩
      obtain ⟨b, k⟩ := f
      unfold fac at hl
      split at hl
      · rename_i e1; simp only at e1 hl; rw [e1, hl]
      · cases hl
    · rw [hk]; rfl
  · rw [e]; rfl

theorem permute_num_mexpr (p : ℚ) {q : ℚ} {P : List (Expr D × ℕ)} (hP : PFacs cfg P) (h : P ≠ []) :
    doPermute (.num (.rat p) : Expr D) (mexpr q P) = false ∧ doPermute (mexpr q P) (.num (.rat p) : Expr D) = true := by
  have hn := mexpr_isNumeric (q := q) hP
  have hu := mexpr_isUndefined (q := q) hP
  have hf : ∀ f : Expr D × ℕ, PFac cfg f → (∃ s, fac f = .sym s) ∨ (∃ l, fac f = .sum l) ∨ (∃ b e, fac f = .pow b e) := by
    intro f hf
    rcases hf.cases with ⟨s, hs⟩ | ⟨l, _, hl⟩ | ⟨k, hk⟩
    exacts [.inl ⟨s, hs⟩, .inr (.inl ⟨l, hl⟩), .inr (.inr ⟨_, _, hk⟩)]
  rw [doPermute_eq, doPermute_eq (mexpr q P)]
  rcases mexpr_cases q P with ⟨rfl, e⟩ | ⟨f, rfl, _, e⟩ | ⟨_, _, e⟩
  · exact absurd rfl h
  · rw [e]
    rcases hf f hP.cons.1 with ⟨s, hs⟩ | ⟨l, hl⟩ | ⟨b, x, hx⟩
    · rw [hs]; simp [permStep, permSame, permDiff]
    · rw [hl]; simp [permStep, permSame, permDiff]
    · rw [hx]; simp [permStep, permSame, permDiff]
  · rw [e]; simp [permStep, permSame, permDiff]

/-- What merging two lists of summands gives. -/
structure Merged (cfg : Cfg D) (B : Expr D → Prop) (L L' R : List (Mono D)) : Prop where
  sl : SL cfg B R
  val : psum R = psum L + psum L'
  nonum : (∀ m ∈ L, m.2 ≠ []) → (∀ m ∈ L', m.2 ≠ []) → ∀ m ∈ R, m.2 ≠ []
  ks : Ks L → Ks L' → Ks R ∧ ∀ m ∈ R, ∃ n, (n ∈ L ∨ n ∈ L') ∧ ∀ K, IsKey n.2 K → IsKey m.2 K

theorem tot_mergeSum_sl (hc : cfg.Ok) {L L' : List (Mono D)} (h : SL cfg B L) (h' : SL cfg B L') :
    ∃ R, Tot cfg (fun E => mergeSum E (L.map em) (L'.map em)) (R.map em) ∧ Merged cfg B L L' R := by
  induction hn : L.length + L'.length using Nat.strong_induction_on generalizing L L' with
  | _ n ih =>
  match L, L' with
  | [], L' =>
    refine ⟨L', ?_, h', by simp, fun _ h => h, fun _ k => ⟨k, fun m hm => ⟨m, .inr hm, fun _ h => h⟩⟩⟩
    simp only [List.map_nil, mergeSum]; exact tot_pure _
  | m :: L, [] =>
    refine ⟨m :: L, ?_, h, by simp, fun h _ => h, fun k _ => ⟨k, fun m hm => ⟨m, .inl hm, fun _ h => h⟩⟩⟩
    simp only [List.map_nil, List.map_cons, mergeSum]; exact tot_pure _
  | m :: L, m' :: L' =>
    obtain ⟨hm, hL, nL⟩ := h.cons
    obtain ⟨hm', hL', nL'⟩ := h'.cons
    obtain ⟨r, hT, hr⟩ := tot_two hc hm hm'
    have hT2 : Tot cfg (fun E => simplTwoSummands E (em m) (em m')) r := by
      simp only [simplTwoSummands, em, hm.isSum, hm'.isSum, Bool.or_self, Bool.false_eq_true, if_false]
      exact hT
    simp only [List.length_cons] at hn
    simp only [List.map_cons, mergeSum]
    cases hr with
    | gone hr hs hk hnil =>
      obtain ⟨R, hR, Mg⟩ := ih (L.length + L'.length) (by omega) hL hL' rfl
      have hs' : poly (em m) + poly (em m') = 0 := hs
      refine ⟨R, tot_bind hT2 ?_, Mg.sl, ?_, fun _ _ => Mg.nonum nL nL', fun k k' => ?_⟩
      · rcases hr with rfl | rfl
        · exact tot_mergeSum hR
        · simp only [zero_eq, isZero_ratE, decide_true, if_true]; exact tot_mergeSum hR
      · rw [Mg.val, psum_cons, psum_cons, add_add_add_comm, hs', zero_add]
      · refine ⟨(Mg.ks k.cons.2.1 k'.cons.2.1).1, fun x hx => ?_⟩
        obtain ⟨y, hy, hyk⟩ := (Mg.ks k.cons.2.1 k'.cons.2.1).2 x hx
        exact ⟨y, hy.imp (List.mem_cons_of_mem _) (List.mem_cons_of_mem _), hyk⟩
    | one p R0 hr hsm hs hk hnil hnil' =>
      obtain ⟨R, hR, Mg⟩ := ih (L.length + L'.length) (by omega) hL hL' rfl
      have hs' : poly (em (p, R0)) = poly (em m) + poly (em m') := hs
      refine ⟨(p, R0) :: R, tot_bind hT2 ?_, SL.mk' hsm Mg.sl (Mg.nonum nL nL'), ?_, ?_, fun k k' => ?_⟩
      · subst hr
        have : (mexpr p R0).isZero = false := mexpr_isZero hsm.ne hsm.facs
        simp only [this, Bool.false_eq_true, if_false]
        exact tot_bind (tot_mergeSum hR) (tot_pure _)
      · rw [psum_cons, psum_cons, psum_cons, Mg.val, hs', add_add_add_comm]
      · intro a b x hx
        rcases List.mem_cons.1 hx with rfl | hx
        · intro e; exact a m (by simp) (hnil'.1 e)
        · exact Mg.nonum nL nL' x hx
      · obtain ⟨⟨K, kK⟩, kL, lt⟩ := k.cons
        obtain ⟨⟨K', kK'⟩, kL', lt'⟩ := k'.cons
        obtain ⟨ks, kmem⟩ := Mg.ks kL kL'
        obtain ⟨rfl, kR⟩ := hk K K' kK kK'
        refine ⟨Ks.mk' ⟨K, kR⟩ ks ?_, ?_⟩
        · intro x hx J J' hJ hJ'
          obtain ⟨y, hy, hyk⟩ := kmem x hx
          have := hJ.unique kR
          subst this
          rcases hy with hy | hy
          · obtain ⟨Y, hY⟩ := kL.key y hy
            have := (hyk Y hY).unique hJ'
            subst this
            exact lt y hy _ _ kK hY
          · obtain ⟨Y, hY⟩ := kL'.key y hy
            have := (hyk Y hY).unique hJ'
            subst this
            exact lt' y hy _ _ kK' hY
        · intro x hx
          rcases List.mem_cons.1 hx with rfl | hx
          · exact ⟨m, .inl (by simp), fun J hJ => by rw [hJ.unique kK]; exact kR⟩
          · obtain ⟨y, hy, hyk⟩ := kmem x hx
            exact ⟨y, hy.imp (List.mem_cons_of_mem _) (List.mem_cons_of_mem _), hyk⟩
    | both hr hne hk hnil =>
      have ex : Exact (em m) := mexpr_exact hm.facs
      have ex' : Exact (em m') := mexpr_exact hm'.facs
      have hne1 : em m ≠ em m' := hne
      by_cases hp : doPermute (em m) (em m') = true
      · have hr' : r = [em m', em m] := by rw [hr]; unfold ordered; exact if_pos hp
        have n' : m.2 ≠ [] := by
          intro e
          have : em m = .num (.rat m.1) := by unfold em; rw [e, ← num_mexpr]
          rw [this] at hp
          have h2 := (permute_num_mexpr m.1 (q := m'.1) hm'.facs (fun e' => hnil ⟨e, e'⟩)).1
          unfold em at hp
          rw [h2] at hp; cases hp
        have nmL : ∀ x ∈ m :: L, x.2 ≠ [] := by
          intro x hx; rcases List.mem_cons.1 hx with rfl | hx; exacts [n', nL x hx]
        obtain ⟨R, hR, Mg⟩ := ih ((m :: L).length + L'.length) (by simp only [List.length_cons]; omega) h hL' rfl
        refine ⟨m' :: R, tot_bind hT2 ?_, SL.mk' hm' Mg.sl (Mg.nonum nmL nL'), ?_, ?_, fun k k' => ?_⟩
        · subst hr'
          simp only [areEqual_pair, isEqual_ne ex' ex hne1.symm, isEqual_refl ex, isEqual_refl ex', Bool.false_and,
            Bool.and_self, Bool.false_eq_true, if_false, if_true]
          exact tot_bind (tot_mergeSum hR) (tot_pure _)
        · rw [psum_cons, Mg.val, psum_cons, psum_cons]; ring
        · intro a b x hx
          rcases List.mem_cons.1 hx with rfl | hx
          · exact b _ (by simp)
          · exact Mg.nonum nmL nL' x hx
        · obtain ⟨⟨K, kK⟩, kL, lt⟩ := k.cons
          obtain ⟨⟨K', kK'⟩, kL', lt'⟩ := k'.cons
          obtain ⟨ks, kmem⟩ := Mg.ks k kL'
          have hKK : K ≠ K' := fun e => hk K kK (e ▸ kK')
          have hlt : keyLt K' K = true := by
            have := hp
            unfold em at this
            rw [kK.2.2, kK'.2.2, permute_mexpr kK.1 kK'.1 hKK] at this
            exact this
          refine ⟨Ks.mk' ⟨K', kK'⟩ ks ?_, ?_⟩
          · intro x hx J J' hJ hJ'
            obtain ⟨y, hy, hyk⟩ := kmem x hx
            have := hJ.unique kK'
            subst this
            rcases hy with hy | hy
            · obtain ⟨Y, hY⟩ := k.key y hy
              have := (hyk Y hY).unique hJ'
              subst this
              rcases List.mem_cons.1 hy with rfl | hy
              · rw [hY.unique kK]; exact hlt
              · exact keyLt_trans hlt (lt y hy _ _ kK hY)
            · obtain ⟨Y, hY⟩ := kL'.key y hy
              have := (hyk Y hY).unique hJ'
              subst this
              exact lt' y hy _ _ kK' hY
          · intro x hx
            rcases List.mem_cons.1 hx with rfl | hx
            · exact ⟨_, .inr (by simp), fun J hJ => hJ⟩
            · obtain ⟨y, hy, hyk⟩ := kmem x hx
              exact ⟨y, hy.imp (fun h => h) (List.mem_cons_of_mem _), hyk⟩
      · have hp : doPermute (em m) (em m') = false := by simpa using hp
        have hr' : r = [em m, em m'] := by
          rw [hr]; unfold ordered; exact if_neg (by rw [show doPermute (mexpr m.1 m.2) (mexpr m'.1 m'.2) = false from hp]; simp)
        have n' : m'.2 ≠ [] := by
          intro e
          have : em m' = .num (.rat m'.1) := by unfold em; rw [e, ← num_mexpr]
          rw [this] at hp
          have h2 := (permute_num_mexpr m'.1 (q := m.1) hm.facs (fun e' => hnil ⟨e', e⟩)).2
          unfold em at hp
          rw [h2] at hp; cases hp
        have nmL : ∀ x ∈ m' :: L', x.2 ≠ [] := by
          intro x hx; rcases List.mem_cons.1 hx with rfl | hx; exacts [n', nL' x hx]
        obtain ⟨R, hR, Mg⟩ := ih (L.length + (m' :: L').length) (by simp only [List.length_cons]; omega) hL h' rfl
        refine ⟨m :: R, tot_bind hT2 ?_, SL.mk' hm Mg.sl (Mg.nonum nL nmL), ?_, ?_, fun k k' => ?_⟩
        · subst hr'
          simp only [areEqual_pair, isEqual_refl ex, isEqual_refl ex', Bool.and_self, if_true]
          exact tot_bind (tot_mergeSum hR) (tot_pure _)
        · rw [psum_cons, Mg.val, psum_cons, psum_cons]; ring
        · intro a b x hx
          rcases List.mem_cons.1 hx with rfl | hx
          · exact a _ (by simp)
          · exact Mg.nonum nL nmL x hx
        · obtain ⟨⟨K, kK⟩, kL, lt⟩ := k.cons
          obtain ⟨⟨K', kK'⟩, kL', lt'⟩ := k'.cons
          obtain ⟨ks, kmem⟩ := Mg.ks kL k'
          have hKK : K ≠ K' := fun e => hk K kK (e ▸ kK')
          have hlt : keyLt K K' = true := by
            have := hp
            unfold em at this
            rw [kK.2.2, kK'.2.2, permute_mexpr kK.1 kK'.1 hKK] at this
            rw [← keyLt_not kK'.1 kK.1 hKK.symm, this]; rfl
          refine ⟨Ks.mk' ⟨K, kK⟩ ks ?_, ?_⟩
          · intro x hx J J' hJ hJ'
            obtain ⟨y, hy, hyk⟩ := kmem x hx
            have := hJ.unique kK
            subst this
            rcases hy with hy | hy
            · obtain ⟨Y, hY⟩ := kL.key y hy
              have := (hyk Y hY).unique hJ'
              subst this
              exact lt y hy _ _ kK hY
            · obtain ⟨Y, hY⟩ := k'.key y hy
              have := (hyk Y hY).unique hJ'
              subst this
              rcases List.mem_cons.1 hy with rfl | hy
              · rw [hY.unique kK']; exact hlt
              · exact keyLt_trans hlt (lt' y hy _ _ kK' hY)
          · intro x hx
            rcases List.mem_cons.1 hx with rfl | hx
            · exact ⟨_, .inl (by simp), fun J hJ => hJ⟩
            · obtain ⟨y, hy, hyk⟩ := kmem x hx
              exact ⟨y, hy.imp (List.mem_cons_of_mem _) (fun h => h), hyk⟩

/-- A list of operands of a sum: summands, or a single zero. -/
def Rep (l : List (Expr D)) (L : List (Mono D)) : Prop := l = L.map em ∨ (L = [] ∧ l = [zero])

/-- The sum of a list, as Sum::create returns it. -/
def sumOf : List (Expr D) → Expr D
  | [] => zero
  | [x] => x
  | l => .sum l

theorem tot_mergeSum_rep (hc : cfg.Ok) {l l' : List (Expr D)} {L L' : List (Mono D)} (h : SL cfg B L) (h' : SL cfg B L')
    (hl : Rep l L) (hl' : Rep l' L') :
    ∃ r R, Tot cfg (fun E => mergeSum E l l') r ∧ Rep r R ∧ Merged cfg B L L' R := by
  rcases hl with rfl | ⟨rfl, rfl⟩
  · rcases hl' with rfl | ⟨rfl, rfl⟩
    · obtain ⟨R, hR, Mg⟩ := tot_mergeSum_sl hc h h'
      exact ⟨_, R, hR, .inl rfl, Mg⟩
    · have Mg : Merged cfg B L [] L :=
        ⟨h, by simp, fun h _ => h, fun k _ => ⟨k, fun m hm => ⟨m, .inl hm, fun _ h => h⟩⟩⟩
      match L with
      | [] => exact ⟨_, [], (by simp only [List.map_nil, mergeSum]; exact tot_pure _), .inr ⟨rfl, rfl⟩, Mg⟩
      | m :: L =>
        refine ⟨(m :: L).map em, m :: L, ?_, .inl rfl, Mg⟩
        have hz : (em m).isZero = false := mexpr_isZero h.cons.1.ne h.cons.1.facs
        have hs : (em m).isSum = false := h.cons.1.isSum
        have hs0 : (.num (.rat 0) : Expr D).isSum = false := rfl
        simp only [List.map_cons, mergeSum, simplTwoSummands, hs, zero_eq, hs0, Bool.or_self, Bool.false_eq_true,
          if_false, simplTwoSummandsWithoutSum, hz, isZero_ratE, decide_true, if_true]
        refine tot_bind (tot_pure _) ?_
        simp only [hz, Bool.false_eq_true, if_false]
        refine tot_bind (tot_mergeSum (a := L.map em) ?_) (tot_pure _)
        cases L with
        | nil => simp only [List.map_nil, mergeSum]; exact tot_pure _
        | cons x L => simp only [List.map_cons, mergeSum]; exact tot_pure _
  · have Mg : Merged cfg B [] L' L' :=
      ⟨h', by simp, fun _ h => h, fun _ k => ⟨k, fun m hm => ⟨m, .inr hm, fun _ h => h⟩⟩⟩
    rcases hl' with rfl | ⟨rfl, rfl⟩
    · match L' with
      | [] => exact ⟨_, [], (by simp only [List.map_nil, mergeSum]; exact tot_pure _), .inr ⟨rfl, rfl⟩, Mg⟩
      | m :: L =>
        refine ⟨(m :: L).map em, m :: L, ?_, .inl rfl, Mg⟩
        have hz : (em m).isZero = false := mexpr_isZero h'.cons.1.ne h'.cons.1.facs
        have hs : (em m).isSum = false := h'.cons.1.isSum
        have hs0 : (.num (.rat 0) : Expr D).isSum = false := rfl
        simp only [List.map_cons, mergeSum, simplTwoSummands, hs, zero_eq, hs0, Bool.or_self, Bool.false_eq_true,
          if_false, simplTwoSummandsWithoutSum, hz, isZero_ratE, decide_true, if_true]
        refine tot_bind (tot_pure _) ?_
        simp only [hz, Bool.false_eq_true, if_false]
        refine tot_bind (tot_mergeSum (a := L.map em) ?_) (tot_pure _)
        simp only [mergeSum]; exact tot_pure _
    · refine ⟨[], [], ?_, .inl rfl, Mg⟩
      simp only [mergeSum, simplTwoSummands, zero_eq, Expr.isSum, Bool.or_self, Bool.false_eq_true,
        if_false, simplTwoSummandsWithoutSum, isZero_ratE, decide_true, if_true]
      refine tot_bind (tot_pure _) ?_
      simp only [isZero_ratE, decide_true, if_true]
      exact tot_mergeSum (by simp only [mergeSum]; exact tot_pure _)

theorem rep_summands {L : List (Mono D)} (h : SL cfg B L) : Rep (summands (sumOf (L.map em))) L := by
  match L with
  | [] => exact .inr ⟨rfl, by simp [sumOf, summands, zero_eq]⟩
  | [m] =>
    refine .inl ?_
    have hs : (em m).isSum = false := h.cons.1.isSum
    simp only [List.map_cons, List.map_nil, sumOf]
    cases he : em m <;> first | rfl | (rw [he] at hs; cases hs)
  | m :: m' :: L => exact .inl rfl

theorem sumOf_isSum {L : List (Mono D)} (h : SL cfg B L) : (sumOf (L.map em)).isSum = decide (2 ≤ L.length) := by
  match L with
  | [] => rfl
  | [m] => simp [sumOf, show (em m).isSum = false from h.cons.1.isSum]
  | m :: m' :: L => simp [sumOf, Expr.isSum]

theorem sumOf_isUndefined {L : List (Mono D)} (h : SL cfg B L) : (sumOf (L.map em)).isUndefined = false := by
  match L with
  | [] => rfl
  | [m] => simp only [List.map_cons, List.map_nil, sumOf]; exact mexpr_isUndefined h.cons.1.facs
  | m :: m' :: L => rfl

/-- Two summands, each a sum or not. -/
theorem tot_simplTwoSummands (hc : cfg.Ok) {L L' : List (Mono D)} (h : SL cfg B L) (h' : SL cfg B L') :
    ∃ r R, Tot cfg (fun E => simplTwoSummands E (sumOf (L.map em)) (sumOf (L'.map em))) r ∧ Rep r R ∧ Merged cfg B L L' R := by
  by_cases hs : ((sumOf (L.map em)).isSum || (sumOf (L'.map em)).isSum) = true
  · obtain ⟨r, R, hT, hr, Mg⟩ := tot_mergeSum_rep hc h h' (rep_summands h) (rep_summands h')
    refine ⟨r, R, ?_, hr, Mg⟩
    simp only [simplTwoSummands, hs, if_true]
    exact tot_mergeSum hT
  · have hs' := hs
    rw [Bool.or_eq_true, not_or, sumOf_isSum h, sumOf_isSum h'] at hs'
    simp only [simplTwoSummands, hs, Bool.false_eq_true, if_false]
    match L, L' with
    | [], L' =>
      refine ⟨[sumOf (L'.map em)], L', ?_, ?_, h', by simp, fun _ h => h, fun _ k => ⟨k, fun m hm => ⟨m, .inr hm, fun _ h => h⟩⟩⟩
      · simp only [List.map_nil, sumOf, simplTwoSummandsWithoutSum, zero_eq, isZero_ratE, decide_true, if_true]; exact tot_pure _
      · match L' with
        | [] => exact .inr ⟨rfl, rfl⟩
        | [m] => exact .inl rfl
        | _ :: _ :: _ => simp at hs'
    | [m], [] =>
      refine ⟨[em m], [m], ?_, .inl rfl, h, by simp, fun h _ => h, fun k _ => ⟨k, fun m hm => ⟨m, .inl hm, fun _ h => h⟩⟩⟩
      have hz : (em m).isZero = false := mexpr_isZero h.cons.1.ne h.cons.1.facs
      simp only [List.map_nil, List.map_cons, sumOf, simplTwoSummandsWithoutSum, hz, zero_eq, isZero_ratE, decide_true, if_true,
        Bool.false_eq_true, if_false]
      exact tot_pure _
    | [m], [m'] =>
      obtain ⟨r, hT, hr⟩ := tot_two hc h.cons.1 h'.cons.1
      obtain ⟨R, hR, Mg⟩ := tot_mergeSum_sl hc h h'
      have hT2 : Tot cfg (fun E => simplTwoSummands E (em m) (em m')) r := by
        simp only [simplTwoSummands, em, h.cons.1.isSum, h'.cons.1.isSum, Bool.or_self, Bool.false_eq_true, if_false]
        exact hT
      refine ⟨r, R, hT, ?_, Mg⟩
      simp only [List.map_cons, List.map_nil, mergeSum] at hR
      have nil2 : Tot cfg (fun E => E.mergeSum [] []) ([] : List (Expr D)) := tot_mergeSum (by simp only [mergeSum]; exact tot_pure _)
      have ex : Exact (em m) := mexpr_exact h.cons.1.facs
      have ex' : Exact (em m') := mexpr_exact h'.cons.1.facs
      cases hr with
      | gone hr hs hk hnil =>
        have hR2 : R.map em = [] := by
          refine hR.unique (tot_bind hT2 ?_)
          rcases hr with rfl | rfl
          · exact nil2
          · simp only [zero_eq, isZero_ratE, decide_true, if_true]; exact nil2
        have hR3 : R = [] := List.map_eq_nil_iff.1 hR2
        rcases hr with rfl | rfl
        · exact .inl (by rw [hR2])
        · exact .inr ⟨hR3, rfl⟩
      | one p R0 hr hsm hs hk hnil hnil' =>
        refine .inl (Eq.symm ?_)
        rw [hr]
        refine hR.unique (tot_bind hT2 ?_)
        subst hr
        have : (mexpr p R0).isZero = false := mexpr_isZero hsm.ne hsm.facs
        simp only [this, Bool.false_eq_true, if_false]
        exact tot_bind nil2 (tot_pure _)
      | both hr hne hk hnil =>
        refine .inl (Eq.symm ?_)
        refine hR.unique (tot_bind hT2 ?_)
        have hne1 : em m ≠ em m' := hne
        by_cases hp : doPermute (em m) (em m') = true
        · have hr' : r = [em m', em m] := by rw [hr]; unfold ordered; exact if_pos hp
          rw [hr']
          simp only [areEqual_pair, isEqual_ne ex' ex hne1.symm, isEqual_refl ex, isEqual_refl ex', Bool.false_and,
            Bool.and_self, Bool.false_eq_true, if_false, if_true]
          exact tot_bind (tot_mergeSum (a := [em m]) (by simp only [mergeSum]; exact tot_pure _)) (tot_pure _)
        · have hr' : r = [em m, em m'] := by rw [hr]; unfold ordered; exact if_neg hp
          rw [hr']
          simp only [areEqual_pair, isEqual_refl ex, isEqual_refl ex', Bool.and_self, if_true]
          exact tot_bind (tot_mergeSum (a := [em m']) (by simp only [mergeSum]; exact tot_pure _)) (tot_pure _)
    | [m], _ :: _ :: _ => simp at hs'
    | _ :: _ :: _, _ => simp at hs'

/-- What adding several lists of summands gives. -/
structure Added (cfg : Cfg D) (B : Expr D → Prop) (Ls : List (List (Mono D))) (R : List (Mono D)) : Prop where
  sl : SL cfg B R
  val : psum R = (Ls.map psum).sum
  ks : (∀ L ∈ Ls, Ks L) → Ks R

theorem tot_simplSum_sl (hc : cfg.Ok) : ∀ Ls : List (List (Mono D)), 2 ≤ Ls.length → (∀ L ∈ Ls, SL cfg B L) →
    ∃ r R, Tot cfg (fun E => simplSum E (Ls.map fun L => sumOf (L.map em))) r ∧ Rep r R ∧ Added cfg B Ls R
  | [], h, _ => by simp at h
  | [_], h, _ => by simp at h
  | [L, L'], _, h => by
    obtain ⟨r, R, hT, hr, Mg⟩ := tot_simplTwoSummands hc (h L (by simp)) (h L' (by simp))
    exact ⟨r, R, hT, hr, Mg.sl, by simp [Mg.val], fun k => (Mg.ks (k L (by simp)) (k L' (by simp))).1⟩
  | L :: L' :: L'' :: Ls, _, h => by
    obtain ⟨r, R, hT, hr, A⟩ := tot_simplSum_sl hc (L' :: L'' :: Ls) (by simp) (fun x hx => h x (by simp [hx]))
    obtain ⟨s, S, hT2, hs, Mg⟩ := tot_mergeSum_rep hc (h L (by simp)) A.sl (rep_summands (h L (by simp))) hr
    refine ⟨s, S, ?_, hs, Mg.sl, by rw [Mg.val, A.val]; simp, fun k => (Mg.ks (k L (by simp)) (A.ks fun x hx => k x (by simp [hx]))).1⟩
    simp only [List.map_cons, simplSum]
    exact tot_bind (tot_simplSum hT) (tot_mergeSum hT2)

/-- Sum::create for sums of monomials. -/
theorem tot_sumCreate (hc : cfg.Ok) {Ls : List (List (Mono D))} (hne : Ls ≠ []) (h : ∀ L ∈ Ls, SL cfg B L) :
    ∃ R, Tot cfg (fun E => sumCreate E (Ls.map fun L => sumOf (L.map em))) (sumOf (R.map em)) ∧ Added cfg B Ls R := by
  have hu : ∀ Ls : List (List (Mono D)), (∀ L ∈ Ls, SL cfg B L) → (Ls.map fun L => sumOf (L.map em)).any isUndefined = false := by
    intro Ls h
    rw [List.any_eq_false]
    intro e he
    obtain ⟨L, hL, rfl⟩ := List.mem_map.1 he
    rw [sumOf_isUndefined (h L hL)]; simp
  have hu := hu Ls h
  match Ls, hne, h, hu with
  | [], hne, _, _ => exact absurd rfl hne
  | [L], _, h, hu =>
    refine ⟨L, ?_, h L (by simp), by simp, fun k => k L (by simp)⟩
    unfold sumCreate
    simp only [hu, Bool.false_eq_true, if_false]
    exact tot_pure _
  | L :: L' :: Ls, _, h, hu =>
    obtain ⟨r, R, hT, hr, A⟩ := tot_simplSum_sl hc (L :: L' :: Ls) (by simp) h
    refine ⟨R, ?_, A⟩
    unfold sumCreate
    simp only [hu, Bool.false_eq_true, if_false]
    simp only [List.map_cons] at hT ⊢
    refine tot_bind (tot_sumSimplify hT) ?_
    rcases hr with rfl | ⟨rfl, rfl⟩
    · match R with
      | [] => exact tot_pure _
      | [m] => exact tot_pure _
      | _ :: _ :: _ => exact tot_pure _
    · exact tot_pure _

theorem sumOf_poly (L : List (Mono D)) : poly (sumOf (L.map em)) = psum L := by
  match L with
  | [] => simp [sumOf, zero_eq, poly_ratE]
  | [m] => simp [sumOf]
  | m :: m' :: L =>
    simp only [List.map_cons, sumOf]
    rw [poly, polySum_eq]
    simp [psum, Function.comp_def]

theorem sumOf_polyE {L : List (Mono D)} (h : SL cfg B L) : isPolyE (sumOf (L.map em)) = true := by
  match L with
  | [] => simp [sumOf, zero_eq, isPolyE_ratE]
  | [m] => simp only [List.map_cons, List.map_nil, sumOf]; exact mexpr_polyE h.cons.1.facs
  | m :: m' :: L =>
    simp only [List.map_cons, sumOf, isPolyE]
    rw [isPolyL_iff]
    intro e he
    rw [← List.map_cons, ← List.map_cons] at he
    obtain ⟨x, hx, rfl⟩ := List.mem_map.1 he
    exact mexpr_polyE (h.sm x hx).facs

end Tsym
