import Verif.PolySum

set_option autoImplicit false
set_option linter.unusedSectionVars false
set_option linter.unusedSimpArgs false
set_option linter.unusedVariables false

/-!
# Sums as bases
-/

namespace Tsym

open Expr

variable {D : Type} [Flt D] [ExactLt D] {cfg : Cfg D} {B : Expr D → Prop}

/-- The sign queries return. -/
def Signs (cfg : Cfg D) (e : Expr D) : Prop := (∃ v, Tot cfg (fun E => isPos E e) v) ∧ ∃ v, Tot cfg (fun E => isNeg E e) v

theorem PFac.signs {f : Expr D × ℕ} (h : PFac cfg f) : Signs cfg (fac f) := by
  unfold fac
  split
  · exact ⟨h.base.pos, h.base.neg⟩
  · refine ⟨?_, ⟨false, by simp only [isNeg]; exact tot_pure _⟩⟩
    obtain ⟨v, hv⟩ := h.base.pos
    cases v with
    | true =>
      refine ⟨true, ?_⟩
      simp only [isPos]
      refine tot_bind (tot_whenTrue (tot_isPos hv)) ?_
      simp only [if_true]; exact tot_pure _
    | false =>
      refine ⟨(Number.rat f.2 : Number D).isRational && (Number.rat f.2 : Number D).numerator % 2 == 0, ?_⟩
      simp only [isPos]
      refine tot_bind (tot_whenTrue (tot_isPos hv)) ?_
      simp only [Bool.false_eq_true, if_false]
      refine tot_bind (tot_lift (a := some (.rat f.2)) (by simp [int, numEval, pure, Except.pure])) ?_
      exact tot_pure _

theorem signs_rat (q : ℚ) : Signs cfg (.num (.rat q)) :=
  ⟨⟨_, by simp only [isPos]; exact tot_pure _⟩, ⟨_, by simp only [isNeg]; exact tot_pure _⟩⟩

theorem tot_signOfProduct {l : List (Expr D)} (h : ∀ a ∈ l, Signs cfg a) (acc : ℤ) :
    ∃ v, Tot cfg (fun E => signOfProduct E acc l) v := by
  induction l generalizing acc with
  | nil => exact ⟨acc, by simp only [signOfProduct]; exact tot_pure _⟩
  | cons a l ih =>
    have ih := ih fun x hx => h x (by simp [hx])
    obtain ⟨⟨p, hp⟩, ⟨n, hn⟩⟩ := h a (by simp)
    simp only [signOfProduct]
    cases p with
    | true =>
      obtain ⟨v, hv⟩ := ih acc
      refine ⟨v, tot_bind (tot_whenTrue (tot_isPos hp)) ?_⟩
      simp only [if_true]; exact hv
    | false =>
      cases n with
      | true =>
        obtain ⟨v, hv⟩ := ih (acc * -1)
        refine ⟨v, tot_bind (tot_whenTrue (tot_isPos hp)) ?_⟩
        simp only [Bool.false_eq_true, if_false]
        refine tot_bind (tot_whenTrue (tot_isNeg hn)) ?_
        simp only [if_true]; exact hv
      | false =>
        refine ⟨0, tot_bind (tot_whenTrue (tot_isPos hp)) ?_⟩
        simp only [Bool.false_eq_true, if_false]
        refine tot_bind (tot_whenTrue (tot_isNeg hn)) ?_
        simp only [Bool.false_eq_true, if_false]; exact tot_pure _

theorem signs_prod {l : List (Expr D)} (h : ∀ a ∈ l, Signs cfg a) : Signs cfg (.prod l) := by
  obtain ⟨v, hv⟩ := tot_signOfProduct h 1
  exact ⟨⟨_, by simp only [isPos]; exact tot_bind hv (tot_pure _)⟩, ⟨_, by simp only [isNeg]; exact tot_bind hv (tot_pure _)⟩⟩

theorem signs_mexpr {q : ℚ} {P : List (Expr D × ℕ)} (h : PFacs cfg P) : Signs cfg (mexpr q P) := by
  rcases mexpr_cases q P with ⟨rfl, e⟩ | ⟨f, rfl, rfl, e⟩ | ⟨hP, _, e⟩
  · rw [e]; exact signs_rat q
  · rw [e]; exact h.cons.1.signs
  · rw [e]
    refine signs_prod fun a ha => ?_
    unfold rl at ha
    rcases List.mem_append.1 ha with ha | ha
    · split at ha
      · simp at ha
      · rw [List.mem_singleton.1 ha]; exact signs_rat q
    · obtain ⟨f, hf, rfl⟩ := List.mem_map.1 ha; exact (h f hf).signs

theorem tot_signOfSymbolicParts {l : List (Expr D)} (h : ∀ a ∈ l, Signs cfg a ∧ ∃ v, numEval a = .ok v) (acc : ℤ) :
    ∃ v, Tot cfg (fun E => signOfSymbolicParts E acc l) v := by
  induction l generalizing acc with
  | nil => exact ⟨acc, by simp only [signOfSymbolicParts]; exact tot_pure _⟩
  | cons a l ih =>
    have ih := ih fun x hx => h x (by simp [hx])
    obtain ⟨⟨⟨p, hp⟩, ⟨n, hn⟩⟩, w, hw⟩ := h a (by simp)
    simp only [signOfSymbolicParts]
    cases w with
    | some w =>
      obtain ⟨v, hv⟩ := ih acc
      exact ⟨v, tot_bind (tot_lift hw) hv⟩
    | none =>
      by_cases h1 : (p && decide (0 ≤ acc)) = true
      · obtain ⟨v, hv⟩ := ih 1
        refine ⟨v, tot_bind (tot_lift hw) (tot_bind (tot_whenTrue (tot_isPos hp)) ?_)⟩
        simp only [h1, if_true]; exact hv
      · by_cases h2 : (n && decide (acc ≤ 0)) = true
        · obtain ⟨v, hv⟩ := ih (-1)
          refine ⟨v, tot_bind (tot_lift hw) (tot_bind (tot_whenTrue (tot_isPos hp)) ?_)⟩
          simp only [h1, Bool.false_eq_true, if_false]
          refine tot_bind (tot_whenTrue (tot_isNeg hn)) ?_
          simp only [h2, if_true]; exact hv
        · refine ⟨0, tot_bind (tot_lift hw) (tot_bind (tot_whenTrue (tot_isPos hp)) ?_)⟩
          simp only [h1, Bool.false_eq_true, if_false]
          refine tot_bind (tot_whenTrue (tot_isNeg hn)) ?_
          simp only [h2, Bool.false_eq_true, if_false]; exact tot_pure _

theorem sign_rat (q : ℚ) : ∃ v, (Number.rat q : Number D).sign = .ok v := by
  have h0 : (0 : Number D) = .rat 0 := rfl
  unfold Number.sign
  rw [h0, lt_rat, lt_rat]
  by_cases h1 : q < 0
  · simp [h1]
  · by_cases h2 : 0 < q
    · simp [h1, h2]
    · have : q = 0 := le_antisymm (not_lt.1 h2) (not_lt.1 h1)
      subst this
      simp [eqv_rat.2 rfl]

theorem mexpr_eval' {q : ℚ} {P : List (Expr D × ℕ)} (h : PFacs cfg P) :
    numEval (mexpr q P) = .ok (if P = [] then some (.rat q) else none) := by
  split
  · rename_i e; subst e; rw [← num_mexpr]; rfl
  · exact mexpr_eval h ‹_›

theorem signOfNumericParts_rat {L : List (Mono D)} (h : ∀ m ∈ L, PFacs cfg m.2) (q : ℚ) :
    ∃ v, signOfNumericParts (.rat q : Number D) (L.map em) = .ok v := by
  induction L generalizing q with
  | nil => exact sign_rat q
  | cons m L ih =>
    have ih := ih fun x hx => h x (by simp [hx])
    simp only [List.map_cons, signOfNumericParts]
    rw [show numEval (em m) = _ from mexpr_eval' (h m (by simp))]
    by_cases hm : m.2 = []
    · obtain ⟨v, hv⟩ := ih (q + m.1)
      exact ⟨v, by simpa [hm, bind, Except.bind, Number.add] using hv⟩
    · obtain ⟨v, hv⟩ := ih q
      exact ⟨v, by simpa [hm, bind, Except.bind] using hv⟩

/-- Sums of monomials can be bases. -/
theorem pbase_sum {L : List (Mono D)} (h : SL cfg B L) (h2 : 2 ≤ L.length) : PBase cfg (.sum (L.map em)) := by
  match L, h2 with
  | m :: m' :: L, _ =>
  have hpe : isPolyE (sumOf ((m :: m' :: L).map em)) = true := sumOf_polyE h
  have hm' : m'.2 ≠ [] := h.tail m' (by simp)
  have f' := (h.sm m' (by simp)).facs
  have hev : numEval (.sum ((m :: m' :: L).map em)) = .ok none := by
    simp only [List.map_cons, numEval, numEvalSum]
    rw [show numEval (em m) = _ from mexpr_eval' (h.sm m (by simp)).facs, show numEval (em m') = _ from mexpr_eval f' hm']
    by_cases hm : m.2 = []
    · simp [hm, bind, Except.bind, pure, Except.pure]
    · simp [hm, bind, Except.bind, pure, Except.pure]
  have hs : ∃ v, Tot cfg (fun E => signOfSum E ((m :: m' :: L).map em)) v := by
    obtain ⟨v, hv⟩ := signOfNumericParts_rat (D := D) (L := m :: m' :: L) (fun x hx => (h.sm x hx).facs) 0
    obtain ⟨w, hw⟩ := tot_signOfSymbolicParts (cfg := cfg) (l := (m :: m' :: L).map em) (by
      intro a ha
      obtain ⟨x, hx, rfl⟩ := List.mem_map.1 ha
      exact ⟨signs_mexpr (h.sm x hx).facs, _, mexpr_eval' (h.sm x hx).facs⟩) 0
    exact ⟨_, tot_bind (tot_lift hv) (tot_bind hw (tot_pure _))⟩
  obtain ⟨v, hv⟩ := hs
  refine ⟨.inr ⟨_, rfl⟩, isPolyE_exact _ hpe, hpe, hev, ?_, ⟨decide (v = 1), ?_⟩, ⟨decide (v = -1), ?_⟩⟩
  · rw [isConst]
    refine allConst_false (e := em m') (by simp) ?_
    rw [show (em m').isConst = _ from mexpr_isConst f']
    simp [hm']
  · simp only [isPos]
    exact tot_bind (tot_lift hev) (tot_bind hv (tot_pure _))
  · simp only [isNeg]
    exact tot_bind (tot_lift hev) (tot_bind hv (tot_pure _))

end Tsym
