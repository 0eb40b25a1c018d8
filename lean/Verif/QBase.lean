import Verif.QSum

set_option autoImplicit false
set_option linter.unusedSectionVars false
set_option linter.unusedSimpArgs false
set_option linter.unusedVariables false

/-!
# Sums as bases
-/

namespace Tsym.Qf

open Expr

variable {D : Type} [Flt D] [LawfulFlt D] {cfg : Cfg D}

theorem SL.tail {L : List (Mo D)} (h : SL cfg L) : ∀ m ∈ L.tail, m.2 ≠ [] := by
  cases L with
  | nil => simp
  | cons n L =>
    intro m hm e
    have h1 := h.cons.2.2 m hm
    by_cases hn : n.2 = []
    · rw [hn, e, klt_irrefl (cfg := cfg) QFs.nil] at h1; cases h1
    · rw [e] at h1
      unfold klt at h1
      rw [← num_mexpr, (L_num_mexpr 1 1 h.cons.1.facs hn).2] at h1
      cases h1

theorem QF.signs {f : Expr D × ℚ} (h : QF cfg f) : Signs cfg (fac f) := by
  unfold fac
  split
  · exact ⟨h.base.pos, h.base.neg⟩
  · refine ⟨?_, ⟨false, by simp only [isNeg]; exact tot_pure _⟩⟩
    obtain ⟨v, hv⟩ := h.base.pos
    cases v with
    | true =>
      refine ⟨true, ?_⟩
      simp only [isPos]
      refine tot_bind (tot_whenTrue (tot_isPos hv)) ?_
      simp only [if_true]; exact tot_pure _
    | false =>
      refine ⟨(Number.rat f.2 : Number D).isRational && (Number.rat f.2 : Number D).numerator % 2 == 0, ?_⟩
      simp only [isPos]
      refine tot_bind (tot_whenTrue (tot_isPos hv)) ?_
      simp only [Bool.false_eq_true, if_false]
      refine tot_bind (tot_lift (a := some (.rat f.2)) (by simp [int, numEval, pure, Except.pure])) ?_
      exact tot_pure _

theorem signs_mexpr {q : ℚ} {P : List (Expr D × ℚ)} (h : QFs cfg P) : Signs cfg (mexpr q P) := by
  rcases mexpr_cases q P with ⟨rfl, e⟩ | ⟨f, rfl, rfl, e⟩ | ⟨hP, _, e⟩
  · rw [e]; exact signs_rat q
  · rw [e]; exact h.cons.1.signs
  · rw [e]
    refine signs_prod fun a ha => ?_
    unfold rl at ha
    rcases List.mem_append.1 ha with ha | ha
    · split at ha
      · simp at ha
      · rw [List.mem_singleton.1 ha]; exact signs_rat q
    · obtain ⟨f, hf, rfl⟩ := List.mem_map.1 ha; exact (h f hf).signs

theorem mexpr_eval' {q : ℚ} {P : List (Expr D × ℚ)} (h : QFs cfg P) :
    numEval (mexpr q P) = .ok (if P = [] then some (.rat q) else none) := by
  split
  · rename_i e; subst e; rw [← num_mexpr]; rfl
  · exact mexpr_eval h ‹_›

theorem signOfNumericParts_rat {L : List (Mo D)} (h : ∀ m ∈ L, QFs cfg m.2) (q : ℚ) :
    ∃ v, signOfNumericParts (.rat q : Number D) (L.map em) = .ok v := by
  induction L generalizing q with
  | nil => exact sign_rat q
  | cons m L ih =>
    have ih := ih fun x hx => h x (by simp [hx])
    simp only [List.map_cons, signOfNumericParts]
    rw [show numEval (em m) = _ from mexpr_eval' (h m (by simp))]
    by_cases hm : m.2 = []
    · obtain ⟨v, hv⟩ := ih (q + m.1)
      exact ⟨v, by simpa [hm, bind, Except.bind, Number.add] using hv⟩
    · obtain ⟨v, hv⟩ := ih q
      exact ⟨v, by simpa [hm, bind, Except.bind] using hv⟩

/-- Sums of monomials can be bases. -/
theorem qb_sum {L : List (Mo D)} (h : SL cfg L) (h2 : 2 ≤ L.length) : QB cfg (.sum (L.map em)) := by
  match L, h2 with
  | m :: m' :: L, _ =>
  have hm' : m'.2 ≠ [] := h.tail m' (by simp)
  have hgood : Expr.Good (.sum ((m :: m' :: L).map em)) := by
    refine Good.of_ops (by simp) (by simp) (by simp) (by simp) ?_ (by simp) ?_
    · intro l hl
      rcases hl with e | e
      · injection e with e; rw [← e]; simp
      · cases e
    · intro o ho
      simp only [operands] at ho
      obtain ⟨x, hx, rfl⟩ := List.mem_map.1 ho
      exact mexpr_good (h.sm x hx).facs
  have f' := (h.sm m' (by simp)).facs
  have hev : numEval (.sum ((m :: m' :: L).map em)) = .ok none := by
    simp only [List.map_cons, numEval, numEvalSum]
    rw [show numEval (em m) = _ from mexpr_eval' (h.sm m (by simp)).facs, show numEval (em m') = _ from mexpr_eval f' hm']
    by_cases hm : m.2 = []
    · simp [hm, bind, Except.bind, pure, Except.pure]
    · simp [hm, bind, Except.bind, pure, Except.pure]
  have hs : ∃ v, Tot cfg (fun E => signOfSum E ((m :: m' :: L).map em)) v := by
    obtain ⟨v, hv⟩ := signOfNumericParts_rat (D := D) (L := m :: m' :: L) (fun x hx => (h.sm x hx).facs) 0
    obtain ⟨w, hw⟩ := tot_signOfSymbolicParts (cfg := cfg) (l := (m :: m' :: L).map em) (by
      intro a ha
      obtain ⟨x, hx, rfl⟩ := List.mem_map.1 ha
      exact ⟨signs_mexpr (h.sm x hx).facs, _, mexpr_eval' (h.sm x hx).facs⟩) 0
    exact ⟨_, tot_bind (tot_lift hv) (tot_bind hw (tot_pure _))⟩
  obtain ⟨v, hv⟩ := hs
  refine ⟨.inr ⟨_, rfl⟩, hgood, hev, ?_, ⟨decide (v = 1), ?_⟩, ⟨decide (v = -1), ?_⟩⟩
  · rw [isConst]
    refine allConst_false (e := em m') (by simp) ?_
    rw [show (em m').isConst = _ from mexpr_isConst f']
    simp [hm']
  · simp only [isPos]
    exact tot_bind (tot_lift hev) (tot_bind hv (tot_pure _))
  · simp only [isNeg]
    exact tot_bind (tot_lift hev) (tot_bind hv (tot_pure _))

end Tsym.Qf
