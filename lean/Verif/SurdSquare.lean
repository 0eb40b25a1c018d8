import Verif.SurdSign
import Verif.TrigTable
import Verif.InvTab

set_option autoImplicit false
set_option linter.unusedSectionVars false
set_option linter.unusedSimpArgs false
set_option linter.unusedVariables false

/-!
# Helper lemmas: the square of a sum of multiples of square roots

A sum of at least two multiples of square roots times itself is a power, and expanding that gives the sum with the square of the value.
-/

namespace Tsym.Sd

open Expr NumPowerSimpl

variable {D : Type} [Flt D] [LawfulFlt D] {cfg : Cfg D} {L M : List Mo}

theorem sum_eval_acc (hL : ∀ m ∈ L, SM m.1 m.2) (acc : Number D) : ∃ x : Number D, numEvalSum acc (L.map (em (D := D))) = .ok (some x) := by
  induction L generalizing acc with
  | nil => exact ⟨acc, rfl⟩
  | cons m L ih =>
    have hm := (hL m (by simp)).sf
    obtain ⟨x, hx, _⟩ := surd_eval (D := D) (p := m.1) (a := (m.2 : ℚ)) (by exact_mod_cast Nat.pos_of_ne_zero hm.ne_zero)
    obtain ⟨y, hy⟩ := ih (fun n hn => hL n (by simp [hn])) (acc.add x)
    refine ⟨y, ?_⟩
    have hx' : numEval (em m : Expr D) = .ok (some x) := hx
    simp only [List.map_cons, numEvalSum, hx', bind, Except.bind]
    exact hy

theorem sum_eval (hL : SL L) : ∃ x : Number D, numEval (.sum (L.map (em (D := D)))) = .ok (some x) := by
  simpa only [numEval] using sum_eval_acc (D := D) hL.sm 0

theorem tot_pos_sum (hL : SL L) : ∃ b, Tot cfg (fun E => E.isPos (.sum (L.map (em (D := D))))) b := by
  obtain ⟨x, hx⟩ := sum_eval (D := D) hL
  refine ⟨Number.lt 0 x, tot_isPos ?_⟩
  simp only [isPos]
  exact tot_bind (tot_lift hx) (tot_pure _)

theorem tot_neg_sum (hL : SL L) : ∃ b, Tot cfg (fun E => E.isNeg (.sum (L.map (em (D := D))))) b := by
  obtain ⟨x, hx⟩ := sum_eval (D := D) hL
  refine ⟨x.lt 0, tot_isNeg ?_⟩
  simp only [isNeg]
  exact tot_bind (tot_lift hx) (tot_pure _)

theorem tot_pow_two (hL : SL L) : Tot cfg (fun E => powCreate E (.sum (L.map (em (D := D)))) (num (.rat 2))) (.pow (.sum (L.map em)) (num (.rat 2))) := by
  have z : (num (.rat 2) : Expr D).isZero = false := by rw [isZero_ratE]; norm_num
  have o : (num (.rat 2) : Expr D).isOne = false := by rw [isOne_ratE]; norm_num
  obtain ⟨b, hb⟩ := tot_neg_sum (D := D) (cfg := cfg) hL
  generalize L.map (em (D := D)) = l at *
  simp only [powCreate, show (num (.rat 2) : Expr D).isUndefined = false from rfl, show (Expr.sum l).isUndefined = false from rfl, z, o,
    show (Expr.sum l).isOne = false from rfl, show (Expr.sum l).isZero = false from rfl, Bool.or_self, Bool.false_eq_true, if_false, powCreateNonTrivial]
  refine tot_bind (a := (.sum l, num (.rat 2))) (tot_simplPow ?_) ?_
  · unfold simplPow
    refine tot_bind (a := false) ?_ ?_
    · unfold doesInvolveComplexNumbers
      refine tot_whenTrue (tot_bind (tot_lift (numEval_rat _)) (tot_bind hb ?_))
      have : (Number.rat 2 : Number D).isInt = true := by krfl
      simp only [this, Bool.not_true, Bool.and_false, Bool.false_eq_true, if_false]; exact tot_pure _
    · simp only [Bool.false_eq_true, if_false]; exact tot_pure _
  · simp only [o, show (Expr.sum l).isOne = false from rfl, Bool.false_eq_true, if_false]; exact tot_pure _

theorem tot_mul_self (hL : SL L) (h2 : 2 ≤ L.length) :
    Tot cfg (fun E => prodCreate E [.sum (L.map (em (D := D))), .sum (L.map em)]) (.pow (.sum (L.map em)) (num (.rat 2))) := by
  have hS := sum_isConst (D := D) h2
  have heq := isEqual_refl (sum_exact (D := D) L)
  have hp := tot_pow_two (D := D) (cfg := cfg) hL
  obtain ⟨b1, hb1⟩ := tot_pos_sum (D := D) (cfg := cfg) hL
  obtain ⟨b2, hb2⟩ := tot_neg_sum (D := D) (cfg := cfg) hL
  generalize L.map (em (D := D)) = l at *
  have hf : isFractionNumeric (one : Expr D) = .ok false := by krfl
  have hsum := tot_sum_num (cfg := cfg) (D := D) 1 1
  rw [show (1 + 1 : ℚ) = 2 by norm_num] at hsum
  have htwo : Tot cfg (fun E => simplTwoFactors E (.sum l) (.sum l)) [.pow (.sum l) (num (.rat 2))] := by
    have hh : haveEqualBases (.sum l : Expr D) (.sum l) = true := heq
    simp only [simplTwoFactors, show (Expr.sum l).isProduct = false from rfl, Bool.or_self, Bool.false_eq_true, if_false, simplTwoFactorsWithoutProduct,
      show (Expr.sum l).isOne = false from rfl, hS, Bool.and_self, if_true, simplTwoConst, hh, simplTwoEqualBases]
    refine tot_bind (a := num (.rat 2)) hsum (tot_bind (tot_silent hb1) ?_)
    have hs : ∃ s, Tot cfg (fun E => if b1 then pure true else M.silent (E.isNeg (Expr.sum l).base)) s := by
      cases b1
      · simp only [Bool.false_eq_true, if_false]; exact ⟨b2, tot_silent hb2⟩
      · simp only [if_true]; exact ⟨true, tot_pure _⟩
    obtain ⟨s, hs⟩ := hs
    refine tot_bind hs (tot_bind (a := false) ?_ ?_)
    · cases s
      · simp only [Bool.false_eq_true, if_false]
        refine tot_bind (a := false) (tot_lift hf) ?_
        simp only [Bool.false_eq_true, if_false]
        exact tot_bind (tot_pure _) (by simp only [Bool.false_eq_true, if_false]; exact tot_pure _)
      · simp only [if_true]; exact tot_pure _
    · simp only [Bool.false_eq_true, if_false]
      exact tot_bind (tot_pow hp) (tot_pure _)
  have hsimp : Tot cfg (fun E => simplProd E [.sum l, .sum l]) [.pow (.sum l) (num (.rat 2))] := by
    unfold simplProd
    refine tot_bind (a := [.sum l, .sum l]) (Tsym.TrigProd.tot_extract_two rfl rfl) (tot_bind (a := [.sum l, .sum l]) ?_ htwo)
    refine tot_contract_pw (simpl := fun E => contractTrigFctPowers E) ?_
    simp only [List.pairwise_cons, List.mem_cons, List.not_mem_nil, or_false, forall_eq, List.Pairwise.nil, and_true, false_imp_iff, implies_true]
    rfl
  simp only [prodCreate, List.any_cons, List.any_nil, show ∀ l, (Expr.sum l : Expr D).isUndefined = false from fun _ => rfl, show ∀ l, (Expr.sum l : Expr D).isZero = false from fun _ => rfl,
    Bool.or_self, Bool.false_eq_true, if_false]
  exact tot_bind (tot_prodSimplify hsimp) (tot_pure _)

end Tsym.Sd
