import Verif.SurdRev

set_option autoImplicit false
set_option linter.unusedSectionVars false
set_option linter.unusedSimpArgs false
set_option linter.unusedVariables false

/-!
# Helper lemmas: products of two sums of integer multiples of square roots
-/

namespace Tsym.Sd

open Expr NumPowerSimpl

variable {D : Type} [Flt D] [LawfulFlt D] {cfg : Cfg D}

/-- The numbers in front of all products. -/
noncomputable def coMul (L M : List Mo) : ℕ →₀ ℚ := (L.map fun m => (M.map fun n => co [mulM m n]).sum).sum

theorem mulM_comm (m n : Mo) : mulM m n = mulM n m := by
  unfold mulM
  rw [below_comm, Nat.gcd_comm, mul_comm m.1]

theorem coMul_nil_right (L : List Mo) : coMul L [] = 0 := by
  unfold coMul; induction L with
  | nil => rfl
  | cons m L ih => simp

theorem coMul_cons_right (L : List Mo) (n : Mo) (M : List Mo) : coMul L (n :: M) = (L.map fun m => co [mulM m n]).sum + coMul L M := by
  unfold coMul
  induction L with
  | nil => simp
  | cons m L ih =>
    simp only [List.map_cons, List.sum_cons] at ih ⊢
    rw [ih]; abel

theorem coMul_comm (L M : List Mo) : coMul L M = coMul M L := by
  induction M with
  | nil => rw [coMul_nil_right]; rfl
  | cons n M ih =>
    rw [coMul_cons_right, ih]
    conv_rhs => unfold coMul
    rw [List.map_cons, List.sum_cons]
    simp only [mulM_comm _ n]
    rfl

theorem tot_sum_sum {l l' : List (Expr D)} (hS : (Expr.sum l : Expr D).isConst = true) (hS' : (Expr.sum l' : Expr D).isConst = true)
    (hex : Exact (.sum l : Expr D)) (hex' : Exact (.sum l' : Expr D)) (hne : l ≠ l') :
    Tot cfg (fun E => simplTwoFactors E (.sum l) (.sum l')) (ordered (.sum l) (.sum l')) := by
  have h : isEqual (.sum l : Expr D) (.sum l') = false := isEqual_ne hex hex' (by simpa using hne)
  simp only [simplTwoFactors, show ∀ l, (Expr.sum l : Expr D).isProduct = false from fun _ => rfl, Bool.or_self, Bool.false_eq_true, if_false, simplTwoFactorsWithoutProduct, hS, hS',
    show ∀ l, (Expr.sum l : Expr D).isOne = false from fun _ => rfl, Bool.and_self, if_true, simplTwoConst, haveEqualBases, Expr.base, h, areNumPowersWithEqualExp,
    areNumPowersWithZeroSumExp, areNumPowersWithEqualExpDenom, show ∀ l, (Expr.sum l : Expr D).isNumericPower = false from fun _ => rfl, Bool.and_false, Bool.false_and, whenFalse]
  exact tot_bind (a := false) (tot_pure _) (by simp only [Bool.false_eq_true, if_false]; exact tot_pure _)

variable {L M : List Mo}

/-- What multiplying two lists of summands gives. -/
structure Mul (L M R : List Mo) : Prop where
  sl : SL R
  co : co R = coMul L M

theorem Mul.comm {R : List Mo} (h : Mul L M R) : Mul M L R := ⟨h.sl, by rw [h.co, coMul_comm]⟩

theorem tot_expandTwo (hc : cfg.Ok) (hub : cfg.strictUb = false) (h1 : 1 ≤ cfg.maxPrime) (hL : SL L) (hM : SL M) (hLne : L ≠ []) (h2 : 2 ≤ M.length)
    (hZ : ∀ n ∈ L, ZM n) (hZ' : ∀ n ∈ M, ZM n) (hmax : ∀ m ∈ L, ∀ n ∈ M, ((m.2 * n.2 : ℕ) : ℤ) ≤ cfg.maxPrime) :
    ∃ R, Tot cfg (fun E => expandSums E (.sum (L.map (em (D := D)))) [.sum (M.map em)]) (sumOf (R.map em)) ∧ Mul L M R := by
  have key : ∀ K : List Mo, (∀ n ∈ K, ZM n) → (∀ m ∈ K, ∀ n ∈ M, ((m.2 * n.2 : ℕ) : ℤ) ≤ cfg.maxPrime) →
      ∃ Rs : List (List Mo), Tot cfg (fun E => Tsym.M.mapL (fun item => do
        let p ← E.prodCreate [item, .sum (M.map em)]
        E.expand p) (K.map (em (D := D)))) (Rs.map fun R => sumOf (R.map em)) ∧ (∀ R ∈ Rs, SL R) ∧ Rs.length = K.length ∧ (Rs.map co).sum = coMul K M := by
    intro K
    induction K with
    | nil => intro _ _; exact ⟨[], tot_pure _, by simp, rfl, rfl⟩
    | cons m K ih =>
      intro hz hx
      obtain ⟨Rs, t, hs, hl, hco⟩ := ih (fun n hn => hz n (by simp [hn])) fun n hn => hx n (by simp [hn])
      obtain ⟨R, hR, A⟩ := tot_em_sum (D := D) hc hub h1 (hz m (by simp)) hM h2 hZ' (hx m (by simp))
      refine ⟨R :: Rs, ?_, by simpa using ⟨A.sl, hs⟩, by simp [hl], ?_⟩
      · exact tot_bind (tot_bind (tot_prod hR) (expand_sumOf A.sl)) (tot_bind t (tot_pure _))
      · rw [List.map_cons, List.sum_cons, hco, A.co]
        unfold coMul
        rw [List.map_cons, List.sum_cons, List.map_map]
        rfl
  obtain ⟨Rs, t, hs, hl, hco⟩ := key L hZ hmax
  have hne : Rs ≠ [] := by rintro rfl; exact hLne (List.length_eq_zero_iff.1 hl.symm)
  obtain ⟨R, hR, A⟩ := tot_sumCreate (D := D) (cfg := cfg) hne hs
  refine ⟨R, ?_, A.sl, by rw [A.co, hco]⟩
  simp only [expandSums, show (Expr.sum (L.map (em (D := D)))).isSum = true from rfl, Bool.not_true, Tsym.M.logIf, Bool.false_eq_true, if_false]
  exact tot_bind (tot_pure _) (tot_bind t (tot_bind (tot_sum hR) (tot_pure _)))

theorem tot_expandPair (hc : cfg.Ok) (hub : cfg.strictUb = false) (h1 : 1 ≤ cfg.maxPrime) (hL : SL L) (hM : SL M) (h2 : 2 ≤ L.length) (h2' : 2 ≤ M.length)
    (hZ : ∀ n ∈ L, ZM n) (hZ' : ∀ n ∈ M, ZM n) (hmax : ∀ m ∈ L, ∀ n ∈ M, ((m.2 * n.2 : ℕ) : ℤ) ≤ cfg.maxPrime) :
    ∃ R, Tot cfg (fun E => expandAsProduct E [.sum (L.map (em (D := D))), .sum (M.map em)]) (sumOf (R.map em)) ∧ Mul L M R := by
  obtain ⟨R, hR, A⟩ := tot_expandTwo (D := D) hc hub h1 hL hM (by rintro rfl; simp at h2) h2' hZ hZ' hmax
  refine ⟨R, ?_, A⟩
  have hd : Tot cfg (fun E => defScalarAndSums E [.sum (L.map (em (D := D))), .sum (M.map em)]) ([], [.sum (L.map em), .sum (M.map em)]) := by
    simp only [defScalarAndSums]
    refine tot_bind (expand_sum hL h2) (tot_bind (a := ([], [.sum (M.map em)])) (tot_bind (expand_sum hM h2') (tot_bind (a := ([], [])) (tot_pure _) ?_)) ?_)
    · simp only [show (Expr.sum (M.map (em (D := D)))).isSum = true from rfl, if_true]; exact tot_pure _
    · simp only [show (Expr.sum (L.map (em (D := D)))).isSum = true from rfl, if_true]; exact tot_pure _
  have asl := A.sl
  unfold expandAsProduct
  refine tot_bind hd (tot_bind (a := one) (by simp only [List.isEmpty_nil, if_true]; exact tot_pure _) (tot_bind hR ?_))
  match R, asl with
  | [], _ =>
    simp only [List.map_nil, sumOf, zero_eq]
    refine tot_prod ?_
    unfold prodCreate
    rw [one_eq]
    simp only [List.any_cons, List.any_nil, isZero_ratE, show ∀ q, (num (.rat q) : Expr D).isUndefined = false from fun _ => rfl, Bool.or_self, Bool.false_eq_true, if_false,
      decide_true, Bool.or_true, Bool.true_or, if_true, zero_eq]
    exact tot_pure _
  | [m], h =>
    have hs := h.sm m (by simp)
    have := tot_prod (tot_one_em (D := D) (cfg := cfg) hc hs)
    have hns := hs.isSum (D := D)
    simp only [List.map_cons, List.map_nil, sumOf]
    revert this hns
    generalize (em m : Expr D) = x
    intro this hns
    cases x <;> first | exact this | simp [isSum] at hns
  | m :: m' :: R, h =>
    exact tot_oneSum hc h (by simp)

theorem tot_mul_sums (hc : cfg.Ok) (hub : cfg.strictUb = false) (h1 : 1 ≤ cfg.maxPrime) (hL : SL L) (hM : SL M) (h2 : 2 ≤ L.length) (h2' : 2 ≤ M.length)
    (hZ : ∀ n ∈ L, ZM n) (hZ' : ∀ n ∈ M, ZM n) (hmax : ∀ m ∈ L, ∀ n ∈ M, ((m.2 * n.2 : ℕ) : ℤ) ≤ cfg.maxPrime) (hne : L ≠ M) :
    ∃ R, Tot cfg (fun E => prodCreate E [.sum (L.map (em (D := D))), .sum (M.map em)]) (sumOf (R.map em)) ∧ Mul L M R := by
  have hS := sum_isConst (D := D) h2
  have hS' := sum_isConst (D := D) h2'
  have hne' : L.map (em (D := D)) ≠ M.map em := fun e => hne (List.map_injective_iff.2 (fun _ _ h => em_inj h) e)
  obtain ⟨R, hR, A⟩ := tot_expandPair (D := D) hc hub h1 hL hM h2 h2' hZ hZ' hmax
  obtain ⟨R', hR', A'⟩ := tot_expandPair (D := D) hc hub h1 hM hL h2' h2 hZ' hZ (fun m hm n hn => by rw [mul_comm]; exact hmax n hn m hm)
  have e : R' = R := SL.ext A'.sl A.sl (by rw [A'.comm.co, A.co])
  subst e
  refine ⟨R', ?_, A⟩
  have hsimp : Tot cfg (fun E => simplProd E [.sum (L.map (em (D := D))), .sum (M.map em)]) (ordered (.sum (L.map em)) (.sum (M.map em))) := by
    unfold simplProd
    refine tot_bind (a := [.sum (L.map em), .sum (M.map em)]) (Tsym.TrigProd.tot_extract_two rfl rfl) (tot_bind (a := [.sum (L.map em), .sum (M.map em)]) ?_
      (tot_sum_sum hS hS' (sum_exact L) (sum_exact M) hne'))
    refine tot_contract_pw (simpl := fun E => contractTrigFctPowers E) ?_
    simp only [List.pairwise_cons, List.mem_cons, List.not_mem_nil, or_false, forall_eq, List.Pairwise.nil, and_true, false_imp_iff, implies_true]
    rfl
  have ne : ∀ l l' : List (Expr D), (Expr.sum l : Expr D).isConst = true → (Expr.sum l' : Expr D).isConst = true → needsExpansion [.sum l, .sum l'] = true := by
    intro l l' h h'
    simp [needsExpansion, constElements, nonConstElements, h, h', isSum]
  simp only [prodCreate, List.any_cons, List.any_nil, show ∀ l, (Expr.sum l : Expr D).isUndefined = false from fun _ => rfl, show ∀ l, (Expr.sum l : Expr D).isZero = false from fun _ => rfl,
    Bool.or_self, Bool.false_eq_true, if_false]
  refine tot_bind (tot_prodSimplify hsimp) ?_
  rcases ordered_or (.sum (L.map em) : Expr D) (.sum (M.map em)) with e | e <;> rw [e]
  · simp only [ne _ _ hS hS', if_true]; exact tot_expandAsProduct hR
  · simp only [ne _ _ hS' hS, if_true]; exact tot_expandAsProduct hR'

/-- The numbers in front stay integers. -/
theorem zm_of {R : List Mo} (h : Mul L M R) (hZ : ∀ n ∈ L, ZM n) (hZ' : ∀ n ∈ M, ZM n) : ∀ n ∈ R, ZM n := by
  intro n hn
  have hs := h.sl.sm n hn
  refine ⟨hs.ne, hs.sf, ?_⟩
  have hq := ((h.sl.mem_iff n).1 hn).1
  have add : ∀ l : List (ℕ →₀ ℚ), (∀ f ∈ l, ∀ i, (f i).den = 1) → ∀ i, (l.sum i).den = 1 := by
    intro l hl i
    induction l with
    | nil => rfl
    | cons f l ih =>
      rw [List.sum_cons, Finsupp.add_apply]
      have h1 := hl f (by simp) i
      have h2 := ih fun g hg => hl g (by simp [hg])
      rw [Rat.den_eq_one_iff] at h1 h2
      rw [← h1, ← h2, ← Int.cast_add]; exact Rat.den_intCast _
  rw [← hq, h.co]
  refine add _ (fun f hf i => ?_) _
  obtain ⟨a, ha, rfl⟩ := List.mem_map.1 hf
  refine add _ (fun f hf i => ?_) _
  obtain ⟨b, hb, rfl⟩ := List.mem_map.1 hf
  simp only [co_cons, co_nil, add_zero, Finsupp.single_apply]
  split
  · exact ((hZ a ha).mul (hZ' b hb)).int
  · rfl

end Tsym.Sd
