import Verif.SurdProd

set_option autoImplicit false
set_option linter.unusedSectionVars false
set_option linter.unusedSimpArgs false
set_option linter.unusedVariables false

/-!
# Helper lemmas: sums of integer multiples of square roots times such a multiple
-/

namespace Tsym.Sd

open Expr NumPowerSimpl

variable {D : Type} [Flt D] [LawfulFlt D] {cfg : Cfg D}

theorem tot_gen_one {e : Expr D} (h1 : e.isUndefined = false) (h2 : e.isZero = false) (h3 : e.isProduct = false) (h4 : e.isOne = false) (h5 : isContractableTrigFctPower e = pure false) :
    Tot cfg (fun E => prodCreate E [e, num (.rat 1)]) e := by
  have z : (num (.rat 1) : Expr D).isZero = false := by rw [isZero_ratE]; simp
  simp only [prodCreate, List.any_cons, List.any_nil, h1, h2, z, show (num (.rat 1) : Expr D).isUndefined = false from rfl, Bool.or_self, Bool.false_eq_true, if_false]
  refine tot_bind (a := [e]) (tot_prodSimplify ?_) (tot_pure _)
  unfold simplProd
  refine tot_bind (a := [e, num (.rat 1)]) (Tsym.TrigProd.tot_extract_two h3 rfl) (tot_bind (a := [e, num (.rat 1)]) ?_ ?_)
  · refine tot_contract_pw (simpl := fun E => contractTrigFctPowers E) ?_
    simp only [List.pairwise_cons, List.mem_cons, List.not_mem_nil, or_false, forall_eq, List.Pairwise.nil, and_true, false_imp_iff, implies_true]
    unfold areContractableTrigFctPowers
    rw [h5]; rfl
  · have o : (num (.rat 1) : Expr D).isOne = true := by rw [isOne_ratE]; simp
    simp only [simplPreparedFactors, simplTwoFactors, h3, show (num (.rat 1) : Expr D).isProduct = false from rfl, Bool.or_self, Bool.false_eq_true, if_false,
      simplTwoFactorsWithoutProduct, h4, o, if_true]
    exact tot_pure _

/-- The order of a number and a sum does not matter. -/
theorem tot_swap_num {k : ℚ} (hk1 : k ≠ 1) {l : List (Expr D)} (hS : (Expr.sum l : Expr D).isConst = true) (hz : (num (.rat k) : Expr D).isZero = false) {r : Expr D}
    (h : Tot cfg (fun E => prodCreate E [num (.rat k), .sum l]) r) : Tot cfg (fun E => prodCreate E [.sum l, num (.rat k)]) r := by
  have o : (num (.rat k) : Expr D).isOne = false := by rw [isOne_ratE]; simpa using hk1
  have cn : (num (.rat k) : Expr D).isConst = true := by simp [isConst]
  have e : ∀ E : Eng D, simplTwoFactors E (.sum l) (num (.rat k)) = simplTwoFactors E (num (.rat k)) (.sum l) := by
    intro E
    simp only [simplTwoFactors, show (num (.rat k) : Expr D).isProduct = false from rfl, show (Expr.sum l : Expr D).isProduct = false from rfl,
      Bool.or_self, Bool.false_eq_true, if_false, simplTwoFactorsWithoutProduct, o, show (Expr.sum l : Expr D).isOne = false from rfl, cn, hS, Bool.and_self,
      if_true, simplTwoConst, simplNumAndConst]
  have sw : Tot cfg (fun E => E.prodSimplify [.sum l, num (.rat k)]) [num (.rat k), (.sum l : Expr D)] := by
    refine tot_prodSimplify ?_
    unfold simplProd
    refine tot_bind (a := [.sum l, num (.rat k)]) (Tsym.TrigProd.tot_extract_two rfl rfl) (tot_bind (a := [.sum l, num (.rat k)]) ?_ ?_)
    · refine tot_contract_pw (simpl := fun E => contractTrigFctPowers E) ?_
      simp only [List.pairwise_cons, List.mem_cons, List.not_mem_nil, or_false, forall_eq, List.Pairwise.nil, and_true, false_imp_iff, implies_true]
      rfl
    · simp only [simplPreparedFactors, e]
      exact tot_num_sum hk1 hS
  have sw' : Tot cfg (fun E => E.prodSimplify [num (.rat k), .sum l]) [num (.rat k), (.sum l : Expr D)] := by
    refine tot_prodSimplify ?_
    unfold simplProd
    refine tot_bind (a := [num (.rat k), .sum l]) (Tsym.TrigProd.tot_extract_two rfl rfl) (tot_bind (a := [num (.rat k), .sum l]) ?_ ?_)
    · refine tot_contract_pw (simpl := fun E => contractTrigFctPowers E) ?_
      simp only [List.pairwise_cons, List.mem_cons, List.not_mem_nil, or_false, forall_eq, List.Pairwise.nil, and_true, false_imp_iff, implies_true]
      rfl
    · exact tot_num_sum hk1 hS
  simp only [prodCreate, List.any_cons, List.any_nil, hz, show (num (.rat k) : Expr D).isUndefined = false from rfl, show (Expr.sum l : Expr D).isUndefined = false from rfl,
    show (Expr.sum l : Expr D).isZero = false from rfl, Bool.or_self, Bool.false_eq_true, if_false] at h ⊢
  obtain ⟨N, hN⟩ := h
  obtain ⟨N1, h1⟩ := sw
  obtain ⟨N2, h2⟩ := sw'
  refine ⟨max N (max N1 N2), fun n hn => ?_⟩
  have a0 := hN n (by omega)
  have a1 := h1 n (by omega)
  have a2 := h2 n (by omega)
  dsimp only at a0 a1 a2 ⊢
  rw [a1]
  rw [a2] at a0
  exact a0

/-- A sum times a multiple of a root. -/
theorem tot_sum_em (hc : cfg.Ok) (hub : cfg.strictUb = false) (h1 : 1 ≤ cfg.maxPrime) {m : Mo} (hm : ZM m) {L : List Mo} (hL : SL L) (h2 : 2 ≤ L.length) (hZ : ∀ n ∈ L, ZM n)
    (hmax : ∀ n ∈ L, ((m.2 * n.2 : ℕ) : ℤ) ≤ cfg.maxPrime) :
    ∃ R, Tot cfg (fun E => prodCreate E [.sum (L.map (em (D := D))), em m]) (sumOf (R.map em)) ∧ Added (L.map fun n => [mulM m n]) R := by
  obtain ⟨q, a⟩ := m
  have hne : L ≠ [] := by rintro rfl; simp at h2
  have hS := sum_isConst (D := D) h2
  have hxs := expand_sum (D := D) (cfg := cfg) hL h2
  have hex := sum_exact (D := D) L
  obtain ⟨R, hR, A⟩ := tot_scalarSum (D := D) hc hub h1 hm hne hZ hmax
  refine ⟨R, ?_, A⟩
  have hcoR : ∀ {K : List Mo}, SL K → co K = ((L.map fun n => [mulM (q, a) n]).map co).sum → R = K := fun hK h => SL.ext A.sl hK (by rw [A.co, h])
  generalize hl : L.map (em (D := D)) = l at *
  have uS : (Expr.sum l : Expr D).isUndefined = false := rfl
  have zS : (Expr.sum l : Expr D).isZero = false := rfl
  have hsm := hm.sm
  by_cases ha1 : a = 1
  · subst ha1
    by_cases hq1 : q = 1
    · -- one
      subst hq1
      have e : R = L := hcoR hL (by
        rw [List.map_map]
        unfold co
        congr 1
        refine List.map_congr_left fun n _ => ?_
        simp [mulM, below_one_left, co])
      rw [e, sumOf_two (D := D) h2, em_one]
      have := tot_gen_one (D := D) (cfg := cfg) (e := .sum l) rfl rfl rfl rfl rfl
      rw [hl]
      exact this
    · have e : R = scale q L := hcoR (hL.scale hm.ne (by rw [hm.int]; simp)) (by
        rw [List.map_map]
        unfold co Sd.scale
        rw [List.map_map]
        congr 1
        refine List.map_congr_left fun n _ => ?_
        simp [mulM, below_one_left, co])
      have := tot_scale (D := D) hc hL hm.ne hq1 (by rw [hm.int]; simp)
      rw [sumOf_two h2, hl, ← e] at this
      rw [em_one]
      have hz : (num (.rat q) : Expr D).isZero = false := by rw [isZero_ratE]; simpa using hm.ne
      refine tot_swap_num ?_ ?_ hz this
      · exact hq1
      · exact hS
  · have haq : (a : ℚ) ≠ 1 := by exact_mod_cast ha1
    have hsf : Squarefree a := hm.sf
    have hrx := root_exp (D := D) (cfg := cfg) hsf ha1
    have emx := em_root (D := D) (m := (q, a)) ha1
    have hrs : (rootE (a : ℚ) : Expr D).isSum = false := rootE_isSum _
    have hcr := rootE_isConst (D := D) (a : ℚ)
    -- what remains after the factors are found
    have fin : ∀ {sc : List (Expr D)} {v : List (Expr D)}, Tot cfg (fun E => defScalarAndSums E v) (sc, [.sum l]) → sc ≠ [] →
        Tot cfg (fun E => E.prodCreate sc) (em (q, a)) → Tot cfg (fun E => E.expandAsProduct v) (sumOf (R.map (em (D := D)))) := by
      intro sc v hd hsc hp
      refine tot_expandAsProduct (tot_expandAsProduct_cons hd (scalar := em (q, a)) ?_ (ops := l) ?_ ?_)
      · rw [List.isEmpty_eq_false_iff.2 hsc]; exact hp
      · simp only [expandSums]; exact tot_pure _
      · exact hR
    have ne : ∀ v : List (Expr D), v ≠ [] → (∀ x ∈ v, x.isConst = true) → (.sum l) ∈ v → needsExpansion v = true := by
      intro v hv hvc hvs
      have c1 : constElements v = v := by
        simp only [constElements]; exact List.filter_eq_self.2 fun x hx => hvc x hx
      have c2 : nonConstElements v = [] := by
        simp only [nonConstElements]; exact List.filter_eq_nil_iff.2 fun x hx => by simp [hvc x hx]
      unfold needsExpansion
      rw [c1, c2]
      have : v.any isSum = true := List.any_eq_true.2 ⟨_, hvs, rfl⟩
      have h0 : v.isEmpty = false := List.isEmpty_eq_false_iff.2 hv
      simp [h0, this]
    have cn : (num (.rat q) : Expr D).isConst = true := by simp [isConst]
    by_cases hq1 : q = 1
    · subst hq1
      simp only [if_true] at emx
      rw [emx] at fin ⊢
      simp only [prodCreate, List.any_cons, List.any_nil, rootE_isUndefined, rootE_isZero, uS, zS, Bool.or_self, Bool.false_eq_true, if_false]
      have hsing : Tot cfg (fun E => E.prodCreate [(rootE (a : ℚ) : Expr D)]) (rootE (a : ℚ)) := tot_prod (tot_prod_single (rootE_isUndefined _) (rootE_isZero _))
      have hsimp : Tot cfg (fun E => simplProd E [.sum l, (rootE (a : ℚ) : Expr D)]) (ordered (.sum l) (rootE (a : ℚ))) := by
        unfold simplProd
        refine tot_bind (a := [.sum l, rootE (a : ℚ)]) (Tsym.TrigProd.tot_extract_two rfl (rootE_isProduct _)) (tot_bind (a := [.sum l, rootE (a : ℚ)]) ?_ (tot_root_sum ha1 hS).2)
        refine tot_contract_pw (simpl := fun E => contractTrigFctPowers E) ?_
        simp only [List.pairwise_cons, List.mem_cons, List.not_mem_nil, or_false, forall_eq, List.Pairwise.nil, and_true, false_imp_iff, implies_true]
        rfl
      refine tot_bind (tot_prodSimplify hsimp) ?_
      rcases (ordered_or (.sum l : Expr D) (rootE (a : ℚ))).symm with e | e <;> rw [e]
      · simp only [ne [rootE (a : ℚ), .sum l] (by simp) (by simp [hcr, hS]) (by simp), if_true]
        refine fin (sc := [rootE (a : ℚ)]) ?_ (by simp) hsing
        simp only [defScalarAndSums]
        refine tot_bind hrx (tot_bind (a := ([], [.sum l])) (tot_bind hxs (tot_bind (a := ([], [])) (tot_pure _) ?_)) ?_)
        · simp only [show (Expr.sum l : Expr D).isSum = true from rfl, if_true]; exact tot_pure _
        · simp only [hrs, Bool.false_eq_true, if_false]; exact tot_pure _
      · simp only [ne [.sum l, rootE (a : ℚ)] (by simp) (by simp [hcr, hS]) (by simp), if_true]
        refine fin (sc := [rootE (a : ℚ)]) ?_ (by simp) hsing
        simp only [defScalarAndSums]
        refine tot_bind hxs (tot_bind (a := ([rootE (a : ℚ)], [])) (tot_bind hrx (tot_bind (a := ([], [])) (tot_pure _) ?_)) ?_)
        · simp only [hrs, Bool.false_eq_true, if_false]; exact tot_pure _
        · simp only [show (Expr.sum l : Expr D).isSum = true from rfl, if_true]; exact tot_pure _
    · simp only [hq1, if_false] at emx
      have hnum := hm.num
      have hk0 : q.num ≠ 0 := Rat.num_ne_zero.2 hm.ne
      obtain ⟨r, hr, hrr⟩ := tot_prep_three (D := D) hc hk0 (by rw [hnum]; exact hq1) hsf ha1 hS hex (List.perm_middle (l₁ := [num (.rat (q.num : ℚ)), rootE (a : ℚ)]) (l₂ := [])).symm
      simp only at hnum
      rw [hnum] at hr hrr
      have hnx : Tot cfg (fun E => E.expand (num (.rat q) : Expr D)) (num (.rat q)) := (cs_num hm.ne).exp
      have hns : (num (.rat q) : Expr D).isSum = false := rfl
      have hpr : Tot cfg (fun E => E.prodCreate [num (.rat q), (rootE (a : ℚ) : Expr D)]) (.prod [num (.rat q), rootE (a : ℚ)]) :=
        tot_prod ((hsm.st ha1).tot_prod hq1)
      rw [emx] at fin ⊢
      simp only [prodCreate, List.any_cons, List.any_nil, show (Expr.prod [num (.rat q), (rootE (a : ℚ) : Expr D)]).isUndefined = false from rfl,
        show (Expr.prod [num (.rat q), (rootE (a : ℚ) : Expr D)]).isZero = false from rfl, uS, zS, Bool.or_self, Bool.false_eq_true, if_false]
      refine tot_bind (a := r) (tot_prodSimplify ?_) ?_
      · unfold simplProd
        refine tot_bind (a := [.sum l, num (.rat q), rootE (a : ℚ)]) ?_ ?_
        · have := tot_extract (cfg := cfg) (u := [(.sum l : Expr D), .prod [num (.rat q), rootE (a : ℚ)]]) (by
            intro ops hl y hy
            simp only [List.mem_cons, List.not_mem_nil, or_false, Expr.prod.injEq] at hl
            rcases hl with hl | hl
            · cases hl
            · subst hl
              simp only [List.mem_cons, List.not_mem_nil, or_false] at hy
              rcases hy with rfl | rfl
              · rfl
              · exact rootE_isProduct _)
          exact this
        · refine tot_bind (a := [.sum l, num (.rat q), rootE (a : ℚ)]) ?_ hr
          refine tot_contract_pw (simpl := fun E => contractTrigFctPowers E) ?_
          simp only [List.pairwise_cons, List.mem_cons, List.not_mem_nil, or_false, forall_eq_or_imp, forall_eq, List.Pairwise.nil, and_true, false_imp_iff, implies_true, num_trig_pair,
            true_and]
          exact ⟨rfl, rfl⟩
      · rcases hrr with rfl | rfl
        · simp only [ne [num (.rat q), rootE (a : ℚ), .sum l] (by simp) (by simp [hcr, hS, cn]) (by simp), if_true]
          refine fin (sc := [num (.rat q), rootE (a : ℚ)]) ?_ (by simp) hpr
          simp only [defScalarAndSums]
          refine tot_bind hnx (tot_bind (a := ([rootE (a : ℚ)], [.sum l])) (tot_bind hrx (tot_bind (a := ([], [.sum l])) (tot_bind hxs (tot_bind (a := ([], [])) (tot_pure _) ?_)) ?_)) ?_)
          · simp only [show (Expr.sum l : Expr D).isSum = true from rfl, if_true]; exact tot_pure _
          · simp only [hrs, Bool.false_eq_true, if_false]; exact tot_pure _
          · simp only [hns, Bool.false_eq_true, if_false]; exact tot_pure _
        · simp only [ne [num (.rat q), .sum l, rootE (a : ℚ)] (by simp) (by simp [hcr, hS, cn]) (by simp), if_true]
          refine fin (sc := [num (.rat q), rootE (a : ℚ)]) ?_ (by simp) hpr
          simp only [defScalarAndSums]
          refine tot_bind hnx (tot_bind (a := ([rootE (a : ℚ)], [.sum l])) (tot_bind hxs (tot_bind (a := ([rootE (a : ℚ)], [])) (tot_bind hrx (tot_bind (a := ([], [])) (tot_pure _) ?_)) ?_)) ?_)
          · simp only [hrs, Bool.false_eq_true, if_false]; exact tot_pure _
          · simp only [show (Expr.sum l : Expr D).isSum = true from rfl, if_true]; exact tot_pure _
          · simp only [hns, Bool.false_eq_true, if_false]; exact tot_pure _

end Tsym.Sd
