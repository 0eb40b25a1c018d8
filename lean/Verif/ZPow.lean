import Verif.ZExpand
import Verif.PowPoly

set_option autoImplicit false
set_option linter.unusedSectionVars false
set_option linter.unusedSimpArgs false
set_option linter.unusedVariables false

/-!
# Powers with integer exponents
-/

namespace Tsym

namespace Zf

open Expr
open scoped Classical

variable {D : Type} [Flt D] [LawfulFlt D] {cfg : Cfg D}

theorem tot_simplPow_base {b : Expr D} (hb : ZB cfg b) (k : ℤ) :
    Tot cfg (fun E => simplPow E b (int k)) (b, int k) := by
  obtain ⟨v, hv⟩ := hb.neg
  unfold simplPow
  refine tot_bind (tot_noComplex_int hv k) ?_
  simp only [Bool.false_eq_true, if_false]
  rcases hb.shape with ⟨s, rfl⟩ | ⟨l, rfl⟩
  · exact tot_pure _
  · exact tot_pure _

theorem tot_prod_ints (hc : cfg.Ok) (j k : ℤ) : Tot cfg (fun E => prodCreate E [int j, int k]) (int (j * k) : Expr D) := by
  obtain ⟨x, hx, hx2, hx3⟩ := tot_prod_em (cfg := cfg) hc (K := Sb) kl_sb (A := [(int j : Expr D), int k]) (by simp) (by
    intro e he
    simp only [List.mem_cons, List.not_mem_nil, or_false] at he
    rcases he with rfl | rfl
    · exact EM.num kl_sb _
    · exact EM.num kl_sb _)
  have : x = int (j * k) := by
    refine EP.unique hx2.1 (EP.num kl_sb _) ?_
    rw [hx3]
    simp [int, lv_num, AddMonoidAlgebra.single_mul_single]
  rwa [this] at hx

/-- Powers of a factor. -/
theorem tot_pow_fac (hc : cfg.Ok) {f : Expr D × ℤ} (hf : ZF cfg f) {k : ℤ} (hk0 : k ≠ 0) (hk1 : k ≠ 1) :
    Tot cfg (fun E => powCreate E (fac f) (int k)) (fac (f.1, f.2 * k)) := by
  obtain ⟨b, j⟩ := f
  have hj0 : j ≠ 0 := hf.ne
  by_cases hj : j = 1
  · subst hj
    have : fac (b, 1) = b := by simp [fac]
    rw [this]
    have h := tot_powCreate hf.base k
    unfold fac0 at h
    rw [if_neg hk0] at h
    simpa using h
  · have hjk : j * k ≠ 0 := mul_ne_zero hj0 hk0
    have hfe : (fac (b, j) : Expr D) = .pow b (int j) := by simp [fac, hj]
    simp only
    rw [hfe]
    have e1 : (int k : Expr D).isUndefined = false := rfl
    have e2 : (int k : Expr D).isZero = false := by rw [isZero_int]; simpa using hk0
    have e3 : (int k : Expr D).isOne = false := by rw [isOne_int]; simpa using hk1
    have e4 : (int (j * k) : Expr D).isZero = false := by rw [isZero_int]; simpa using hjk
    have u : (Expr.pow b (int j) : Expr D).isUndefined = false := rfl
    have o : (Expr.pow b (int j) : Expr D).isOne = false := rfl
    have z : (Expr.pow b (int j) : Expr D).isZero = false := rfl
    simp only [powCreate, u, o, z, e1, e2, e3, Bool.or_self, Bool.false_eq_true, if_false, powCreateNonTrivial]
    refine tot_bind (a := (b, int (j * k))) (tot_simplPow ?_) ?_
    · unfold simplPow
      have hn : Tot cfg (fun E => isNeg E (.pow b (int j) : Expr D)) false := by simp only [isNeg]; exact tot_pure _
      refine tot_bind (tot_noComplex_int hn k) ?_
      simp only [Bool.false_eq_true, if_false]
      unfold simplifyPowerBase
      refine tot_bind (a := some b) ?_ ?_
      · unfold newPowerBase doContractExpFirst
        refine tot_bind (a := true) (tot_bind (tot_lift (isInteger_int j)) ?_) ?_
        · simp only [if_true]
          refine tot_bind (tot_lift (isInteger_int k)) ?_
          simp only [if_true]
          exact tot_pure _
        · simp only [if_true]
          exact tot_pure _
      · refine tot_bind (tot_prod (tot_prod_ints hc j k)) ?_
        simp only [e4, Bool.false_eq_true, if_false]
        exact tot_simplPow (tot_simplPow_base hf.base _)
    · have hb1 : b.isOne = false := by
        have h : ZF cfg (b, 1) := ⟨hf.base, one_ne_zero⟩
        simpa [fac] using h.isOne
      have e5 : (int (j * k) : Expr D).isOne = decide (j * k = 1) := isOne_int _
      by_cases h1 : j * k = 1
      · simp only [e5, h1, hb1, decide_true, if_true, Bool.false_eq_true, if_false, fac]
        exact tot_pure _
      · simp only [e5, h1, hb1, decide_false, Bool.false_eq_true, if_false, fac]
        exact tot_pure _

/-- The factors of a power. -/
def sc (k : ℤ) (P : List (Expr D × ℤ)) : List (Expr D × ℤ) := P.map fun f => (f.1, f.2 * k)

theorem Can.sc {P : List (Expr D × ℤ)} (h : Can cfg P) {k : ℤ} (hk : k ≠ 0) : Can cfg (sc k P) := by
  refine ⟨?_, ?_⟩
  · intro f hf
    obtain ⟨g, hg, rfl⟩ := List.mem_map.1 hf
    exact ⟨(h.facs g hg).base, mul_ne_zero (h.facs g hg).ne hk⟩
  · exact List.pairwise_map.2 h.sorted

theorem sc_one (P : List (Expr D × ℤ)) : sc 1 P = P := by
  unfold sc
  conv_rhs => rw [← List.map_id P]
  refine List.map_congr_left fun f _ => ?_
  simp

theorem sc_nil (k : ℤ) : sc k ([] : List (Expr D × ℤ)) = [] := rfl

/-- Powers of a product. -/
theorem tot_pow_term (hc : cfg.Ok) (hp : cfg.maxPrime < 324) {q : ℚ} {P : List (Expr D × ℤ)} {k : ℤ} (hq : q ≠ 0) (hP : Can cfg P)
    (hn : ¬ Nx q P) (hk : k ≠ 0) (hb : 8 * (k.natAbs : ℤ) < Number.unsignedMax) :
    (¬ Nx (q ^ k) (sc k P) → Tot cfg (fun E => powCreate E (mexpr q P) (int k)) (mexpr (q ^ k) (sc k P))) ∧
    (Nx (q ^ k) (sc k P) → ∀ r, Tot cfg (fun E => expandAsProduct E (rl (q ^ k) (sc k P))) r →
      Tot cfg (fun E => powCreate E (mexpr q P) (int k)) r) := by
  have hnum : ∀ q : ℚ, q ≠ 0 → Tot cfg (fun E => powCreate E (num (.rat q)) (int k)) (num (.rat (q ^ k)) : Expr D) := fun q hq =>
    tot_powNum hc (.inl hq) hb fun _ => .inl hp
  have hu : (mexpr q P).isUndefined = false := mexpr_isUndefined hP.facs
  have eu : (int k : Expr D).isUndefined = false := rfl
  have e2 : (int k : Expr D).isZero = false := by rw [isZero_int]; simpa using hk
  by_cases hk1 : k = 1
  · subst hk1
    simp only [zpow_one, sc_one]
    refine ⟨fun _ => ?_, fun h => absurd h hn⟩
    have e3 : (int 1 : Expr D).isOne = true := by rw [isOne_int]; simp
    have z : (mexpr q P).isZero = false := mexpr_isZero hq hP.facs
    by_cases ho : (mexpr q P).isOne = true
    · have : mexpr q P = one := by
        rcases mexpr_cases q P with ⟨rfl, h⟩ | ⟨f, rfl, _, h⟩ | ⟨_, _, h⟩
        · rw [h, isOne_ratE] at ho
          have : q = 1 := by simpa using ho
          rw [h, this, one_eq]
        · rw [h, (hP.cons.1).isOne] at ho; simp at ho
        · rw [h] at ho; simp [Expr.isOne] at ho
      rw [this]
      rw [this] at hu ho
      simp only [powCreate, hu, eu, ho, Bool.or_self, Bool.false_eq_true, if_false, Bool.or_true, if_true]
      exact tot_pure _
    · have ho : (mexpr q P).isOne = false := by simpa using ho
      simp only [powCreate, hu, eu, ho, z, e2, e3, Bool.or_self, Bool.false_eq_true, if_false, if_true]
      exact tot_pure _
  have e3 : (int k : Expr D).isOne = false := by rw [isOne_int]; simpa using hk1
  rcases mexpr_cases q P with ⟨rfl, h⟩ | ⟨f, rfl, rfl, h⟩ | ⟨hne, hl, h⟩
  · rw [h, sc_nil]
    refine ⟨fun _ => ?_, ?_⟩
    · rw [← num_mexpr]; exact hnum q hq
    · rintro ⟨_, l, hl⟩; simp at hl
  · rw [h]
    have h1 : (1 : ℚ) ^ k = 1 := one_zpow k
    rw [h1]
    refine ⟨fun _ => ?_, ?_⟩
    · have : mexpr 1 (sc k [f]) = fac (f.1, f.2 * k) := by rw [fac_mexpr]; rfl
      rw [this]; exact tot_pow_fac hc hP.cons.1 hk hk1
    · rintro ⟨h, _⟩; exact absurd rfl h
  · -- the single powers
    have hqk : q ^ k ≠ 0 := zpow_ne_zero _ hq
    have hcan := hP.sc hk
    obtain ⟨ps, Ms, hps, hM1, hM2, hM3, hM4, hlen⟩ : ∃ (ps : List (Expr D)) (Ms : List (Mo D)),
        Tot cfg (fun E => splitFactors E true (int k) (rl q P)) (rl q P, ps, []) ∧ (∀ m ∈ Ms, m.1 ≠ 0 ∧ ZFs cfg m.2) ∧
        ps = Ms.map em ∧ (Ms.map (·.1)).prod = q ^ k ∧ Ms.flatMap (·.2) = sc k P ∧ ps.length = (rl q P).length := by
      have hsplit : ∀ {x y : Expr D} {l ps : List (Expr D)}, Tot cfg (fun E => powCreate E x (int k)) y →
          Tot cfg (fun E => splitFactors E true (int k) l) (l, ps, []) →
          Tot cfg (fun E => splitFactors E true (int k) (x :: l)) (x :: l, y :: ps, []) := by
        intro x y l ps h1 h2
        simp only [splitFactors, if_true]
        refine tot_bind (tot_pure true) ?_
        simp only [if_true]
        exact tot_bind (tot_pow h1) (tot_bind h2 (tot_pure _))
      have hP' : ∀ P : List (Expr D × ℤ), ZFs cfg P → ∃ (ps : List (Expr D)) (Ms : List (Mo D)),
          Tot cfg (fun E => splitFactors E true (int k) (P.map fac)) (P.map fac, ps, []) ∧ (∀ m ∈ Ms, m.1 ≠ 0 ∧ ZFs cfg m.2) ∧
          ps = Ms.map em ∧ (Ms.map (·.1)).prod = 1 ∧ Ms.flatMap (·.2) = sc k P ∧ ps.length = (P.map fac).length := by
        intro P hP
        induction P with
        | nil => exact ⟨[], [], by simp only [List.map_nil, splitFactors]; exact tot_pure _, by simp, rfl, rfl, rfl, rfl⟩
        | cons f P ih =>
          obtain ⟨ps, Ms, i1, i2, i3, i4, i5, i6⟩ := ih hP.cons.2
          refine ⟨fac (f.1, f.2 * k) :: ps, (1, [(f.1, f.2 * k)]) :: Ms, hsplit (tot_pow_fac hc hP.cons.1 hk hk1) i1, ?_, ?_, ?_, ?_, ?_⟩
          · intro m hm
            rcases List.mem_cons.1 hm with rfl | hm
            · exact ⟨one_ne_zero, ZFs.single ⟨hP.cons.1.base, mul_ne_zero hP.cons.1.ne hk⟩⟩
            · exact i2 m hm
          · rw [i3, List.map_cons, fac_mexpr]; rfl
          · simp [i4]
          · rw [List.flatMap_cons, i5]; rfl
          · simp [i6]
      obtain ⟨ps, Ms, i1, i2, i3, i4, i5, i6⟩ := hP' P hP.facs
      by_cases hq1 : q = 1
      · subst hq1
        rw [rl_one]
        exact ⟨ps, Ms, i1, i2, i3, by rw [i4, one_zpow], i5, i6⟩
      · rw [rl_ne hq1]
        refine ⟨num (.rat (q ^ k)) :: ps, (q ^ k, []) :: Ms, hsplit (hnum q hq) i1, ?_, ?_, ?_, ?_, ?_⟩
        · intro m hm
          rcases List.mem_cons.1 hm with rfl | hm
          · exact ⟨hqk, ZFs.nil⟩
          · exact i2 m hm
        · rw [i3, List.map_cons, num_mexpr]; rfl
        · simp [i4]
        · rw [List.flatMap_cons, i5]; rfl
        · simp [i6]
    obtain ⟨R, hR, t1, t2⟩ := tot_prodCreate hc (Ms := Ms ++ [((1 : ℚ), [])]) (by
      intro m hm
      rcases List.mem_append.1 hm with hm | hm
      · exact hM1 m hm
      · rw [List.mem_singleton.1 hm]; exact ⟨one_ne_zero, ZFs.nil⟩) (by
        have : Ms.length = ps.length := by rw [hM2]; simp
        simp only [List.length_append, List.length_singleton]; omega)
    have hmap : (Ms ++ [((1 : ℚ), ([] : List (Expr D × ℤ)))]).map (fun m : Mo D => mexpr m.1 m.2) = ps ++ [(one : Expr D)] := by
      rw [List.map_append, hM2, one_eq, num_mexpr]; rfl
    have hco : ((Ms ++ [((1 : ℚ), ([] : List (Expr D × ℤ)))]).map (·.1)).prod = q ^ k := by simp [hM3]
    have hfl : (Ms ++ [((1 : ℚ), ([] : List (Expr D × ℤ)))]).flatMap (·.2) = sc k P := by simp [hM4]
    rw [hmap, hco] at t1 t2
    rw [hfl] at hR
    have hRP : R = sc k P := hcan.self hR
    subst hRP
    rw [h]
    have key : ∀ r, Tot cfg (fun E => prodCreate E (ps ++ [(one : Expr D)])) r →
        Tot cfg (fun E => powCreate E (.prod (rl q P)) (int k)) r := by
      intro r hr
      have hsg : Signs cfg (.prod (rl q P) : Expr D) := by
        have := signs_mexpr (q := q) hP.facs
        rwa [h] at this
      generalize hlist : rl q P = l at hl hps hlen hsg
      have u : (Expr.prod l : Expr D).isUndefined = false := rfl
      have o : (Expr.prod l : Expr D).isOne = false := rfl
      have z : (Expr.prod l : Expr D).isZero = false := rfl
      have o1 : (one : Expr D).isOne = true := by rw [one_eq, isOne_ratE]; simp
      simp only [powCreate, u, o, z, eu, e2, e3, Bool.or_self, Bool.false_eq_true, if_false, powCreateNonTrivial]
      refine tot_bind (a := (r, one)) (tot_simplPow ?_) ?_
      · unfold simplPow
        obtain ⟨v, hv⟩ := hsg.2
        refine tot_bind (tot_noComplex_int hv k) ?_
        simp only [Bool.false_eq_true, if_false]
        unfold simplifyProductBase
        refine tot_bind (tot_lift (isInteger_int k)) (tot_bind hps ?_)
        have hem : ps.isEmpty = false := by
          rw [List.isEmpty_eq_false_iff]
          intro e
          rw [e] at hlen; simp at hlen; omega
        simp only [hem, Bool.false_eq_true, if_false, Bool.true_or, Bool.not_true]
        refine tot_bind (tot_logIf rfl) (tot_bind (tot_prod (Tsym.tot_prod_nil hc)) (tot_bind (a := one) (tot_pow ?_) (tot_bind (tot_prod hr) (tot_pure _))))
        have u1 : (one : Expr D).isUndefined = false := by rw [one_eq]; rfl
        simp only [powCreate, u1, eu, o1, Bool.or_self, Bool.false_eq_true, if_false, Bool.or_true, if_true]
        exact tot_pure _
      · simp only [o1, if_true]
        exact tot_pure _
    exact ⟨fun hx => key _ (t1 hx), fun hx r hr => key _ (t2 hx r hr)⟩

end Zf
end Tsym
