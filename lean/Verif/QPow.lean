import Verif.QExpand
import Verif.PowPoly
import Verif.InvTab
import Verif.TrigTable

set_option autoImplicit false
set_option linter.unusedSectionVars false
set_option linter.unusedSimpArgs false
set_option linter.unusedVariables false

/-!
# Powers of products of powers with rational exponents
-/

namespace Tsym

namespace Qf

open Expr
open scoped Classical

variable {D : Type} [Flt D] [LawfulFlt D] {cfg : Cfg D}

theorem tot_noComplex {b : Expr D} {v : Bool} {k : ℚ} (hb : Tot cfg (fun E => isNeg E b) v) (h : k.den = 1 ∨ v = false) :
    Tot cfg (fun E => doesInvolveComplexNumbers E b (num (.rat k))) false := by
  unfold doesInvolveComplexNumbers
  refine tot_whenTrue (tot_bind (tot_lift (numEval_rat k)) (tot_bind (tot_isNeg hb) ?_))
  rcases h with h | rfl
  · have h : (Number.rat k : Number D).isInt = true := by simp [Number.isInt, Number.isRational, Number.denominator, h]
    simp only [h, Bool.not_true, Bool.and_false, Bool.false_eq_true, if_false]
    exact tot_pure _
  · simp only [Bool.false_and, Bool.false_eq_true, if_false]
    exact tot_pure _

theorem tot_simplPow_base {b : Expr D} (hb : QB cfg b) {k : ℚ} (hk : Ex cfg b k) :
    Tot cfg (fun E => simplPow E b (num (.rat k))) (b, num (.rat k)) := by
  have : Tot cfg (fun E => doesInvolveComplexNumbers E b (num (.rat k))) false := by
    rcases hk with hk | hk
    · obtain ⟨v, hv⟩ := hb.neg; exact tot_noComplex hv (.inl hk)
    · exact tot_noComplex hk.2 (.inr rfl)
  unfold simplPow
  refine tot_bind this ?_
  simp only [Bool.false_eq_true, if_false]
  rcases hb.shape with ⟨s, rfl⟩ | ⟨l, rfl⟩
  · exact tot_pure _
  · exact tot_pure _

/-- Powers of a factor: the new exponent is the product of the exponents, if these are integers or the base is positive. -/
theorem tot_pow_fac (hc : cfg.Ok) {f : Expr D × ℚ} (hf : QF cfg f) {k : ℚ} (hk : f.2.den = 1 ∧ k.den = 1 ∨ Ps cfg f.1) (hk0 : k ≠ 0)
    (hk1 : k ≠ 1) : Tot cfg (fun E => powCreate E (fac f) (num (.rat k))) (fac (f.1, f.2 * k)) := by
  obtain ⟨b, j⟩ := f
  have hj0 : j ≠ 0 := hf.ne
  have hke : Ex cfg b k := hk.imp (·.2) id
  have hx : Ex cfg b (j * k) := hf.ok.mul hke
  by_cases hj : j = 1
  · subst hj
    have : fac (b, 1) = b := by simp [fac]
    rw [this]
    have h := tot_powCreate hf.base hke
    unfold fac0 at h
    rw [if_neg hk0] at h
    simpa using h
  · have hjk : j * k ≠ 0 := mul_ne_zero hj0 hk0
    have hfe : (fac (b, j) : Expr D) = .pow b (num (.rat j)) := by simp [fac, hj]
    simp only
    rw [hfe]
    have e1 : (num (.rat k) : Expr D).isUndefined = false := rfl
    have e2 : (num (.rat k) : Expr D).isZero = false := by rw [isZero_ratE]; simpa using hk0
    have e3 : (num (.rat k) : Expr D).isOne = false := by rw [isOne_ratE]; simpa using hk1
    have e4 : (num (.rat (j * k)) : Expr D).isZero = false := by rw [isZero_ratE]; simpa using hjk
    have u : (Expr.pow b (num (.rat j)) : Expr D).isUndefined = false := rfl
    have o : (Expr.pow b (num (.rat j)) : Expr D).isOne = false := rfl
    have z : (Expr.pow b (num (.rat j)) : Expr D).isZero = false := rfl
    simp only [powCreate, u, o, z, e1, e2, e3, Bool.or_self, Bool.false_eq_true, if_false, powCreateNonTrivial]
    refine tot_bind (a := (b, num (.rat (j * k)))) (tot_simplPow ?_) ?_
    · unfold simplPow
      have hn : Tot cfg (fun E => isNeg E (.pow b (num (.rat j)) : Expr D)) false := by simp only [isNeg]; exact tot_pure _
      refine tot_bind (tot_noComplex hn (.inr rfl)) ?_
      simp only [Bool.false_eq_true, if_false]
      unfold simplifyPowerBase
      refine tot_bind (a := some b) ?_ ?_
      · unfold newPowerBase doContractExpFirst
        refine tot_bind (a := true) (tot_bind (tot_lift (isInteger_rat j)) ?_) ?_
        · rcases hk with ⟨h1, h2⟩ | hp
          · simp only at h1
            simp only [h1, decide_true, if_true]
            refine tot_bind (tot_lift (isInteger_rat k)) ?_
            simp only [h2, decide_true, if_true]
            exact tot_pure _
          · refine tot_bind (a := decide (j.den = 1) && decide (k.den = 1)) ?_ ?_
            · cases decide (j.den = 1)
              · simp only [Bool.false_eq_true, if_false, Bool.false_and]; exact tot_pure _
              · simp only [if_true, Bool.true_and]; exact tot_lift (isInteger_rat k)
            · cases decide (j.den = 1) && decide (k.den = 1)
              · simp only [Bool.false_eq_true, if_false]
                cases areTwoFractionExpWithOddDenom (num (.rat j) : Expr D) (num (.rat k))
                · simp only [Bool.false_eq_true, if_false]
                  exact tot_whenTrue (tot_isPos hp.1)
                · simp only [if_true]; exact tot_pure _
              · simp only [if_true]; exact tot_pure _
        · simp only [if_true]
          exact tot_pure _
      · refine tot_bind (tot_prod (tot_num_num hj0 hk0)) ?_
        simp only [e4, Bool.false_eq_true, if_false]
        exact tot_simplPow (tot_simplPow_base hf.base hx)
    · have hb1 : b.isOne = false := by
        have h : QF cfg (b, 1) := ⟨hf.base, .one, one_ne_zero⟩
        simpa [fac] using h.isOne
      have e5 : (num (.rat (j * k)) : Expr D).isOne = decide (j * k = 1) := isOne_ratE _
      by_cases h1 : j * k = 1
      · simp only [e5, h1, hb1, decide_true, if_true, Bool.false_eq_true, if_false, fac]
        exact tot_pure _
      · simp only [e5, h1, hb1, decide_false, Bool.false_eq_true, if_false, fac]
        exact tot_pure _

/-- Positive factors. -/
theorem QF.ps {f : Expr D × ℚ} (h : QF cfg f) (hp : Ps cfg f.1) : Ps cfg (fac f) := by
  unfold fac
  split
  · exact hp
  · refine ⟨?_, by simp only [isNeg]; exact tot_pure _⟩
    simp only [isPos]
    refine tot_bind (tot_whenTrue (tot_isPos hp.1)) ?_
    simp only [if_true]; exact tot_pure _

theorem ps_rat {q : ℚ} (hq : 0 < q) : Ps cfg (num (.rat q) : Expr D) := by
  refine ⟨?_, ?_⟩
  · have : Number.lt 0 (.rat q : Number D) = true := by rw [Number.zero_def, lt_rat]; simpa using hq
    simp only [Tsym.isPos, this]; exact tot_pure _
  · have : Number.lt (.rat q : Number D) 0 = false := by rw [NumPowerSimpl.rat_lt_zero]; simpa using hq.le
    simp only [Tsym.isNeg, this]; exact tot_pure _

theorem ps_prod {l : List (Expr D)} (h : ∀ a ∈ l, Ps cfg a) : Ps cfg (.prod l) := by
  have : Tot cfg (fun E => signOfProduct E 1 l) 1 := by
    induction l with
    | nil => simp only [signOfProduct]; exact tot_pure _
    | cons a l ih =>
      have ih := ih fun x hx => h x (by simp [hx])
      simp only [signOfProduct]
      refine tot_bind (tot_whenTrue (tot_isPos (h a (by simp)).1)) ?_
      simp only [if_true]; exact ih
  exact ⟨by simp only [isPos]; exact tot_bind this (tot_pure _), by simp only [isNeg]; exact tot_bind this (tot_pure _)⟩

theorem ps_rl {q : ℚ} {P : List (Expr D × ℚ)} (hq : 0 < q) (h : ∀ f ∈ P, QF cfg f ∧ Ps cfg f.1) : ∀ a ∈ rl q P, Ps cfg a := by
  intro a ha
  unfold rl at ha
  rcases List.mem_append.1 ha with ha | ha
  · split at ha
    · simp at ha
    · rw [List.mem_singleton.1 ha]; exact ps_rat hq
  · obtain ⟨f, hf, rfl⟩ := List.mem_map.1 ha; exact (h f hf).1.ps (h f hf).2

/-- The factors of a power. -/
def sc (k : ℚ) (P : List (Expr D × ℚ)) : List (Expr D × ℚ) := P.map fun f => (f.1, f.2 * k)

/-- The exponents that are allowed for a product. -/
def Ek (cfg : Cfg D) (k q : ℚ) (P : List (Expr D × ℚ)) : Prop :=
  (k.den = 1 ∧ ∀ f ∈ P, f.2.den = 1 ∨ Ps cfg f.1) ∨ (0 < q ∧ ∀ f ∈ P, Ps cfg f.1)

theorem Ek.fac {k q : ℚ} {P : List (Expr D × ℚ)} (h : Ek cfg k q P) {f : Expr D × ℚ} (hf : f ∈ P) :
    f.2.den = 1 ∧ k.den = 1 ∨ Ps cfg f.1 := by
  rcases h with ⟨h1, h2⟩ | ⟨_, h2⟩
  · exact (h2 f hf).imp (fun h => ⟨h, h1⟩) id
  · exact .inr (h2 f hf)

theorem Can.sc {P : List (Expr D × ℚ)} (h : Can cfg P) {k : ℚ} (hk : k ≠ 0) (he : ∀ f ∈ P, f.2.den = 1 ∧ k.den = 1 ∨ Ps cfg f.1) :
    Can cfg (sc k P) := by
  refine ⟨?_, ?_⟩
  · intro f hf
    obtain ⟨g, hg, rfl⟩ := List.mem_map.1 hf
    exact ⟨(h.facs g hg).base, (h.facs g hg).ok.mul ((he g hg).imp (·.2) id), mul_ne_zero (h.facs g hg).ne hk⟩
  · exact List.pairwise_map.2 h.sorted

theorem sc_one (P : List (Expr D × ℚ)) : sc 1 P = P := by
  unfold sc
  conv_rhs => rw [← List.map_id P]
  refine List.map_congr_left fun f _ => ?_
  simp

theorem sc_nil (k : ℚ) : sc k ([] : List (Expr D × ℚ)) = [] := rfl

/-- Powers of a product, where `r` is the power of the coefficient. -/
theorem tot_pow_term (hc : cfg.Ok) {q r : ℚ} {P : List (Expr D × ℚ)} {k : ℚ} (hq : q ≠ 0) (hr : r ≠ 0) (hP : Can cfg P)
    (hn : ¬ Nx q P) (hk : k ≠ 0) (hk1 : k ≠ 1) (hE : Ek cfg k q P)
    (hnum : Tot cfg (fun E => powCreate E (num (.rat q)) (num (.rat k))) (num (.rat r) : Expr D)) (h1r : q = 1 → r = 1) :
    (¬ Nx r (sc k P) → Tot cfg (fun E => powCreate E (mexpr q P) (num (.rat k))) (mexpr r (sc k P))) ∧
    (Nx r (sc k P) → ∀ x, Tot cfg (fun E => expandAsProduct E (rl r (sc k P))) x →
      Tot cfg (fun E => powCreate E (mexpr q P) (num (.rat k))) x) := by
  have hu : (mexpr q P).isUndefined = false := mexpr_isUndefined hP.facs
  have eu : (num (.rat k) : Expr D).isUndefined = false := rfl
  have e2 : (num (.rat k) : Expr D).isZero = false := by rw [isZero_ratE]; simpa using hk
  have e3 : (num (.rat k) : Expr D).isOne = false := by rw [isOne_ratE]; simpa using hk1
  rcases mexpr_cases q P with ⟨rfl, h⟩ | ⟨f, rfl, rfl, h⟩ | ⟨hne, hl, h⟩
  · rw [h, sc_nil]
    refine ⟨fun _ => ?_, ?_⟩
    · rw [← num_mexpr]; exact hnum
    · rintro ⟨_, l, hl⟩; simp at hl
  · rw [h]
    rw [h1r rfl]
    refine ⟨fun _ => ?_, ?_⟩
    · have : mexpr 1 (sc k [f]) = fac (f.1, f.2 * k) := by rw [fac_mexpr]; rfl
      rw [this]; exact tot_pow_fac hc hP.cons.1 (hE.fac (by simp)) hk hk1
    · rintro ⟨h, _⟩; exact absurd rfl h
  · -- the single powers
    have hcan := hP.sc hk fun f hf => hE.fac hf
    obtain ⟨ps, Ms, hps, hM1, hM2, hM3, hM4, hlen⟩ : ∃ (ps : List (Expr D)) (Ms : List (Mo D)),
        Tot cfg (fun E => splitFactors E (decide (k.den = 1)) (num (.rat k)) (rl q P)) (rl q P, ps, []) ∧ (∀ m ∈ Ms, m.1 ≠ 0 ∧ QFs cfg m.2) ∧
        ps = Ms.map em ∧ (Ms.map (·.1)).prod = r ∧ Ms.flatMap (·.2) = sc k P ∧ ps.length = (rl q P).length := by
      have hsplit : ∀ {x y : Expr D} {l ps : List (Expr D)}, (k.den = 1 ∨ Ps cfg x) → Tot cfg (fun E => powCreate E x (num (.rat k))) y →
          Tot cfg (fun E => splitFactors E (decide (k.den = 1)) (num (.rat k)) l) (l, ps, []) →
          Tot cfg (fun E => splitFactors E (decide (k.den = 1)) (num (.rat k)) (x :: l)) (x :: l, y :: ps, []) := by
        intro x y l ps h0 h1 h2
        simp only [splitFactors]
        refine tot_bind (a := true) ?_ ?_
        · by_cases hd : k.den = 1
          · simp only [hd, decide_true, if_true]; exact tot_pure true
          · simp only [hd, decide_false, Bool.false_eq_true, if_false]
            exact tot_whenTrue (tot_isPos (h0.resolve_left hd).1)
        simp only [if_true]
        exact tot_bind (tot_pow h1) (tot_bind h2 (tot_pure _))
      have hP' : ∀ P : List (Expr D × ℚ), QFs cfg P → (∀ f ∈ P, f.2.den = 1 ∧ k.den = 1 ∨ Ps cfg f.1) → ∃ (ps : List (Expr D)) (Ms : List (Mo D)),
          Tot cfg (fun E => splitFactors E (decide (k.den = 1)) (num (.rat k)) (P.map fac)) (P.map fac, ps, []) ∧ (∀ m ∈ Ms, m.1 ≠ 0 ∧ QFs cfg m.2) ∧
          ps = Ms.map em ∧ (Ms.map (·.1)).prod = 1 ∧ Ms.flatMap (·.2) = sc k P ∧ ps.length = (P.map fac).length := by
        intro P hP hE
        induction P with
        | nil => exact ⟨[], [], by simp only [List.map_nil, splitFactors]; exact tot_pure _, by simp, rfl, rfl, rfl, rfl⟩
        | cons f P ih =>
          obtain ⟨ps, Ms, i1, i2, i3, i4, i5, i6⟩ := ih hP.cons.2 fun f hf => hE f (by simp [hf])
          have hf := hE f (by simp)
          refine ⟨fac (f.1, f.2 * k) :: ps, (1, [(f.1, f.2 * k)]) :: Ms,
            hsplit (hf.imp (·.2) fun h => hP.cons.1.ps h) (tot_pow_fac hc hP.cons.1 hf hk hk1) i1, ?_, ?_, ?_, ?_, ?_⟩
          · intro m hm
            rcases List.mem_cons.1 hm with rfl | hm
            · exact ⟨one_ne_zero, QFs.single ⟨hP.cons.1.base, hP.cons.1.ok.mul (hf.imp (·.2) id), mul_ne_zero hP.cons.1.ne hk⟩⟩
            · exact i2 m hm
          · rw [i3, List.map_cons, fac_mexpr]; rfl
          · simp [i4]
          · rw [List.flatMap_cons, i5]; rfl
          · simp [i6]
      obtain ⟨ps, Ms, i1, i2, i3, i4, i5, i6⟩ := hP' P hP.facs fun f hf => hE.fac hf
      by_cases hq1 : q = 1
      · subst hq1
        rw [rl_one]
        exact ⟨ps, Ms, i1, i2, i3, by rw [i4, h1r rfl], i5, i6⟩
      · rw [rl_ne hq1]
        refine ⟨num (.rat r) :: ps, (r, []) :: Ms, hsplit (hE.imp (·.1) fun h => ps_rat h.1) hnum i1, ?_, ?_, ?_, ?_, ?_⟩
        · intro m hm
          rcases List.mem_cons.1 hm with rfl | hm
          · exact ⟨hr, QFs.nil⟩
          · exact i2 m hm
        · rw [i3, List.map_cons, num_mexpr]; rfl
        · simp [i4]
        · rw [List.flatMap_cons, i5]; rfl
        · simp [i6]
    obtain ⟨R, hR, t1, t2⟩ := tot_prodCreate hc (Ms := Ms ++ [((1 : ℚ), [])]) (by
      intro m hm
      rcases List.mem_append.1 hm with hm | hm
      · exact hM1 m hm
      · rw [List.mem_singleton.1 hm]; exact ⟨one_ne_zero, QFs.nil⟩) (by
        have : Ms.length = ps.length := by rw [hM2]; simp
        simp only [List.length_append, List.length_singleton]; omega)
    have hmap : (Ms ++ [((1 : ℚ), ([] : List (Expr D × ℚ)))]).map (fun m : Mo D => mexpr m.1 m.2) = ps ++ [(one : Expr D)] := by
      rw [List.map_append, hM2, one_eq, num_mexpr]; rfl
    have hco : ((Ms ++ [((1 : ℚ), ([] : List (Expr D × ℚ)))]).map (·.1)).prod = r := by simp [hM3]
    have hfl : (Ms ++ [((1 : ℚ), ([] : List (Expr D × ℚ)))]).flatMap (·.2) = sc k P := by simp [hM4]
    rw [hmap, hco] at t1 t2
    rw [hfl] at hR
    have hRP : R = sc k P := hcan.self hR
    subst hRP
    rw [h]
    have key : ∀ x, Tot cfg (fun E => prodCreate E (ps ++ [(one : Expr D)])) x →
        Tot cfg (fun E => powCreate E (.prod (rl q P)) (num (.rat k))) x := by
      intro x hx
      have hsg : ∃ v, Tot cfg (fun E => isNeg E (.prod (rl q P) : Expr D)) v ∧ (k.den = 1 ∨ v = false) := by
        rcases hE with hE | hE
        · have := signs_mexpr (q := q) hP.facs
          rw [h] at this
          obtain ⟨v, hv⟩ := this.2
          exact ⟨v, hv, .inl hE.1⟩
        · exact ⟨false, (ps_prod (ps_rl hE.1 fun f hf => ⟨hP.facs f hf, hE.2 f hf⟩)).2, .inr rfl⟩
      generalize hlist : rl q P = l at hl hps hlen hsg
      have u : (Expr.prod l : Expr D).isUndefined = false := rfl
      have o : (Expr.prod l : Expr D).isOne = false := rfl
      have z : (Expr.prod l : Expr D).isZero = false := rfl
      have o1 : (one : Expr D).isOne = true := by rw [one_eq, isOne_ratE]; simp
      simp only [powCreate, u, o, z, eu, e2, e3, Bool.or_self, Bool.false_eq_true, if_false, powCreateNonTrivial]
      refine tot_bind (a := (x, one)) (tot_simplPow ?_) ?_
      · unfold simplPow
        obtain ⟨v, hv, hv'⟩ := hsg
        refine tot_bind (tot_noComplex hv hv') ?_
        simp only [Bool.false_eq_true, if_false]
        unfold simplifyProductBase
        refine tot_bind (tot_lift (isInteger_rat k)) (tot_bind hps ?_)
        have hem : ps.isEmpty = false := by
          rw [List.isEmpty_eq_false_iff]
          intro e
          rw [e] at hlen; simp at hlen; omega
        simp only [hem, Bool.false_eq_true, if_false, List.isEmpty_nil, Bool.or_true, Bool.not_true]
        refine tot_bind (tot_logIf rfl) (tot_bind (tot_prod (Tsym.tot_prod_nil hc)) (tot_bind (a := one) (tot_pow ?_) (tot_bind (tot_prod hx) (tot_pure _))))
        have u1 : (one : Expr D).isUndefined = false := by rw [one_eq]; rfl
        simp only [powCreate, u1, eu, o1, Bool.or_self, Bool.false_eq_true, if_false, Bool.or_true, if_true]
        exact tot_pure _
      · simp only [o1, if_true]
        exact tot_pure _
    exact ⟨fun hx => key _ (t1 hx), fun hx r hr => key _ (t2 hx r hr)⟩

end Qf
end Tsym
