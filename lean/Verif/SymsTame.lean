import Verif.SymsSum

set_option autoImplicit false
set_option linter.unusedSectionVars false
set_option linter.unusedSimpArgs false
set_option linter.unusedVariables false

/-!
# Symbols of results: products and powers of powers of symbols

No symbol of a base gets into an exponent.
-/

namespace Tsym

open Expr HasSyms

variable {D : Type} [Flt D] {E : Eng D} {S : Sym → Prop}

namespace Tame

theorem base {e : Expr D} (h : Tame S e) : Tame S e.base := by
  cases h <;> simp only [Expr.base] <;> first | assumption | constructor
  assumption

theorem exp {e : Expr D} (h : Tame S e) : Within S e.exp := by
  cases h <;> simp_all [Expr.exp]

theorem not_function {e : Expr D} (h : Tame S e) : e.isFunction = false := by cases h <;> rfl

theorem not_sum {e : Expr D} (h : Tame S e) : e.isSum = false := by cases h <;> rfl

theorem not_numeric {e : Expr D} (h : Tame S e) : e.isNumeric = false := by cases h <;> rfl

theorem not_zero {e : Expr D} (h : Tame S e) : e.isZero = false := by cases h <;> rfl

theorem not_one {e : Expr D} (h : Tame S e) : e.isOne = false := by cases h <;> rfl

theorem not_numPow {e : Expr D} (h : Tame S e) : e.isNumericPower = false := by
  cases h with
  | pow hb _ => simp [isNumericPower, hb.not_numeric]
  | _ => rfl

theorem ne_one {e : Expr D} (h : Tame S e) : isEqual e Expr.one = false := by
  cases h <;> simp [isEqual, Expr.one, Expr.int]

end Tame

theorem isOne_one : (Expr.one : Expr D).isOne = true := by rfl

namespace Tame1

theorem tame {e : Expr D} (h : Tame1 S e) (h1 : e.isOne = false) : Tame S e := by
  rcases h with rfl | h
  · rw [isOne_one] at h1; cases h1
  · exact h

theorem base {e : Expr D} (h : Tame1 S e) : Tame1 S e.base := by
  rcases h with rfl | h
  · exact .inl rfl
  · exact .inr h.base

theorem exp {e : Expr D} (h : Tame1 S e) : Within S e.exp := by
  rcases h with rfl | h
  · simp [Expr.exp, Expr.one, Expr.int]
  · exact h.exp

theorem not_function {e : Expr D} (h : Tame1 S e) : e.isFunction = false := by
  rcases h with rfl | h
  · rfl
  · exact h.not_function

theorem not_zero {e : Expr D} (h : Tame1 S e) : e.isZero = false := by
  rcases h with rfl | h
  · rfl
  · exact h.not_zero

theorem not_numPow {e : Expr D} (h : Tame1 S e) : e.isNumericPower = false := by
  rcases h with rfl | h
  · rfl
  · exact h.not_numPow

theorem factors {e : Expr D} (h : Tame1 S e) : TameL S (Tsym.factors e) := by
  rcases h with rfl | h
  · exact .inl rfl
  · refine .inr ?_
    cases h with
    | prod hl => exact hl
    | undef => simpa [Tsym.factors] using Tame.undef
    | sym t => simpa [Tsym.factors] using Tame.sym t
    | pow hb he => simpa [Tsym.factors] using Tame.pow hb he

theorem list {e : Expr D} (h : Tame1 S e) : TameL S [e] := by
  rcases h with rfl | h
  · exact .inl rfl
  · exact .inr (by simpa using h)

end Tame1

theorem TameL.mem {l : List (Expr D)} (h : TameL S l) : ∀ x ∈ l, Tame1 S x := by
  rcases h with rfl | h
  · intro x hx; simp at hx; exact .inl hx
  · exact fun x hx => .inr (h x hx)

local notation "T" => (fun _ => True)

theorem ordered_tame {a b : Expr D} (ha : Tame S a) (hb : Tame S b) : ∀ x ∈ ordered a b, Tame S x := by
  unfold ordered
  split <;> simp_all

theorem tame_cons {x : Expr D} {r : List (Expr D)} (hx : Tame S x) (hr : ∀ y ∈ r, Tame S y) : ∀ y ∈ x :: r, Tame S y := by
  intro y hy
  rcases List.mem_cons.1 hy with rfl | hy
  · exact hx
  · exact hr y hy

theorem simplTwoEqualBases_tame (hE : Syms E) {a b : Expr D} (ha : Tame S a) (hb : Tame S b) :
    wp T (simplTwoEqualBases E a b) (TameL S) := by
  unfold simplTwoEqualBases
  refine wp_bind (P := Within S) (hE.sum (S := S) (l := [a.exp, b.exp]) (by simpa using ⟨ha.exp, hb.exp⟩)) fun n hn => ?_
  refine wp_bind wp_true fun _ _ => ?_
  refine wp_bind wp_true fun _ _ => ?_
  refine wp_bind wp_true fun _ _ => ?_
  refine wp_ite (fun _ => wp_pure (.inr (by simpa using ⟨ha, hb⟩))) fun _ => ?_
  exact wp_bind (hE.tamePow (.inr ha.base) hn) fun p hp => wp_pure hp.list

theorem simplTwoConst_tame (hE : Syms E) {a b : Expr D} (ha : Tame S a) (hb : Tame S b) :
    wp T (simplTwoConst E a b) (TameL S) := by
  unfold simplTwoConst
  split
  · cases ha
  · cases ha
  · cases hb
  · refine wp_ite (fun _ => simplTwoEqualBases_tame hE ha hb) fun _ => ?_
    have e1 : areNumPowersWithEqualExp a b = false := by simp [areNumPowersWithEqualExp, ha.not_numPow]
    rw [if_neg (by simp [e1])]
    refine wp_bind (P := fun z => z = false) ?_ ?_
    · unfold areNumPowersWithZeroSumExp
      rw [ha.not_numPow]
      simp only [Bool.false_and, Bool.false_eq_true, if_false]
      intro x cs hx _
      cases hx; rfl
    · rintro _ rfl
      have e2 : areNumPowersWithEqualExpDenom a b = false := by
        unfold areNumPowersWithEqualExpDenom
        split
        · have := ha.not_numPow; simp [isNumericPower, isNumeric] at this
        · rfl
      simp only [Bool.false_eq_true, if_false, e2]
      exact wp_pure (.inr (ordered_tame ha hb))

theorem simplTwoFactors_tame (hE : Syms E) {a b : Expr D} (ha : Tame1 S a) (hb : Tame1 S b) :
    wp T (simplTwoFactors E a b) (TameL S) := by
  unfold simplTwoFactors
  refine wp_ite (fun _ => hE.tameMerge1 ha.factors hb.factors) fun _ => ?_
  unfold simplTwoFactorsWithoutProduct
  refine wp_ite (fun _ => wp_pure hb.list) fun h1 => ?_
  refine wp_ite (fun _ => wp_pure ha.list) fun h2 => ?_
  have ha := ha.tame (by simpa using h1)
  have hb := hb.tame (by simpa using h2)
  refine wp_ite (fun _ => simplTwoConst_tame hE ha hb) fun _ => ?_
  exact wp_ite (fun _ => simplTwoEqualBases_tame hE ha hb) fun _ => wp_pure (.inr (ordered_tame ha hb))

theorem mergeProd_tame (hE : Syms E) {l m : List (Expr D)} (hl : ∀ x ∈ l, Tame S x) (hm : ∀ x ∈ m, Tame S x) :
    wp T (mergeProd E l m) fun r => ∀ x ∈ r, Tame S x := by
  unfold mergeProd
  split
  · exact wp_pure hm
  · exact wp_pure hl
  · rename_i p1 pRest q1 qRest
    have hp1 := hl p1 (by simp)
    have hq1 := hm q1 (by simp)
    have hpr : ∀ x ∈ pRest, Tame S x := fun x hx => hl x (by simp [hx])
    have hqr : ∀ x ∈ qRest, Tame S x := fun x hx => hm x (by simp [hx])
    refine wp_bind (simplTwoFactors_tame hE (.inr hp1) (.inr hq1)) fun res hres => ?_
    split
    · exact hE.tameMerge hpr hqr
    · refine wp_ite (fun _ => hE.tameMerge hpr hqr) fun h => ?_
      exact wp_bind (hE.tameMerge hpr hqr) fun m hm =>
        wp_pure (tame_cons ((hres.mem _ (by simp)).tame (by simpa using h)) hm)
    · refine wp_ite (fun _ => ?_) fun _ => wp_ite (fun _ => ?_) fun _ => ?_
      · exact wp_bind (hE.tameMerge hpr hm) fun m hm => wp_pure (tame_cons hp1 hm)
      · exact wp_bind (hE.tameMerge hl hqr) fun m hm => wp_pure (tame_cons hq1 hm)
      · exact wp_bind wp_true fun _ _ => wp_pure (by simp)

theorem areEqual_two {r1 r2 a b : Expr D} {rs : List (Expr D)} (h : areEqual (r1 :: r2 :: rs) [a, b] = true) :
    isEqual r1 a = true ∧ isEqual r2 b = true := by
  simp only [areEqual, Bool.and_eq_true] at h
  exact ⟨h.1, h.2.1⟩

theorem mergeProd_tame1 (hE : Syms E) {l m : List (Expr D)} (hl : TameL S l) (hm : TameL S m) :
    wp T (mergeProd E l m) (TameL S) := by
  by_cases hk : (∀ x ∈ l, Tame S x) ∧ ∀ x ∈ m, Tame S x
  · exact wp_mono (mergeProd_tame hE hk.1 hk.2) fun r hr => .inr hr
  unfold mergeProd
  split
  · exact wp_pure hm
  · exact wp_pure hl
  · rename_i p1 pRest q1 qRest
    -- the rests are without numbers, and one of the first factors is one
    have hpr : ∀ x ∈ pRest, Tame S x := by
      rcases hl with hl | hl
      · simp at hl; simp [hl.2]
      · exact fun x hx => hl x (by simp [hx])
    have hqr : ∀ x ∈ qRest, Tame S x := by
      rcases hm with hm | hm
      · simp at hm; simp [hm.2]
      · exact fun x hx => hm x (by simp [hx])
    have hone : p1 = Expr.one ∨ q1 = Expr.one := by
      rcases hl with hl | hl
      · simp at hl; exact .inl hl.1
      · rcases hm with hm | hm
        · simp at hm; exact .inr hm.1
        · exact absurd ⟨hl, hm⟩ hk
    refine wp_bind (simplTwoFactors_tame hE (hl.mem p1 (by simp)) (hm.mem q1 (by simp))) fun res hres => ?_
    split
    · exact wp_mono (hE.tameMerge hpr hqr) fun r hr => .inr hr
    · refine wp_ite (fun _ => wp_mono (hE.tameMerge hpr hqr) fun r hr => .inr hr) fun h => ?_
      exact wp_bind (hE.tameMerge hpr hqr) fun m hm =>
        wp_pure (.inr (tame_cons ((hres.mem _ (by simp)).tame (by simpa using h)) hm))
    · rename_i r1 r2 rs
      have hr : ∀ x ∈ r1 :: r2 :: rs, Tame S x := by
        rcases hres with h | h
        · simp at h
        · exact h
      have hn1 := (hr r1 (by simp)).ne_one
      have hn2 := (hr r2 (by simp)).ne_one
      refine wp_ite (fun h => ?_) fun _ => wp_ite (fun h => ?_) fun _ => ?_
      · have := areEqual_two h
        rcases hone with rfl | rfl
        · rw [hn1] at this; cases this.1
        · rw [hn2] at this; cases this.2
      · have := areEqual_two h
        rcases hone with rfl | rfl
        · rw [hn2] at this; cases this.2
        · rw [hn1] at this; cases this.1
      · exact wp_bind wp_true fun _ _ => wp_pure (.inr (by simp))

theorem extractFirst_tame {l : List (Expr D)} (h : ∀ x ∈ l, Tame1 S x) :
    ∀ r, extractFirst l = some r → ∀ x ∈ r, Tame1 S x := by
  induction l with
  | nil => simp [extractFirst]
  | cons a l ih =>
    intro r hr
    have ha := h a (by simp)
    have hl : ∀ x ∈ l, Tame1 S x := fun x hx => h x (by simp [hx])
    unfold extractFirst at hr
    split at hr
    · simp at hr
    · rename_i heq
      simp at heq
      obtain ⟨rfl, rfl⟩ := heq
      simp only [Option.some.injEq] at hr
      subst hr
      rcases ha with ha | ha
      · cases ha
      cases ha with
      | prod ho =>
        rintro x hx
        rcases List.mem_append.1 hx with hx | hx
        · exact .inr (ho x hx)
        · exact hl x hx
    · rename_i heq
      simp at heq
      obtain ⟨rfl, rfl⟩ := heq
      simp only [Option.map_eq_some_iff] at hr
      obtain ⟨r', h1, rfl⟩ := hr
      rintro x hx
      rcases List.mem_cons.1 hx with rfl | hx
      · exact ha
      · exact ih hl r' h1 x hx

theorem extractProducts_tame {l : List (Expr D)} (h : ∀ x ∈ l, Tame1 S x) :
    wp T (extractProducts E l) fun r => ∀ x ∈ r, Tame1 S x := by
  unfold extractProducts
  refine wp_loop (I := fun l => ∀ x ∈ l, Tame1 S x) (fun u hu => wp_pure ?_) _ _ h
  split
  · exact ⟨fun _ h => (by cases h), fun x hx => by cases hx; exact hu⟩
  · rename_i u' hu'
    exact ⟨fun _ h => (by cases h; exact extractFirst_tame hu _ hu'), fun x hx => by cases hx⟩

/-- If no pair of elements can be contracted, the list is left as it is. -/
theorem contract_none {check : Expr D → Expr D → M D Bool}
    {simpl : Expr D → Expr D → M D (List (Expr D))} {l : List (Expr D)}
    (hs : ∀ a ∈ l, ∀ b ∈ l, wp T (check a b) fun r => r = false) : wp T (contract E check simpl l) fun r => r = l := by
  unfold contract
  match l with
  | [] => exact wp_pure rfl
  | x :: l =>
    refine wp_loop (I := fun s => s.pre ++ s.x :: (s.mid ++ s.rest) = x :: l ∧ s.found = false ∧ s.changed = false) ?_ _ _
      ⟨by simp, rfl, rfl⟩
    rintro ⟨pre, y, mid, rest, found, changed⟩ ⟨h1, h2, h3⟩
    simp only at h1 h2 h3
    subst h2 h3
    unfold contractStep
    simp only
    split
    · rename_i z rest
      refine wp_bind (hs y (by rw [← h1]; simp) z (by rw [← h1]; simp)) ?_
      rintro _ rfl
      simp only [Bool.false_eq_true, if_false]
      refine wp_pure ⟨fun s' hs' => ?_, fun x hx => by cases hx⟩
      cases hs'
      exact ⟨by simpa using h1, rfl, rfl⟩
    · simp only [Bool.false_eq_true, if_false]
      split
      · refine wp_pure ⟨fun s' hs' => ?_, fun x hx => by cases hx⟩
        cases hs'
        exact ⟨by simpa using h1, rfl, rfl⟩
      · exact wp_pure ⟨fun _ h => (by cases h), fun x hx => by cases hx; simpa using h1⟩

theorem contractTrigonometrics_tame {l : List (Expr D)} (h : ∀ x ∈ l, Tame1 S x) :
    wp T (contractTrigonometrics E l) fun r => r = l := by
  unfold contractTrigonometrics
  refine contract_none fun a ha b hb => ?_
  unfold areContractableTrigFctPowers
  refine wp_bind (P := fun r => r = false) ?_ ?_
  · unfold isContractableTrigFctPower
    rw [(h a ha).base.not_function]
    simp only [Bool.false_eq_true, if_false]
    exact wp_pure rfl
  · rintro _ rfl
    simp only [Bool.false_eq_true, if_false]
    exact wp_pure rfl

theorem productOfNumerics_tame {l : List (Expr D)} (h : ∀ x ∈ l, Tame1 S x) : productOfNumerics (.rat 1) l = (.rat 1 : Number D) := by
  induction l with
  | nil => rfl
  | cons a l ih =>
    have hl : ∀ x ∈ l, Tame1 S x := fun x hx => h x (by simp [hx])
    rcases h a (by simp) with rfl | ha
    · simp only [productOfNumerics, Expr.one, Expr.int]
      refine Eq.trans ?_ (ih hl)
      congr 1
      simp [Number.mul]
    · cases ha <;> simp only [productOfNumerics] <;> exact ih hl

theorem contractNumerics_tame {l : List (Expr D)} (h : ∀ x ∈ l, Tame1 S x) : TameL S (contractNumerics l) := by
  have hf : ∀ x ∈ l.filter (fun e => !e.isNumeric), Tame S x := by
    intro x hx
    have hx := List.mem_filter.1 hx
    rcases h x hx.1 with rfl | h
    · simp [isNumeric, Expr.one, Expr.int] at hx
    · exact h
  unfold contractNumerics
  rw [show productOfNumerics 1 l = .rat 1 from productOfNumerics_tame h]
  have e : Number.eqv (.rat 1 : Number D) 1 = true := by simp [Number.eqv]
  rw [e]
  simp only [Bool.not_true, Bool.false_or]
  split
  · rename_i he
    rw [List.isEmpty_iff.1 he]
    exact .inl rfl
  · exact .inr hf

theorem contractConst_tame {l : List (Expr D)} (h : TameL S l) : wp T (contractConst E l) fun r => r = l := by
  unfold contractConst
  refine wp_loop (I := fun s => s.1 = l) ?_ _ _ rfl
  rintro ⟨u, i, j⟩ hu
  simp only at hu
  subst hu
  have inl : ∀ {a b : Nat},
      wp T (Pure.pure (.inl (u, a, b)) : M D ((List (Expr D) × Nat × Nat) ⊕ List (Expr D)))
        fun r => (∀ s', r = .inl s' → s'.1 = u) ∧ ∀ y, r = .inr y → y = u :=
    wp_pure ⟨fun s hs => by cases hs; rfl, fun y hy => by cases hy⟩
  unfold contractConstStep
  dsimp only
  split
  · exact wp_pure ⟨fun s hs => (by cases hs), fun y hy => by cases hy; rfl⟩
  · rename_i x hx
    split
    · exact inl
    · rename_i y hy
      refine wp_ite (fun _ => inl) fun hij => wp_ite (fun hc => ?_) fun _ => inl
      exfalso
      rcases h with rfl | h
      · obtain ⟨h1, _⟩ := List.getElem?_eq_some_iff.1 hx
        obtain ⟨h2, _⟩ := List.getElem?_eq_some_iff.1 hy
        simp at h1 h2
        omega
      · have h1 := h x (List.mem_of_getElem? hx)
        simp [isContractableConst, h1.not_numeric, h1.not_numPow] at hc

theorem prepareConst_tame (hE : Syms E) {l : List (Expr D)} (h : ∀ x ∈ l, Tame1 S x) :
    wp T (prepareConst E l) (TameL S) := by
  unfold prepareConst
  have hu := contractNumerics_tame (l := E.cfg.sort doPermute l) fun x hx => h x ((hE.ok.sort _ _).mem_iff.1 hx)
  refine wp_bind (contractConst_tame hu) ?_
  rintro _ rfl
  refine wp_bind (contract_none fun a ha b hb => wp_pure ?_) ?_
  · simp [areNumPowersWithEqualExp, (hu.mem a ha).not_numPow]
  rintro _ rfl
  refine wp_mono (contract_none fun a ha b hb => wp_pure ?_) ?_
  · unfold areNumPowersWithEqualExpDenom
    split
    · have := (hu.mem _ ha).not_numPow; simp [isNumericPower, isNumeric] at this
    · rfl
  rintro _ rfl
  exact hu

theorem simplPreparedFactors_tame (hE : Syms E) {l : List (Expr D)} (h : TameL S l) :
    wp T (simplPreparedFactors E l) (TameL S) := by
  unfold simplPreparedFactors
  split
  · exact wp_err
  · exact wp_pure h
  · exact simplTwoFactors_tame hE (h.mem _ (by simp)) (h.mem _ (by simp))
  · rename_i u1 uRest _ _
    refine wp_bind (hE.tameSimplProd fun x hx => h.mem x (by simp [hx])) fun r hr => ?_
    exact hE.tameMerge1 (h.mem u1 (by simp)).list hr

theorem simplProd_tame (hE : Syms E) {l : List (Expr D)} (h : ∀ x ∈ l, Tame1 S x) :
    wp T (simplProd E l) (TameL S) := by
  unfold simplProd
  refine wp_bind (extractProducts_tame h) fun u hu => ?_
  refine wp_bind (contractTrigonometrics_tame hu) ?_
  rintro _ rfl
  split
  · exact simplTwoFactors_tame hE (hu _ (by simp)) (hu _ (by simp))
  · exact wp_bind (prepareConst_tame hE hu) fun w hw => simplPreparedFactors_tame hE hw

theorem needsExpansion_tame {l : List (Expr D)} (h : ∀ x ∈ l, Tame S x) : needsExpansion l = false := by
  have h1 : ∀ (m : List (Expr D)), (∀ x ∈ m, x ∈ l) → m.any isSum = false := by
    intro m hm
    rw [List.any_eq_false]
    intro x hx
    rw [(h x (hm x hx)).not_sum]; simp
  unfold needsExpansion
  split
  · rfl
  · rw [h1 (nonConstElements l) fun x hx => List.mem_of_mem_filter hx]
    simp only [Bool.false_eq_true, if_false]
    exact h1 _ fun x hx => List.mem_of_mem_filter hx

theorem prodCreate_tame (hE : Syms E) {l : List (Expr D)} (h : ∀ x ∈ l, Tame1 S x) :
    wp T (prodCreate E l) (Tame1 S) := by
  unfold prodCreate
  refine wp_ite (fun _ => wp_pure (.inr .undef)) fun _ => wp_ite (fun hz => ?_) fun _ => ?_
  · obtain ⟨x, hx, hx'⟩ := List.any_eq_true.1 hz
    rw [(h x hx).not_zero] at hx'; cases hx'
  · split
    · exact wp_pure (h _ (by simp))
    · refine wp_bind (hE.tameProdSimplify h) fun r hr => ?_
      split
      · exact wp_pure (.inl rfl)
      · exact wp_pure (hr.mem _ (by simp))
      · rename_i h0 h1
        have hr : ∀ x ∈ r, Tame S x := by
          rcases hr with hr | hr
          · exact (h1 _ hr).elim
          · exact hr
        rw [needsExpansion_tame hr]
        exact wp_pure (.inr (.prod hr))

/-! ## Powers -/

theorem whenTrue_false {m : M D Bool} (h : wp T m fun r => r = false) : wp T (M.whenTrue m) fun r => r = false := by
  have := wp_whenTrue (P := False) (wp_mono h fun a ha hb => by rw [ha] at hb; cases hb)
  exact wp_mono this fun a ha => by cases a; rfl; exact absurd rfl ha

theorem signOfProduct_tame (hE : Syms E) {l : List (Expr D)} (h : ∀ x ∈ l, Tame S x) :
    wp T (signOfProduct E 1 l) fun r => r = 0 ∨ r = 1 := by
  induction l with
  | nil => exact wp_pure (.inr rfl)
  | cons a l ih =>
    unfold signOfProduct
    refine wp_bind wp_true fun _ _ => wp_ite (fun _ => ih fun x hx => h x (by simp [hx])) fun _ => ?_
    refine wp_bind (whenTrue_false (hE.tameNeg (h a (by simp)))) ?_
    rintro _ rfl
    simp only [Bool.false_eq_true, if_false]
    exact wp_pure (.inl rfl)

theorem isNeg_tame (hE : Syms E) {b : Expr D} (h : Tame S b) : wp T (isNeg E b) fun r => r = false := by
  cases h with
  | undef => exact wp_pure rfl
  | sym t => exact wp_pure rfl
  | pow _ _ => exact wp_pure rfl
  | prod hl =>
    unfold isNeg
    refine wp_bind (signOfProduct_tame hE hl) fun r hr => wp_pure ?_
    rcases hr with rfl | rfl <;> decide

theorem splitFactors_tame (hE : Syms E) {all : Bool} {e : Expr D} (he : Within S e) {l : List (Expr D)}
    (h : ∀ x ∈ l, Tame S x) :
    wp T (splitFactors E all e l) fun r => (∀ x ∈ r.2.1, Tame1 S x) ∧ ∀ x ∈ r.2.2, Tame1 S x := by
  induction l with
  | nil => exact wp_pure (by simp)
  | cons a l ih =>
    have ih := ih fun x hx => h x (by simp [hx])
    have ha : Tame1 S a := .inr (h a (by simp))
    unfold splitFactors
    refine wp_bind wp_true fun _ _ => wp_ite (fun _ => ?_) fun _ => ?_
    · refine wp_bind (hE.tamePow ha he) fun p hp => wp_bind ih fun r hr => wp_pure ?_
      simpa using ⟨⟨hp, hr.1⟩, hr.2⟩
    · refine wp_bind ih fun r hr => wp_pure ?_
      simpa using ⟨hr.1, ha, hr.2⟩

theorem simplPow_tame (hE : Syms E) {b e : Expr D} (hb : Tame S b) (he : Within S e) :
    wp T (simplPow E b e) fun r => Tame1 S r.1 ∧ Within S r.2 := by
  unfold simplPow
  refine wp_bind wp_true fun c _ => wp_ite (fun _ => wp_pure ⟨.inr .undef, by simp⟩) fun _ => ?_
  cases hb with
  | undef => exact wp_pure ⟨.inr .undef, by simp⟩
  | sym t => exact wp_pure ⟨.inr (.sym t), he⟩
  | @pow b e1 hb he1 =>
    dsimp only
    unfold simplifyPowerBase
    refine wp_bind (P := fun o => ∀ x, o = some x → x = b) ?_ fun o ho => ?_
    · unfold newPowerBase
      refine wp_bind wp_true fun _ _ => wp_ite (fun _ => wp_pure fun x hx => by cases hx; rfl) fun _ => ?_
      refine wp_bind (P := fun r => r = false) ?_ ?_
      · unfold doesChangeSign
        refine whenTrue_false (wp_bind (hE.tameNeg hb) ?_)
        rintro _ rfl
        simp only [Bool.false_eq_true, if_false]
        exact wp_pure rfl
      · rintro _ rfl
        simp only [Bool.false_eq_true, if_false]
        refine wp_bind wp_true fun _ _ => wp_ite (fun _ => wp_pure fun x hx => by cases hx; rfl) fun _ => ?_
        exact wp_pure fun x hx => by cases hx
    · split
      · exact wp_pure ⟨.inr (.pow hb he1), he⟩
      · obtain rfl := ho _ rfl
        refine wp_bind (P := Within S) (hE.prod (S := S) (by simpa using ⟨he1, he⟩)) fun n hn' => ?_
        exact wp_ite (fun _ => wp_pure ⟨.inl rfl, by simp⟩) fun _ => hE.tameSimplPow hb hn'
  | prod hl =>
    dsimp only
    unfold simplifyProductBase
    refine wp_bind wp_true fun all _ => wp_bind (splitFactors_tame hE he hl) fun r hr => ?_
    refine wp_ite (fun _ => wp_pure ⟨.inr (.prod hl), he⟩) fun _ => ?_
    refine wp_bind wp_true fun _ _ => ?_
    refine wp_bind (hE.tameProd hr.2) fun k hk => wp_bind (hE.tamePow hk he) fun kp hkp => ?_
    refine wp_bind (hE.tameProd (l := r.2.1 ++ [kp]) fun x hx => ?_) fun p hp => wp_pure ⟨hp, by simp⟩
    rcases List.mem_append.1 hx with hx | hx
    · exact hr.1 x hx
    · simp at hx; exact hx ▸ hkp

theorem powCreate_tame (hE : Syms E) {b e : Expr D} (hb : Tame1 S b) (he : Within S e) :
    wp T (powCreate E b e) (Tame1 S) := by
  unfold powCreate
  refine wp_ite (fun _ => wp_pure (.inr .undef)) fun _ => wp_ite (fun _ => wp_pure (.inl rfl)) fun h1 => ?_
  rw [if_neg (by simp [hb.not_zero])]
  refine wp_ite (fun _ => wp_pure hb) fun _ => ?_
  simp only [Bool.or_eq_true, not_or, Bool.not_eq_true] at h1
  unfold powCreateNonTrivial
  refine wp_bind (hE.tameSimplPow (hb.tame h1.2) he) fun r hr => wp_pure ?_
  split
  · exact hr.1
  · split
    · exact .inl rfl
    · rename_i h
      exact .inr (.pow (hr.1.tame (by simpa using h)) hr.2)

/-! ## The replacement of sine and cosine by symbols -/

theorem trigFunctionPowerReplacement_tame (hE : Syms E) {p : Expr D} {s c : Sym} (hp : Within S p) :
    wp T (trigFunctionPowerReplacement E p (.sym s) (.sym c)) (Tame1 S) := by
  have he := within_exp hp
  unfold trigFunctionPowerReplacement
  split
  · exact hE.tamePow (.inr (.sym s)) he
  · exact hE.tamePow (.inr (.sym c)) he
  · unfold Eng.oneOver
    refine wp_bind (hE.tamePow (S := S) (.inr (.sym c)) (by simp)) fun o ho => ?_
    refine wp_bind (hE.tameProd (l := [.sym s, o]) ?_) fun q hq => hE.tamePow hq he
    intro x hx
    simp at hx
    rcases hx with rfl | rfl
    · exact .inr (.sym s)
    · exact ho
  · exact wp_err

/-- The factors that are left after the replacement have exponents without the new symbols. -/
theorem trigReplaced_tame (hE : Syms E) {f1 f2 : Expr D} {s c : Sym} (h1 : Within S f1) (h2 : Within S f2) :
    wp T (do
      let r1 ← trigFunctionPowerReplacement E f1 (.sym s) (.sym c)
      let r2 ← trigFunctionPowerReplacement E f2 (.sym s) (.sym c)
      simplTwoFactors E r1 r2) fun l => ∀ x ∈ l, Within S x.exp :=
  wp_bind (trigFunctionPowerReplacement_tame hE h1) fun r1 hr1 =>
    wp_bind (trigFunctionPowerReplacement_tame hE h2) fun r2 hr2 =>
      wp_mono (simplTwoFactors_tame hE hr1 hr2) fun l hl x hx => (hl.mem x hx).exp

end Tsym
