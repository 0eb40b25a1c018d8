import Verif.Props.SurdOrder
import Verif.PolyPrint

set_option autoImplicit false
set_option linter.unusedSectionVars false
set_option linter.unusedSimpArgs false
set_option linter.unusedVariables false

/-!
# Helper lemmas: texts of sums of multiples of square roots

The text of a number, of a root, of their product and of a sum of these is read as the same expression.
-/

namespace Tsym.Sd

open Expr NumPowerSimpl Printer

variable {D : Type} [Flt D] [LawfulFlt D] {cfg : Cfg D} {conv : Str → Option D} {o : Opt D}

theorem tot_minus {m : Mo} (hc : cfg.Ok) (h : SM m.1 m.2) : Tot cfg (fun E => E.minus (em m : Expr D)) (em (-m.1, m.2)) := by
  have := tot_scale_one (D := D) hc (p := -1) h (by norm_num) (by norm_num) (by simp)
  rw [neg_one_mul] at this
  unfold Eng.minus
  rw [show (mOne : Expr D) = num (.rat (-1)) from rfl]
  exact tot_prod this

/-! ## Roots -/

theorem half_eq : (num (.rat (1 / 2)) : Expr D).isEqual .half = true := by
  simp only [Expr.half, isEqual]
  exact (Number.eqv_iff _ _).2 rfl

theorem cat_root {n : ℕ} (h1 : n ≠ 1) : cat o (rootE (n : ℚ) : Expr D) = .operand := by
  rw [rootE_nat h1]; simp only [cat, half_eq, if_true]

theorem pt_root {n : ℕ} (hn : Squarefree n) (h1 : n ≠ 1) (hc : cfg.Ok) : PT cfg conv o (rootE (n : ℚ)) := by
  refine ⟨['s', 'q', 'r', 't'] ++ parens (natStr n), ?_, ?_⟩
  · rw [rootE_nat h1]
    refine TP.of_step fun j => ?_
    simp only [step, power, half_eq, if_true]
    have hint : TP cfg o (num (.rat (n : ℚ))) (natStr n) := by
      refine TP.of_step fun j => ?_
      have : number o (.rat (n : ℚ)) = (pure (natStr n) : M D Str) := by
        have : ¬ (n : ℤ) < 0 := by omega
        simp [number, intText, this]
      simp only [step, this]
      exact tot_pure _
    exact tot_bind (hint j) (tot_pure _)
  · rw [cat_root h1]
    obtain ⟨t, a1, a2, a3, a4⟩ := (Rd.nat (cfg := cfg) (conv := conv) n).lift (c' := .expression) (by simp [Cat.rank])
    refine ⟨.fn .sqrt t, ?_, tot_bind a2 (tot_pow (tot_rootE (SM.simple _ hn h1)).1), a3, ?_⟩
    · have := Parses.function (conv := conv) (w := []) (p := ['s', 'q', 'r', 't']) (w1 := []) (w2 := []) (f := .sqrt) spaces_none (by unfold SameWord; decide) spaces_none a1 spaces_none
      simpa [parens] using this
    · exact Ascii.append (fun c hc => by simp at hc; rcases hc with rfl | rfl | rfl | rfl <;> decide)
        (.cons (by decide) (a4.append (.cons (by decide) (fun c hc => by simp at hc))))

/-! ## Multiples of roots -/

/-- The number in front is read right. -/
def DM (max : ℤ) (m : Mo) : Prop := SM m.1 m.2 ∧ DOk max m.1

theorem cat_num (q : ℚ) : (cat o (num (.rat q) : Expr D)).rank ≤ Cat.rank .summand := by
  simp only [cat]
  split
  · split <;> simp [Cat.rank]
  · simp [Cat.rank]

theorem cat_em {m : Mo} : (cat o (em m : Expr D)).rank ≤ Cat.rank .summand := by
  obtain ⟨q, n⟩ := m
  by_cases h1 : n = 1
  · subst h1; rw [em_one]; exact cat_num q
  · rw [em_root (show (q, n).2 ≠ 1 from h1)]
    split
    · simp only [cat_root h1]; simp [Cat.rank]
    · simp [cat, Cat.rank]

theorem DM.neg {max : ℤ} {m : Mo} (h : DM max m) : DM max (-m.1, m.2) := by
  have := SM.mul (p := -1) (by norm_num) (by simp) h.1
  rw [neg_one_mul] at this
  exact ⟨this, dOk_neg h.2⟩

theorem pt_em (hc : cfg.Ok) {m : Mo} (h : DM cfg.maxPrime m) : PT cfg conv o (em m) := by
  obtain ⟨q, n⟩ := m
  obtain ⟨hs, hq⟩ := h
  simp only at hs hq
  by_cases h1 : n = 1
  · subst h1; rw [em_one]; exact pt_num hc hq
  · obtain ⟨u, u1, u2⟩ := pt_root (cfg := cfg) (conv := conv) (o := o) hs.sf h1 hc
    have he := em_root (D := D) (show (q, n).2 ≠ 1 from h1)
    by_cases hq1 : q = 1
    · subst hq1
      simp only [if_true] at he
      rw [he]; exact ⟨u, u1, u2⟩
    · simp only [hq1, if_false] at he
      have hcat : cat o (em (q, n) : Expr D) = .summand := by
        rw [he]; simp [cat]
      rw [cat_root h1] at u2
      have hsn : SM ((1 : ℚ), n).1 ((1 : ℚ), n).2 := ⟨one_ne_zero, hs.sf, by simp⟩
      have e1 : (em (1, n) : Expr D) = rootE (n : ℚ) := by rw [em_root (show ((1 : ℚ), n).2 ≠ 1 from h1)]; simp
      have hexp : ∀ f ∈ [(num (.rat q) : Expr D), rootE (n : ℚ)], isNegativeNumeric f.exp = false := by
        have g : ∀ x : ℚ, 0 ≤ x → isNegativeNumeric (num (.rat x) : Expr D) = false := fun x hx => by
          simp only [isNegativeNumeric]
          rw [Bool.eq_false_iff, Ne, Number.lt_iff]
          simp [hx]
        intro f hf
        rw [rootE_nat h1] at hf
        simp only [List.mem_cons, List.not_mem_nil, or_false] at hf
        rcases hf with rfl | rfl
        · exact g 1 (by norm_num)
        · exact g (1 / 2) (by norm_num)
      suffices h : ∃ s, (∀ j, Tot cfg (fun E => productPlain o E (toplevel o E (E.steps - j)) [num (.rat q), rootE (n : ℚ)]) s) ∧ Rd cfg conv .summand (em (q, n)) s by
        obtain ⟨s, s1, s2⟩ := h
        refine ⟨s, ?_, by rw [hcat]; exact s2⟩
        rw [he]
        exact TP.of_step fun j => tot_product hexp (by simp) (s1 j)
      have hneg : Tot cfg (fun E => E.minus (.num (.rat q))) (.num (.rat (-q)) : Expr D) :=
        tot_minus_em hc (EM.num _) (EM.num _) (by rw [poly_ratE, poly_ratE, map_neg])
      have hprec : ¬ precedence (rootE (n : ℚ) : Expr D) < 2 := by rw [rootE_nat h1]; simp [precedence]
      by_cases hqm : q = -1
      · subst hqm
        refine ⟨'-' :: u, fun j => ?_, ?_⟩
        · simp only [productPlain]
          refine tot_bind hneg ?_
          have h3 : (.num (.rat (- -1)) : Expr D).isOne = true := by rw [isOne_ratE]; norm_num
          simp only [h3, if_true, factor, hprec, if_false]
          refine tot_bind (tot_bind (u1 j) (tot_bind (tot_need (by rw [cat_root h1]; simp [Cat.rank])) (tot_pure _))) (tot_bind (a := []) (tot_pure _) ?_)
          rw [List.append_nil]; exact tot_pure _
        · obtain ⟨t, a1, a2, a3, a4⟩ := u2.lift (c' := .factor) (by simp [Cat.rank])
          refine Rd.lift (c := .signed) ⟨.neg t, .minus (w := []) spaces_none a1, tot_bind a2 ?_, a3, .cons (by decide) a4⟩ (by simp [Cat.rank])
          rw [← e1]; exact tot_minus hc hsn
      · obtain ⟨v, v1, v2⟩ := pt_num (conv := conv) (o := o) hc hq
        refine ⟨v ++ '*' :: u, fun j => ?_, ?_⟩
        · simp only [productPlain]
          refine tot_bind hneg ?_
          have h3 : (.num (.rat (-q)) : Expr D).isOne = false := by
            rw [isOne_ratE, decide_eq_false_iff_not]
            intro e; exact hqm (by rw [← neg_neg q, e])
          have h4 : (.num (.rat q) : Expr D).isOne = false := by rw [isOne_ratE, decide_eq_false_iff_not]; exact hq1
          have h5 : ¬ precedence (.num (.rat q) : Expr D) < 2 := by simp [precedence]
          simp only [h3, h4, h5, Bool.false_eq_true, if_false, factor, factors, hprec]
          refine tot_bind (tot_bind (v1 j) (tot_bind (tot_need (cat_num q)) (tot_pure _))) (tot_bind (a := '*' :: u) ?_ (tot_pure _))
          have hroot : (cat o (rootE (n : ℚ) : Expr D)).rank ≤ Cat.rank .signed := by rw [cat_root h1]; simp [Cat.rank]
          refine tot_bind (a := u) (tot_bind (u1 j) ?_) (tot_bind (a := []) (tot_pure _) ?_)
          · rw [if_neg hprec]; exact tot_bind (tot_need hroot) (tot_pure _)
          · rw [List.append_nil]; exact tot_pure _
        · obtain ⟨t, a1, a2, a3, a4⟩ := v2.lift (c' := .summand) (cat_num q)
          obtain ⟨t', b1, b2, b3, b4⟩ := u2.lift (c' := .signed) (by simp [Cat.rank])
          refine ⟨.mul t t', ?_, tot_bind a2 (tot_bind b2 ?_), ⟨a3, b3⟩, a4.append (.cons (by decide) b4)⟩
          · have := Parses.times a1 spaces_none b1
            simpa using this
          · have := tot_scale_one (D := D) hc (p := q) hsn hs.ne hq1 hs.cop
            rw [e1, show (q * ((1 : ℚ), n).1, ((1 : ℚ), n).2) = (q, n) by simp] at this
            exact tot_prod this

/-! ## Sums -/

theorem tot_add {L M : List Mo} (hL : SL L) (hM : SL M) :
    ∃ R, SL R ∧ co R = co L + co M ∧ Tot cfg (fun E => Api.add E (sumOf (L.map (em (D := D)))) (sumOf (M.map em))) (sumOf (R.map em)) := by
  obtain ⟨R, hR, A⟩ := Sd.tot_sumCreate (D := D) (cfg := cfg) (Ls := [L, M]) (by simp) (by
    intro K hK; simp only [List.mem_cons, List.not_mem_nil, or_false] at hK; rcases hK with rfl | rfl; exacts [hL, hM])
  exact ⟨R, A.sl, by rw [A.co]; simp, tot_sum hR⟩

theorem tot_sumLoop (hc : cfg.Ok) {K : List Mo} (hK : ∀ m ∈ K, DM cfg.maxPrime m) :
    ∃ t, (∀ j, Tot cfg (fun E => sumLoop o E (toplevel o E (E.steps - j)) (K.map (em (D := D)))) t) ∧
      ∀ (X Z : List Mo) (s : Str), SL X → Rd cfg conv .expression (sumOf (X.map (em (D := D)))) s → SL Z → co Z = co X + co K →
        Rd cfg conv .expression (sumOf (Z.map (em (D := D)))) (s ++ t) := by
  induction K with
  | nil =>
    refine ⟨[], fun j => tot_pure _, fun X Z s hX hr hZ hp => ?_⟩
    have : Z = X := SL.ext hZ hX (by rw [hp, co_nil, add_zero])
    subst this
    simpa using hr
  | cons m K ih =>
    obtain ⟨t, h1, h2⟩ := ih fun x hx => hK x (by simp [hx])
    have hm := hK m (by simp)
    have hco : ∀ X : List Mo, co X + co (m :: K) = co X + co [m] + co K := fun X => by rw [co_cons m K, co_cons m [], co_nil, add_zero, add_assoc]
    by_cases hn : isNegProduct (em m : Expr D) = true
    · obtain ⟨u, u1, u2⟩ := pt_em (cfg := cfg) (conv := conv) (o := o) hc hm.neg
      refine ⟨' ' :: '-' :: ' ' :: u ++ t, fun j => ?_, fun X Z s hX hr hZ hp => ?_⟩
      · simp only [List.map_cons, sumLoop, hn, if_true]
        exact tot_bind (tot_minus hc hm.1) (tot_bind (tot_need cat_em) (tot_bind (u1 j) (tot_bind (h1 j) (tot_pure _))))
      · obtain ⟨R, hR, hRc, g⟩ := tot_add (D := D) (cfg := cfg) hX (SL.single hm.1)
        obtain ⟨w, a1, a2, a3, a4⟩ := hr
        obtain ⟨w', b1, b2, b3, b4⟩ := u2.lift (c' := .summand) cat_em
        have h4 : Rd cfg conv .expression (sumOf (R.map (em (D := D)))) (s ++ (' ' :: '-' :: ' ' :: u)) := by
          refine ⟨.sub w w', ?_, tot_bind a2 (tot_bind b2 (tot_bind (a := em m) ?_ g)), ⟨a3, b3⟩, a4.append (.cons (by decide) (.cons (by decide) (.cons (by decide) b4)))⟩
          · have := Parses.minusSummand a1 spaces_one (b1.space spaces_one)
            simpa using this
          · have := tot_minus (D := D) hc hm.neg.1
            simpa using this
        have := h2 R Z _ hR h4 hZ (by rw [hp, hRc, hco])
        simpa using this
    · obtain ⟨u, u1, u2⟩ := pt_em (cfg := cfg) (conv := conv) (o := o) hc hm
      refine ⟨' ' :: '+' :: ' ' :: u ++ t, fun j => ?_, fun X Z s hX hr hZ hp => ?_⟩
      · simp only [List.map_cons, sumLoop, hn, if_false]
        exact tot_bind (tot_need cat_em) (tot_bind (u1 j) (tot_bind (h1 j) (tot_pure _)))
      · obtain ⟨R, hR, hRc, g⟩ := tot_add (D := D) (cfg := cfg) hX (SL.single hm.1)
        obtain ⟨w, a1, a2, a3, a4⟩ := hr
        obtain ⟨w', b1, b2, b3, b4⟩ := u2.lift (c' := .summand) cat_em
        have h4 : Rd cfg conv .expression (sumOf (R.map (em (D := D)))) (s ++ (' ' :: '+' :: ' ' :: u)) := by
          refine ⟨.add w w', ?_, tot_bind a2 (tot_bind b2 g), ⟨a3, b3⟩, a4.append (.cons (by decide) (.cons (by decide) (.cons (by decide) b4)))⟩
          have := Parses.plus a1 spaces_one (b1.space spaces_one)
          simpa using this
        have := h2 R Z _ hR h4 hZ (by rw [hp, hRc, hco])
        simpa using this

/-- The text of a sum of multiples of roots. -/
theorem pt_sum (hc : cfg.Ok) {L : List Mo} (hL : SL L) (hd : ∀ m ∈ L, DOk cfg.maxPrime m.1) : PT cfg conv o (sumOf (L.map (em (D := D)))) := by
  have hm : ∀ m ∈ L, DM cfg.maxPrime m := fun m h => ⟨hL.sm m h, hd m h⟩
  match L, hL, hm with
  | [], _, _ =>
    have : (sumOf (([] : List Mo).map (em (D := D)))) = .num (.rat 0) := zero_eq
    rw [this]
    refine pt_num hc (.inr fun p hp hd => ?_)
    have := Nat.le_of_dvd (by simp) hd
    have h2 := hp.two_le
    have h3 : 2 ^ 4 ≤ p ^ 4 := Nat.pow_le_pow_left h2 4
    simp at this
    omega
  | [m], _, hm => exact pt_em hc (hm m (by simp))
  | m :: n :: L, hL, hm =>
    obtain ⟨u, u1, u2⟩ := pt_em (conv := conv) (o := o) hc (hm m (by simp))
    obtain ⟨t, t1, t2⟩ := tot_sumLoop (conv := conv) (o := o) hc (K := n :: L) fun x hx => hm x (by simp only [List.mem_cons] at hx ⊢; tauto)
    refine ⟨u ++ t, TP.of_step fun j => tot_bind (u1 j) (tot_bind (t1 j) (tot_pure _)), ?_⟩
    refine t2 [m] (m :: n :: L) u (SL.single (hm m (by simp)).1) (u2.lift (cat_em.trans (by simp [Cat.rank]))) hL ?_
    rw [co_cons m, co_cons m [], co_nil, add_zero]

end Tsym.Sd
