import Verif.ZMon

set_option autoImplicit false
set_option linter.unusedSectionVars false
set_option linter.unusedSimpArgs false
set_option linter.unusedVariables false

/-!
# Two summands

Summands whose factors are in order (`Can`): taking them apart and putting them together gives the same
factors again.
-/

namespace Tsym.Zf

open Expr

variable {D : Type} [Flt D] [LawfulFlt D] {cfg : Cfg D}

/-- A summand that is not a sum: a number and factors in order. -/
structure SM (cfg : Cfg D) (q : ℚ) (P : List (Expr D × ℤ)) : Prop where
  ne : q ≠ 0
  can : Can cfg P
  ns : ¬ ∃ l, P = [(.sum l, 1)]

theorem SM.facs {q : ℚ} {P : List (Expr D × ℤ)} (h : SM cfg q P) : ZFs cfg P := h.can.facs

theorem SM.coef {p q : ℚ} {P : List (Expr D × ℤ)} (h : SM cfg q P) (hp : p ≠ 0) : SM cfg p P :=
  { h with ne := hp }

theorem SM.not_nx {q : ℚ} {P : List (Expr D × ℤ)} (h : SM cfg q P) (p : ℚ) : ¬ Nx p P := fun hn => h.ns hn.2

theorem Can.self {P R : List (Expr D × ℤ)} (h : Can cfg P) (hn : Nf cfg P R) : R = P := hn.unique ⟨h, rfl⟩

theorem num_mexpr (q : ℚ) : (.num (.rat q) : Expr D) = mexpr q [] := by
  rcases mexpr_cases (D := D) q [] with ⟨_, e⟩ | ⟨f, hf, _⟩ | ⟨h, _⟩
  · exact e.symm
  · simp at hf
  · exact absurd rfl h

theorem fac_mexpr (f : Expr D × ℤ) : fac f = mexpr 1 [f] := by simp [mexpr, rl_one, prodOf]

/-- Product::create for a number and a product. -/
theorem tot_scale (hc : cfg.Ok) {p q : ℚ} (hp : p ≠ 0) {P : List (Expr D × ℤ)} (h : SM cfg q P) :
    Tot cfg (fun E => prodCreate E [.num (.rat p), mexpr 1 P]) (mexpr p P) := by
  obtain ⟨R, hR, hT, _⟩ := tot_prodCreate hc (Ms := [(p, []), (1, P)]) (by
    intro m hm
    simp only [List.mem_cons, List.not_mem_nil, or_false] at hm
    rcases hm with rfl | rfl
    · exact ⟨hp, by simp [ZFs]⟩
    · exact ⟨one_ne_zero, h.facs⟩) (by simp)
  simp only [List.flatMap_cons, List.flatMap_nil, List.nil_append, List.append_nil, List.map_cons, List.map_nil,
    List.prod_cons, List.prod_nil, mul_one, ← num_mexpr] at hR hT
  have := h.can.self hR
  subst this
  exact hT (h.not_nx p)

/-- Product::create for factors. -/
theorem tot_prod_facs (hc : cfg.Ok) {P : List (Expr D × ℤ)} (hp : Can cfg P) (hne : P ≠ []) :
    Tot cfg (fun E => prodCreate E (P.map fac)) (mexpr 1 P) := by
  have h := hp.facs
  match P, hne with
  | [f], _ =>
    rw [← fac_mexpr]
    simp only [List.map_cons, List.map_nil, prodCreate, List.any_cons, List.any_nil, h.cons.1.isUndefined, h.cons.1.isZero,
      Bool.or_self, Bool.false_eq_true, if_false]
    exact tot_pure _
  | f :: g :: P, _ =>
    obtain ⟨R, hR, hT, _⟩ := tot_prodCreate hc (Ms := (f :: g :: P).map fun f => (1, [f])) (by
      intro m hm
      obtain ⟨x, hx, rfl⟩ := List.mem_map.1 hm
      exact ⟨one_ne_zero, fun y hy => by rw [List.mem_singleton] at hy; rw [hy]; exact h x hx⟩) (by simp)
    have e1 : ((f :: g :: P).map fun f => ((1 : ℚ), [f])).flatMap (·.2) = f :: g :: P := by
      rw [List.flatMap_map]; simp
    have e2 : (((f :: g :: P).map fun f => ((1 : ℚ), [f])).map (·.1)).prod = 1 := by
      rw [List.map_map]
      have : ((fun x => x.1) ∘ fun f : Expr D × ℤ => ((1 : ℚ), [f])) = fun _ => 1 := rfl
      rw [this]; simp
    have e3 : (((f :: g :: P).map fun f => ((1 : ℚ), [f])).map fun m => mexpr m.1 m.2) = (f :: g :: P).map fac := by
      rw [List.map_map]
      refine List.map_congr_left fun f _ => ?_
      exact (fac_mexpr f).symm
    rw [e1] at hR
    rw [e2, e3] at hT
    have := hp.self hR
    subst this
    exact hT fun hn => hn.1 rfl

theorem nonConst_rl {q : ℚ} {P : List (Expr D × ℤ)} (h : ZFs cfg P) : nonConstElements (rl q P) = P.map fac := by
  have hn : nonConstElements (P.map fac) = P.map fac := by
    unfold nonConstElements
    rw [List.filter_eq_self]
    intro e he
    obtain ⟨f, hf, rfl⟩ := List.mem_map.1 he
    simp [(h f hf).isConst]
  by_cases hq : q = 1
  · subst hq; rw [rl_one, hn]
  · rw [rl_ne hq]
    unfold nonConstElements at hn ⊢
    rw [List.filter_cons_of_neg (by simp [isConst]), hn]

theorem const_rl {q : ℚ} {P : List (Expr D × ℤ)} (h : ZFs cfg P) :
    constElements (rl q P) = if q = 1 then [] else [.num (.rat q)] := by
  have hn : constElements (P.map fac) = [] := by
    unfold constElements
    rw [List.filter_eq_nil_iff]
    intro e he
    obtain ⟨f, hf, rfl⟩ := List.mem_map.1 he
    simp [(h f hf).isConst]
  by_cases hq : q = 1
  · subst hq; rw [rl_one, hn, if_pos rfl]
  · rw [rl_ne hq, if_neg hq]
    unfold constElements at hn ⊢
    rw [List.filter_cons_of_pos (by rfl), hn]

theorem ZF.cases {f : Expr D × ℤ} (h : ZF cfg f) :
    (∃ s, fac f = .sym s) ∨ (∃ l, f = (.sum l, 1) ∧ fac f = .sum l) ∨ ∃ k, fac f = .pow f.1 (.int k) := by
  unfold fac
  split
  · rename_i e
    rcases h.base.shape with ⟨s, hs⟩ | ⟨l, hl⟩
    · exact .inl ⟨s, hs⟩
    · exact .inr (.inl ⟨l, Prod.ext hl e, hl⟩)
  · exact .inr (.inr ⟨f.2, rfl⟩)

theorem tot_nonConstTerm (hc : cfg.Ok) {q : ℚ} {P : List (Expr D × ℤ)} (hp : Can cfg P) :
    Tot cfg (fun E => nonConstTerm E (mexpr q P)) (mexpr 1 P) := by
  have h := hp.facs
  rcases mexpr_cases q P with ⟨rfl, e⟩ | ⟨f, rfl, rfl, e⟩ | ⟨hP, _, e⟩
  · rw [e, ← num_mexpr, ← one_eq]
    simp only [nonConstTerm]; exact tot_pure _
  · rw [← fac_mexpr]
    have hcf := h.cons.1.isConst
    rcases h.cons.1.cases with ⟨s, hs⟩ | ⟨l, _, hl⟩ | ⟨k, hk⟩
    · rw [hs] at hcf ⊢; simp only [nonConstTerm, hcf, Bool.false_eq_true, if_false]; exact tot_pure _
    · rw [hl] at hcf ⊢; simp only [nonConstTerm, hcf, Bool.false_eq_true, if_false]; exact tot_pure _
    · rw [hk] at hcf ⊢; simp only [nonConstTerm, hcf, Bool.false_eq_true, if_false]; exact tot_pure _
  · have hT := tot_prod_facs hc hp hP
    rw [e]
    have hne : (P.map fac).isEmpty = false := by simpa using hP
    simp only [nonConstTerm, nonConst_rl h, hne, Bool.false_eq_true, if_false]
    exact tot_prod hT

theorem tot_constTerm {q : ℚ} (hq0 : q ≠ 0) {P : List (Expr D × ℤ)} (h : ZFs cfg P) :
    Tot cfg (fun E => constTerm E (mexpr q P)) (.num (.rat q)) := by
  rcases mexpr_cases q P with ⟨rfl, e⟩ | ⟨f, rfl, rfl, e⟩ | ⟨hP, _, e⟩
  · rw [e]; simp only [constTerm]; exact tot_pure _
  · rw [e, ← one_eq]
    have hcf := h.cons.1.isConst
    rcases h.cons.1.cases with ⟨s, hs⟩ | ⟨l, _, hl⟩ | ⟨k, hk⟩
    · rw [hs] at hcf ⊢; simp only [constTerm, hcf, Bool.false_eq_true, if_false]; exact tot_pure _
    · rw [hl] at hcf ⊢; simp only [constTerm, hcf, Bool.false_eq_true, if_false]; exact tot_pure _
    · rw [hk] at hcf ⊢; simp only [constTerm, hcf, Bool.false_eq_true, if_false]; exact tot_pure _
  · rw [e]
    by_cases hq : q = 1
    · subst hq
      simp only [constTerm, const_rl h, if_true, List.isEmpty_nil, ← one_eq]
      exact tot_pure _
    · simp only [constTerm, const_rl h, hq, if_false, List.isEmpty_cons, Bool.false_eq_true]
      refine tot_prod ?_
      simp only [prodCreate, List.any_cons, List.any_nil, isZero_ratE, hq0, decide_false, Expr.isUndefined, Bool.or_self,
        Bool.false_eq_true, if_false]
      exact tot_pure _

theorem tot_nonNumericTerm (hc : cfg.Ok) {q : ℚ} {P : List (Expr D × ℤ)} (hp : Can cfg P) :
    Tot cfg (fun E => nonNumericTerm E (mexpr q P)) (mexpr 1 P) := by
  have h := hp.facs
  rcases mexpr_cases q P with ⟨rfl, e⟩ | ⟨f, rfl, rfl, e⟩ | ⟨hP, hl, e⟩
  · rw [e, ← num_mexpr, ← one_eq]
    simp only [nonNumericTerm]; exact tot_pure _
  · rw [← fac_mexpr]
    rcases h.cons.1.cases with ⟨s, hs⟩ | ⟨l, _, hl⟩ | ⟨k, hk⟩
    · rw [hs]; simp only [nonNumericTerm]; exact tot_pure _
    · rw [hl]; simp only [nonNumericTerm]; exact tot_pure _
    · rw [hk]; simp only [nonNumericTerm]; exact tot_pure _
  · by_cases hq : q = 1
    · subst hq
      obtain ⟨f, P, rfl⟩ := List.exists_cons_of_ne_nil hP
      rw [e, rl_one, List.map_cons]
      simp only [nonNumericTerm, h.cons.1.isNumeric, Bool.false_eq_true, if_false]
      exact tot_pure _
    · have hT := tot_prod_facs hc hp hP
      rw [e, rl_ne hq]
      simp only [nonNumericTerm, Expr.isNumeric, if_true]
      exact tot_prod hT

theorem tot_numericTerm {q : ℚ} {P : List (Expr D × ℤ)} (h : ZFs cfg P) :
    Tot cfg (fun _ => numericTerm (mexpr q P)) (.num (.rat q)) := by
  rcases mexpr_cases q P with ⟨rfl, e⟩ | ⟨f, rfl, rfl, e⟩ | ⟨hP, _, e⟩
  · rw [e]; simp only [numericTerm]; exact tot_pure _
  · rw [e, ← one_eq]
    rcases h.cons.1.cases with ⟨s, hs⟩ | ⟨l, _, hl⟩ | ⟨k, hk⟩
    · rw [hs]; simp only [numericTerm]; exact tot_pure _
    · rw [hl]; simp only [numericTerm]; exact tot_pure _
    · rw [hk]; simp only [numericTerm]; exact tot_pure _
  · rw [e]
    by_cases hq : q = 1
    · subst hq
      obtain ⟨f, P, rfl⟩ := List.exists_cons_of_ne_nil hP
      rw [rl_one, List.map_cons, ← one_eq]
      simp only [numericTerm, h.cons.1.isNumeric, Bool.false_eq_true, if_false]
      exact tot_pure _
    · rw [rl_ne hq]
      simp only [numericTerm, Expr.isNumeric, if_true]
      exact tot_pure _

end Tsym.Zf
