import Verif.PolyMon

set_option autoImplicit false
set_option linter.unusedSectionVars false
set_option linter.unusedSimpArgs false
set_option linter.unusedVariables false

/-!
# Two summands
-/

namespace Tsym

open Expr

/-! ## Monomials in order are determined by their value -/

/-- Counts the factors with the base `s`. -/
def isBase {D : Type} (s : Sym) : Expr D → Multiplicative ℕ
  | .sym t => if t = s then Multiplicative.ofAdd 1 else 1
  | _ => 1

/-- The exponent of a symbol. -/
def Key.count (K : Key) (s : Sym) : ℕ := (K.map fun x => if x.1 = s then x.2 else 0).sum

theorem Key.count_pv {D : Type} [Flt D] (K : Key) (s : Sym) :
    pv (isBase s : Expr D → Multiplicative ℕ) K.facs = Multiplicative.ofAdd (K.count s) := by
  induction K with
  | nil => simp [Key.facs, Key.count, pv]
  | cons x K ih =>
    simp only [Key.facs, List.map_cons, pv_cons, Key.count, List.sum_cons, ofAdd_add] at ih ⊢
    rw [ih]
    by_cases h : x.1 = s
    · simp [isBase, h, ← ofAdd_nsmul]
    · simp [isBase, h]

theorem Key.count_zero {K : Key} {s : Sym} (h : ∀ x ∈ K, x.1 ≠ s) : K.count s = 0 := by
  induction K with
  | nil => rfl
  | cons y K ih =>
    simp only [Key.count, List.map_cons, List.sum_cons, h y (by simp), if_false, zero_add]
    exact ih fun x hx => h x (by simp [hx])

theorem Key.Sorted.count {K : Key} (h : K.Sorted) (ho : K.Ok) (x : Sym × ℕ) :
    x ∈ K ↔ K.count x.1 = x.2 ∧ x.2 ≠ 0 := by
  induction K with
  | nil => simp [Key.count]; intro h; omega
  | cons y K ih =>
    unfold Key.Sorted at h
    rw [List.pairwise_cons] at h
    have ih := ih h.2 fun a ha => ho a (by simp [ha])
    have hc : (Key.count (y :: K) x.1) = (if y.1 = x.1 then y.2 else 0) + Key.count K x.1 := by simp [Key.count]
    rw [hc]
    by_cases hy : y.1 = x.1
    · have hz : Key.count K x.1 = 0 := Key.count_zero fun z hz e => by
        have := h.1 z hz
        rw [e, hy, symLt_irrefl] at this
        cases this
      rw [if_pos hy, hz, add_zero, List.mem_cons]
      have := (ho y (by simp)).2
      constructor
      · rintro (rfl | hx)
        · exact ⟨rfl, by omega⟩
        · have := (ih.1 hx).1; rw [hz] at this; exact absurd this.symm (ih.1 hx).2
      · rintro ⟨e, _⟩; exact .inl (Prod.ext hy.symm e.symm)
    · rw [if_neg hy, zero_add, List.mem_cons, ih]
      constructor
      · rintro (rfl | hx)
        · exact absurd rfl hy
        · exact hx
      · exact .inr

theorem Key.nodup {K : Key} (h : K.Sorted) : K.Nodup :=
  h.imp fun {a b} hab e => by rw [e, symLt_irrefl] at hab; cases hab

/-- Monomials in order with the same value are equal. -/
theorem Key.same {D : Type} [Flt D] {K L : Key} (hK : K.Ok) (hL : L.Ok) (sK : K.Sorted) (sL : L.Sorted)
    (h : Same (K.facs : List (Expr D × ℕ)) L.facs) : K = L := by
  have hm : ∀ x, x ∈ K ↔ x ∈ L := by
    intro x
    have := h (Multiplicative ℕ) (isBase x.1)
    rw [Key.count_pv, Key.count_pv] at this
    rw [sK.count hK, sL.count hL, Multiplicative.ofAdd.injective this]
  have hp : K.Perm L := (List.perm_ext_iff_of_nodup (Key.nodup sK) (Key.nodup sL)).2 hm
  refine hp.eq_of_pairwise (le := fun x y : Sym × ℕ => symLt x.1 y.1 = true) ?_ sK sL
  intro a b _ _ h1 h2
  rw [symLt_asymm h1] at h2
  cases h2

variable {D : Type} [Flt D] {cfg : Cfg D}

/-- If the factors are symbols in order, nothing changes. -/
theorem Norm.id {K : Key} (hK : K.Ok) (sK : K.Sorted) {R : List (Expr D × ℕ)} (h : Norm cfg K.facs R) : R = K.facs := by
  obtain ⟨L, hL, sL, rfl⟩ := h.sorted K hK rfl
  rw [Key.same hK hL sK sL h.same]

/-! ## Summands -/

/-- A summand that is not a sum: a number and factors with bases in `B`. -/
structure SM (cfg : Cfg D) (B : Expr D → Prop) (q : ℚ) (P : List (Expr D × ℕ)) : Prop where
  ne : q ≠ 0
  facs : PFacs cfg P
  base : ∀ f ∈ P, B f.1
  ns : ¬ ∃ l, P = [(.sum l, 1)]

theorem pv_deg (P : List (Expr D × ℕ)) :
    pv (fun _ => Multiplicative.ofAdd (1 : ℕ)) P = Multiplicative.ofAdd ((P.map (·.2)).sum) := by
  induction P with
  | nil => rfl
  | cons f P ih => rw [pv_cons, ih, List.map_cons, List.sum_cons, ofAdd_add]; simp [← ofAdd_nsmul]

/-- A single factor stays one. -/
theorem Norm.single_inv {P : List (Expr D × ℕ)} (hP : PFacs cfg P) {b : Expr D} (h : Norm cfg P [(b, 1)]) : P = [(b, 1)] := by
  have h1 := h.same (Multiplicative ℕ) fun _ => Multiplicative.ofAdd (1 : ℕ)
  rw [pv_deg, pv_deg] at h1
  have h1 := Multiplicative.ofAdd.injective h1
  simp only [List.map_cons, List.map_nil, List.sum_cons, List.sum_nil, add_zero] at h1
  obtain ⟨g, hg, e⟩ := h.sub (b, 1) (by simp)
  match P with
  | [] => simp at hg
  | [f] =>
    simp only [List.map_cons, List.map_nil, List.sum_cons, List.sum_nil, add_zero] at h1
    simp only [List.mem_singleton] at hg
    subst hg
    exact congrArg (fun x => [x]) (Prod.ext e h1)
  | f :: f' :: P =>
    have a1 := hP.cons.1.one_le
    have a2 := hP.cons.2.cons.1.one_le
    simp only [List.map_cons, List.sum_cons] at h1
    omega

theorem Norm.nil_iff {P R : List (Expr D × ℕ)} (hP : PFacs cfg P) (h : Norm cfg P R) : P = [] ↔ R = [] := by
  have h1 := h.same (Multiplicative ℕ) fun _ => Multiplicative.ofAdd (1 : ℕ)
  rw [pv_deg, pv_deg] at h1
  have h1 := Multiplicative.ofAdd.injective h1
  have key : ∀ Q : List (Expr D × ℕ), PFacs cfg Q → (Q = [] ↔ (Q.map (·.2)).sum = 0) := by
    intro Q hQ
    cases Q with
    | nil => simp
    | cons f Q => have := hQ.cons.1.one_le; simp; omega
  rw [key P hP, key R h.facs, h1]

variable {B : Expr D → Prop}

theorem SM.norm {p q : ℚ} {P R : List (Expr D × ℕ)} (h : SM cfg B q P) (hn : Norm cfg P R) (hp : p ≠ 0) : SM cfg B p R where
  ne := hp
  facs := hn.facs
  base f hf := by obtain ⟨g, hg, e⟩ := hn.sub f hf; rw [← e]; exact h.base g hg
  ns := by
    rintro ⟨l, rfl⟩
    exact h.ns ⟨l, hn.single_inv h.facs⟩

theorem SM.coef {p q : ℚ} {P : List (Expr D × ℕ)} (h : SM cfg B q P) (hp : p ≠ 0) : SM cfg B p P :=
  { h with ne := hp }

theorem SM.not_nx {q : ℚ} {P : List (Expr D × ℕ)} (h : SM cfg B q P) (p : ℚ) : ¬ Nx p P := fun hn => h.ns hn.2

theorem num_mexpr (q : ℚ) : (.num (.rat q) : Expr D) = mexpr q [] := by
  rcases mexpr_cases (D := D) q [] with ⟨_, e⟩ | ⟨f, hf, _⟩ | ⟨h, _⟩
  · exact e.symm
  · simp at hf
  · exact absurd rfl h

theorem fac_mexpr (f : Expr D × ℕ) : fac f = mexpr 1 [f] := by simp [mexpr, rl_one, prodOf]

/-- Product::create for a number and a product. -/
theorem tot_scale (hc : cfg.Ok) {p q : ℚ} (hp : p ≠ 0) {P : List (Expr D × ℕ)} (h : SM cfg B q P) :
    ∃ R, Norm cfg P R ∧ Tot cfg (fun E => prodCreate E [.num (.rat p), mexpr 1 P]) (mexpr p R) := by
  obtain ⟨R, hR, hT, _⟩ := tot_prodCreate hc (Ms := [(p, []), (1, P)]) (by
    intro m hm
    simp only [List.mem_cons, List.not_mem_nil, or_false] at hm
    rcases hm with rfl | rfl
    · exact ⟨hp, by simp [PFacs]⟩
    · exact ⟨one_ne_zero, h.facs⟩) (by simp)
  simp only [List.flatMap_cons, List.flatMap_nil, List.nil_append, List.append_nil, List.map_cons, List.map_nil,
    List.prod_cons, List.prod_nil, mul_one, ← num_mexpr] at hR hT
  exact ⟨R, hR, hT ((h.norm hR hp).not_nx p)⟩

/-- Product::create for factors. -/
theorem tot_prod_facs (hc : cfg.Ok) {P : List (Expr D × ℕ)} (h : PFacs cfg P) (hne : P ≠ []) :
    ∃ R, Norm cfg P R ∧ Tot cfg (fun E => prodCreate E (P.map fac)) (mexpr 1 R) := by
  match P, hne with
  | [f], _ =>
    refine ⟨[f], Norm.single h.cons.1, ?_⟩
    rw [← fac_mexpr]
    simp only [List.map_cons, List.map_nil, prodCreate, List.any_cons, List.any_nil, h.cons.1.isUndefined, h.cons.1.isZero,
      Bool.or_self, Bool.false_eq_true, if_false]
    exact tot_pure _
  | f :: g :: P, _ =>
    obtain ⟨R, hR, hT, _⟩ := tot_prodCreate hc (Ms := (f :: g :: P).map fun f => (1, [f])) (by
      intro m hm
      obtain ⟨x, hx, rfl⟩ := List.mem_map.1 hm
      exact ⟨one_ne_zero, fun y hy => by rw [List.mem_singleton] at hy; rw [hy]; exact h x hx⟩) (by simp)
    have e1 : ((f :: g :: P).map fun f => ((1 : ℚ), [f])).flatMap (·.2) = f :: g :: P := by
      rw [List.flatMap_map]; simp
    have e2 : (((f :: g :: P).map fun f => ((1 : ℚ), [f])).map (·.1)).prod = 1 := by
      rw [List.map_map]
      have : ((fun x => x.1) ∘ fun f : Expr D × ℕ => ((1 : ℚ), [f])) = fun _ => 1 := rfl
      rw [this]; simp
    have e3 : (((f :: g :: P).map fun f => ((1 : ℚ), [f])).map fun m => mexpr m.1 m.2) = (f :: g :: P).map fac := by
      rw [List.map_map]
      refine List.map_congr_left fun f _ => ?_
      exact (fac_mexpr f).symm
    rw [e1] at hR
    rw [e2, e3] at hT
    exact ⟨R, hR, hT fun hn => hn.1 rfl⟩

theorem nonConst_rl {q : ℚ} {P : List (Expr D × ℕ)} (h : PFacs cfg P) : nonConstElements (rl q P) = P.map fac := by
  have hn : nonConstElements (P.map fac) = P.map fac := by
    unfold nonConstElements
    rw [List.filter_eq_self]
    intro e he
    obtain ⟨f, hf, rfl⟩ := List.mem_map.1 he
    simp [(h f hf).isConst]
  by_cases hq : q = 1
  · subst hq; rw [rl_one, hn]
  · rw [rl_ne hq]
    unfold nonConstElements at hn ⊢
    rw [List.filter_cons_of_neg (by simp [isConst]), hn]

theorem const_rl {q : ℚ} {P : List (Expr D × ℕ)} (h : PFacs cfg P) :
    constElements (rl q P) = if q = 1 then [] else [.num (.rat q)] := by
  have hn : constElements (P.map fac) = [] := by
    unfold constElements
    rw [List.filter_eq_nil_iff]
    intro e he
    obtain ⟨f, hf, rfl⟩ := List.mem_map.1 he
    simp [(h f hf).isConst]
  by_cases hq : q = 1
  · subst hq; rw [rl_one, hn, if_pos rfl]
  · rw [rl_ne hq, if_neg hq]
    unfold constElements at hn ⊢
    rw [List.filter_cons_of_pos (by rfl), hn]

theorem PFac.cases {f : Expr D × ℕ} (h : PFac cfg f) :
    (∃ s, fac f = .sym s) ∨ (∃ l, f = (.sum l, 1) ∧ fac f = .sum l) ∨ ∃ k, fac f = .pow f.1 (.int k) := by
  unfold fac
  split
  · rename_i e
    rcases h.base.shape with ⟨s, hs⟩ | ⟨l, hl⟩
    · exact .inl ⟨s, hs⟩
    · exact .inr (.inl ⟨l, Prod.ext hl e, hl⟩)
  · exact .inr (.inr ⟨f.2, rfl⟩)

theorem tot_nonConstTerm (hc : cfg.Ok) {q : ℚ} {P : List (Expr D × ℕ)} (h : PFacs cfg P) :
    ∃ R, Norm cfg P R ∧ Tot cfg (fun E => nonConstTerm E (mexpr q P)) (mexpr 1 R) := by
  rcases mexpr_cases q P with ⟨rfl, e⟩ | ⟨f, rfl, rfl, e⟩ | ⟨hP, _, e⟩
  · refine ⟨[], Norm.nil, ?_⟩
    rw [e, ← num_mexpr, ← one_eq]
    simp only [nonConstTerm]; exact tot_pure _
  · refine ⟨[f], Norm.single h.cons.1, ?_⟩
    rw [← fac_mexpr]
    have hcf := h.cons.1.isConst
    rcases h.cons.1.cases with ⟨s, hs⟩ | ⟨l, _, hl⟩ | ⟨k, hk⟩
    · rw [hs] at hcf ⊢; simp only [nonConstTerm, hcf, Bool.false_eq_true, if_false]; exact tot_pure _
    · rw [hl] at hcf ⊢; simp only [nonConstTerm, hcf, Bool.false_eq_true, if_false]; exact tot_pure _
    · rw [hk] at hcf ⊢; simp only [nonConstTerm, hcf, Bool.false_eq_true, if_false]; exact tot_pure _
  · obtain ⟨R, hR, hT⟩ := tot_prod_facs hc h hP
    refine ⟨R, hR, ?_⟩
    rw [e]
    have hne : (P.map fac).isEmpty = false := by simpa using hP
    simp only [nonConstTerm, nonConst_rl h, hne, Bool.false_eq_true, if_false]
    exact tot_prod hT

theorem tot_constTerm {q : ℚ} (hq0 : q ≠ 0) {P : List (Expr D × ℕ)} (h : PFacs cfg P) :
    Tot cfg (fun E => constTerm E (mexpr q P)) (.num (.rat q)) := by
  rcases mexpr_cases q P with ⟨rfl, e⟩ | ⟨f, rfl, rfl, e⟩ | ⟨hP, _, e⟩
  · rw [e]; simp only [constTerm]; exact tot_pure _
  · rw [e, ← one_eq]
    have hcf := h.cons.1.isConst
    rcases h.cons.1.cases with ⟨s, hs⟩ | ⟨l, _, hl⟩ | ⟨k, hk⟩
    · rw [hs] at hcf ⊢; simp only [constTerm, hcf, Bool.false_eq_true, if_false]; exact tot_pure _
    · rw [hl] at hcf ⊢; simp only [constTerm, hcf, Bool.false_eq_true, if_false]; exact tot_pure _
    · rw [hk] at hcf ⊢; simp only [constTerm, hcf, Bool.false_eq_true, if_false]; exact tot_pure _
  · rw [e]
    by_cases hq : q = 1
    · subst hq
      simp only [constTerm, const_rl h, if_true, List.isEmpty_nil, ← one_eq]
      exact tot_pure _
    · simp only [constTerm, const_rl h, hq, if_false, List.isEmpty_cons, Bool.false_eq_true]
      refine tot_prod ?_
      simp only [prodCreate, List.any_cons, List.any_nil, isZero_ratE, hq0, decide_false, Expr.isUndefined, Bool.or_self,
        Bool.false_eq_true, if_false]
      exact tot_pure _

theorem tot_nonNumericTerm (hc : cfg.Ok) {q : ℚ} {P : List (Expr D × ℕ)} (h : PFacs cfg P) :
    ∃ R, (R = P ∨ Norm cfg P R) ∧ Tot cfg (fun E => nonNumericTerm E (mexpr q P)) (mexpr 1 R) := by
  rcases mexpr_cases q P with ⟨rfl, e⟩ | ⟨f, rfl, rfl, e⟩ | ⟨hP, hl, e⟩
  · refine ⟨[], .inl rfl, ?_⟩
    rw [e, ← num_mexpr, ← one_eq]
    simp only [nonNumericTerm]; exact tot_pure _
  · refine ⟨[f], .inl rfl, ?_⟩
    rw [← fac_mexpr]
    rcases h.cons.1.cases with ⟨s, hs⟩ | ⟨l, _, hl⟩ | ⟨k, hk⟩
    · rw [hs]; simp only [nonNumericTerm]; exact tot_pure _
    · rw [hl]; simp only [nonNumericTerm]; exact tot_pure _
    · rw [hk]; simp only [nonNumericTerm]; exact tot_pure _
  · by_cases hq : q = 1
    · subst hq
      refine ⟨P, .inl rfl, ?_⟩
      obtain ⟨f, P, rfl⟩ := List.exists_cons_of_ne_nil hP
      rw [e, rl_one, List.map_cons]
      simp only [nonNumericTerm, h.cons.1.isNumeric, Bool.false_eq_true, if_false]
      exact tot_pure _
    · obtain ⟨R, hR, hT⟩ := tot_prod_facs hc h hP
      refine ⟨R, .inr hR, ?_⟩
      rw [e, rl_ne hq]
      simp only [nonNumericTerm, Expr.isNumeric, if_true]
      exact tot_prod hT

theorem tot_numericTerm {q : ℚ} {P : List (Expr D × ℕ)} (h : PFacs cfg P) :
    Tot cfg (fun _ => numericTerm (mexpr q P)) (.num (.rat q)) := by
  rcases mexpr_cases q P with ⟨rfl, e⟩ | ⟨f, rfl, rfl, e⟩ | ⟨hP, _, e⟩
  · rw [e]; simp only [numericTerm]; exact tot_pure _
  · rw [e, ← one_eq]
    rcases h.cons.1.cases with ⟨s, hs⟩ | ⟨l, _, hl⟩ | ⟨k, hk⟩
    · rw [hs]; simp only [numericTerm]; exact tot_pure _
    · rw [hl]; simp only [numericTerm]; exact tot_pure _
    · rw [hk]; simp only [numericTerm]; exact tot_pure _
  · rw [e]
    by_cases hq : q = 1
    · subst hq
      obtain ⟨f, P, rfl⟩ := List.exists_cons_of_ne_nil hP
      rw [rl_one, List.map_cons, ← one_eq]
      simp only [numericTerm, h.cons.1.isNumeric, Bool.false_eq_true, if_false]
      exact tot_pure _
    · rw [rl_ne hq]
      simp only [numericTerm, Expr.isNumeric, if_true]
      exact tot_pure _

end Tsym
