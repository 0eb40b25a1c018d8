import Verif.PolyProd

set_option autoImplicit false
set_option linter.unusedSectionVars false
set_option linter.unusedSimpArgs false
set_option linter.unusedVariables false

/-!
# Factors whose bases are symbols
-/

namespace Tsym

open Expr

theorem Str.lt_trans {a : Str} : ∀ {b c : Str}, Str.lt a b = true → Str.lt b c = true → Str.lt a c = true := by
  induction a with
  | nil => intro b c h h'; cases c <;> cases b <;> simp_all [Str.lt]
  | cons x a ih =>
    intro b c h h'
    match b, c with
    | [], _ => simp [Str.lt] at h
    | _ :: _, [] => simp [Str.lt] at h'
    | y :: b, z :: c =>
      simp only [Str.lt] at h h' ⊢
      by_cases h1 : x.toNat < y.toNat
      · by_cases h2 : y.toNat < z.toNat
        · rw [if_pos (by omega)]
        · rw [if_neg h2] at h'
          split at h'
          · cases h'
          · rw [if_pos (by omega)]
      · rw [if_neg h1] at h
        split at h
        · cases h
        · by_cases h2 : y.toNat < z.toNat
          · rw [if_pos (by omega)]
          · rw [if_neg h2] at h'
            split at h'
            · cases h'
            · rw [if_neg (by omega), if_neg (by omega)]
              exact ih h h'

theorem Name.lt_trans {a b c : Name} (h : Name.lt a b = true) (h' : Name.lt b c = true) : Name.lt a c = true := by
  obtain ⟨v, s, t⟩ := a
  obtain ⟨v', s', t'⟩ := b
  obtain ⟨v'', s'', t''⟩ := c
  simp only [Name.lt] at h h' ⊢
  grind [Str.lt_trans, Str.lt_asymm, Str.lt_total, Str.lt_irrefl]

/-- The symbol `s` comes before the symbol `t`. -/
def symLt (s t : Sym) : Bool := permSym t s

theorem symLt_irrefl (s : Sym) : symLt s s = false := by simp [symLt, permSym, Name.lt_irrefl]

theorem symLt_asymm {s t : Sym} (h : symLt s t = true) : symLt t s = false := by
  simp only [symLt, permSym] at *
  grind [Name.lt_asymm, Name.lt_irrefl]

theorem symLt_trans {s t u : Sym} (h : symLt s t = true) (h' : symLt t u = true) : symLt s u = true := by
  simp only [symLt, permSym] at *
  grind [Name.lt_asymm, Name.lt_irrefl, Name.lt_trans]

theorem symLt_total {s t : Sym} (hs : s.id.Ok) (ht : t.id.Ok) (h : symLt s t = false) (h' : symLt t s = false) : s = t := by
  simp only [symLt, permSym] at h h'
  have e : s.id.name = t.id.name := by
    by_contra hne
    rw [if_neg (fun x => hne x.1.symm)] at h
    rw [if_neg (fun x => hne x.1)] at h'
    exact hne (Name.lt_total h h')
  have hi := SymId.name_inj hs ht e
  obtain ⟨i, p⟩ := s
  obtain ⟨j, q⟩ := t
  simp only at hi e h h'
  subst hi
  congr 1
  simp only [true_and, ne_eq, Name.lt_irrefl] at h h'
  cases p <;> cases q <;> simp_all

/-- A monomial: symbols with exponents. -/
abbrev Key := List (Sym × ℕ)

/-- The symbols are as the library makes them, and the exponents are positive. -/
def Key.Ok (K : Key) : Prop := ∀ x ∈ K, x.1.id.Ok ∧ 1 ≤ x.2

/-- The symbols are in order, and each occurs once. -/
def Key.Sorted (K : Key) : Prop := K.Pairwise fun x y => symLt x.1 y.1 = true

/-- The factors of a monomial. -/
def Key.facs {D : Type} (K : Key) : List (Expr D × ℕ) := K.map fun x => (Expr.sym x.1, x.2)

theorem Key.facs_inj {D : Type} {K L : Key} (h : (K.facs : List (Expr D × ℕ)) = L.facs) : K = L := by
  refine List.map_injective_iff.2 ?_ h
  rintro ⟨s, j⟩ ⟨t, k⟩ h
  simp only [Prod.mk.injEq, Expr.sym.injEq] at h
  exact Prod.ext h.1 h.2

/-- The product of two monomials in order. -/
def mergeK : Key → Key → Key
  | [], L => L
  | x :: K, [] => x :: K
  | x :: K, y :: L =>
    if x.1 = y.1 then (x.1, x.2 + y.2) :: mergeK K L
    else if symLt y.1 x.1 then y :: mergeK (x :: K) L
    else x :: mergeK K (y :: L)
termination_by K L => K.length + L.length

theorem mergeK_ok {K L : Key} (hK : K.Ok) (hL : L.Ok) : (mergeK K L).Ok := by
  fun_induction mergeK K L with
  | case1 L => exact hL
  | case2 x K => exact hK
  | case3 x K y L h ih =>
    intro z hz
    rcases List.mem_cons.1 hz with rfl | hz
    · have := hK x (by simp); exact ⟨this.1, by simp only; omega⟩
    · exact ih (fun a ha => hK a (by simp [ha])) (fun a ha => hL a (by simp [ha])) z hz
  | case4 x K y L h h2 ih =>
    intro z hz
    rcases List.mem_cons.1 hz with rfl | hz
    · exact hL _ (by simp)
    · exact ih hK (fun a ha => hL a (by simp [ha])) z hz
  | case5 x K y L h h2 ih =>
    intro z hz
    rcases List.mem_cons.1 hz with rfl | hz
    · exact hK _ (by simp)
    · exact ih (fun a ha => hK a (by simp [ha])) hL z hz

theorem mergeK_mem {K L : Key} {z : Sym × ℕ} (hz : z ∈ mergeK K L) : ∃ x, (x ∈ K ∨ x ∈ L) ∧ x.1 = z.1 := by
  fun_induction mergeK K L with
  | case1 L => exact ⟨z, .inr hz, rfl⟩
  | case2 x K => exact ⟨z, .inl hz, rfl⟩
  | case3 x K y L h ih =>
    rcases List.mem_cons.1 hz with rfl | hz
    · exact ⟨x, by simp, rfl⟩
    · obtain ⟨a, ha, e⟩ := ih hz; exact ⟨a, by simp; tauto, e⟩
  | case4 x K y L h h2 ih =>
    rcases List.mem_cons.1 hz with rfl | hz
    · exact ⟨_, by simp, rfl⟩
    · obtain ⟨a, ha, e⟩ := ih hz; exact ⟨a, by simp at ha ⊢; tauto, e⟩
  | case5 x K y L h h2 ih =>
    rcases List.mem_cons.1 hz with rfl | hz
    · exact ⟨_, by simp, rfl⟩
    · obtain ⟨a, ha, e⟩ := ih hz; exact ⟨a, by simp at ha ⊢; tauto, e⟩

theorem mergeK_sorted {K L : Key} (hK : K.Ok) (hL : L.Ok) (sK : K.Sorted) (sL : L.Sorted) : (mergeK K L).Sorted := by
  unfold Key.Sorted at *
  fun_induction mergeK K L with
  | case1 L => exact sL
  | case2 x K => exact sK
  | case3 x K y L h ih =>
    rw [List.pairwise_cons] at sK sL ⊢
    refine ⟨fun z hz => ?_, ih (fun a ha => hK a (by simp [ha])) (fun a ha => hL a (by simp [ha])) sK.2 sL.2⟩
    obtain ⟨a, ha | ha, e⟩ := mergeK_mem hz
    · rw [← e]; exact sK.1 a ha
    · rw [← e, h]; exact sL.1 a ha
  | case4 x K y L h h2 ih =>
    have sK0 := sK
    rw [List.pairwise_cons] at sK sL ⊢
    refine ⟨fun z hz => ?_, ih hK (fun a ha => hL a (by simp [ha])) sK0 sL.2⟩
    obtain ⟨a, ha | ha, e⟩ := mergeK_mem hz
    · rw [← e]
      rcases List.mem_cons.1 ha with rfl | ha
      · exact h2
      · exact symLt_trans h2 (sK.1 a ha)
    · rw [← e]; exact sL.1 a ha
  | case5 x K y L h h2 ih =>
    have sL0 := sL
    have h3 : symLt x.1 y.1 = true := by
      by_contra h4
      exact h (symLt_total (hK x (by simp)).1 (hL y (by simp)).1 (by simpa using h4) (by simpa using h2))
    rw [List.pairwise_cons] at sK sL ⊢
    refine ⟨fun z hz => ?_, ih (fun a ha => hK a (by simp [ha])) hL sK.2 sL0⟩
    obtain ⟨a, ha | ha, e⟩ := mergeK_mem hz
    · rw [← e]; exact sK.1 a ha
    · rw [← e]
      rcases List.mem_cons.1 ha with rfl | ha
      · exact h3
      · exact symLt_trans h3 (sL.1 a ha)

section

variable {D : Type} [Flt D] {cfg : Cfg D}

theorem tot_isPos_sym (s : Sym) : Tot cfg (fun E => isPos E (.sym s : Expr D)) s.positive := by
  simp only [isPos]; exact tot_pure _
theorem tot_isNeg_sym (s : Sym) : Tot cfg (fun E => isNeg E (.sym s : Expr D)) false := by
  simp only [isNeg]; exact tot_pure _

theorem exact_sym (s : Sym) : Exact (.sym s : Expr D) :=
  exact_of_op (by simp) (by simp) (by simp [operands])

theorem pbase_sym (s : Sym) : PBase cfg (.sym s : Expr D) :=
  ⟨.inl ⟨s, rfl⟩, exact_sym s, rfl, rfl, rfl, ⟨_, tot_isPos_sym s⟩, ⟨_, tot_isNeg_sym s⟩⟩

theorem Key.Ok.pfacs {K : Key} (h : K.Ok) : PFacs cfg (K.facs : List (Expr D × ℕ)) := by
  intro f hf
  obtain ⟨x, hx, rfl⟩ := List.mem_map.1 hf
  exact ⟨pbase_sym _, (h x hx).2⟩

/-- Powers of different symbols are ordered as the symbols. -/
theorem permute_fac_sym {s t : Sym} (os : s.id.Ok) (ot : t.id.Ok) (h : s ≠ t) (j k : ℕ) :
    doPermute (fac (.sym s, j) : Expr D) (fac (.sym t, k)) = symLt t s := by
  have hs : ∀ s t : Sym, doPermute (.sym s : Expr D) (.sym t) = symLt t s := by
    intro s t; rw [doPermute_eq]; rfl
  have he : isEqual (.sym s : Expr D) (.sym t) = false := isEqual_ne (exact_sym _) (exact_sym _) (by simpa using h)
  have he' : isEqual (.sym t : Expr D) (.sym s) = false := isEqual_ne (exact_sym _) (exact_sym _) (by simpa using h.symm)
  unfold fac
  simp only
  split <;> split
  · exact hs s t
  · rw [doPermute_eq]; simp [permStep, permSame, permDiff, he', hs]
    cases h1 : symLt t s
    · cases h2 : symLt s t
      · exact absurd (symLt_total os ot h2 h1) h
      · rfl
    · rw [symLt_asymm h1]; rfl
  · rw [doPermute_eq]; simp [permStep, permSame, permDiff, he, hs]
  · rw [doPermute_eq]; simp [permStep, permSame, permDiff, he, hs]

theorem mergeF_facs {K L : Key} (hK : K.Ok) (hL : L.Ok) :
    mergeF (K.facs : List (Expr D × ℕ)) L.facs = (mergeK K L).facs := by
  fun_induction mergeK K L with
  | case1 L => simp [mergeF, Key.facs]
  | case2 x K => simp [mergeF, Key.facs]
  | case3 x K y L h ih =>
    simp only [Key.facs, List.map_cons] at ih ⊢
    rw [mergeF]
    simp only [h, isEqual_refl (exact_sym _), if_true]
    rw [ih (fun a ha => hK a (by simp [ha])) (fun a ha => hL a (by simp [ha]))]
  | case4 x K y L h h2 ih =>
    simp only [Key.facs, List.map_cons] at ih ⊢
    rw [mergeF]
    simp only [isEqual_ne (exact_sym x.1) (exact_sym y.1) (by simpa using h), Bool.false_eq_true, if_false,
      permute_fac_sym (hK x (by simp)).1 (hL y (by simp)).1 h, h2, if_true]
    rw [ih hK (fun a ha => hL a (by simp [ha]))]
  | case5 x K y L h h2 ih =>
    simp only [Key.facs, List.map_cons] at ih ⊢
    rw [mergeF]
    simp only [isEqual_ne (exact_sym x.1) (exact_sym y.1) (by simpa using h), Bool.false_eq_true, if_false,
      permute_fac_sym (hK x (by simp)).1 (hL y (by simp)).1 h, h2]
    rw [ih (fun a ha => hK a (by simp [ha])) hL]

/-- What `simplProd` makes of factors. -/
structure Norm (cfg : Cfg D) (P R : List (Expr D × ℕ)) : Prop where
  facs : PFacs cfg R
  same : Same P R
  sub : ∀ f ∈ R, ∃ g ∈ P, g.1 = f.1
  sorted : ∀ K : Key, K.Ok → P = K.facs → ∃ L : Key, L.Ok ∧ L.Sorted ∧ R = L.facs

theorem mergeF_sub {P Q : List (Expr D × ℕ)} {f : Expr D × ℕ} (h : f ∈ mergeF P Q) : ∃ g, (g ∈ P ∨ g ∈ Q) ∧ g.1 = f.1 := by
  fun_induction mergeF P Q with
  | case1 L => exact ⟨f, .inr h, rfl⟩
  | case2 x K => exact ⟨f, .inl h, rfl⟩
  | case3 x K y L h1 ih =>
    rcases List.mem_cons.1 h with rfl | hz
    · exact ⟨x, by simp, rfl⟩
    · obtain ⟨a, ha, e⟩ := ih hz; exact ⟨a, by simp; tauto, e⟩
  | case4 x K y L h1 h2 ih =>
    rcases List.mem_cons.1 h with rfl | hz
    · exact ⟨_, by simp, rfl⟩
    · obtain ⟨a, ha, e⟩ := ih hz; exact ⟨a, by simp at ha ⊢; tauto, e⟩
  | case5 x K y L h1 h2 ih =>
    rcases List.mem_cons.1 h with rfl | hz
    · exact ⟨_, by simp, rfl⟩
    · obtain ⟨a, ha, e⟩ := ih hz; exact ⟨a, by simp at ha ⊢; tauto, e⟩

theorem Norm.nil : Norm cfg ([] : List (Expr D × ℕ)) [] :=
  ⟨by simp [PFacs], .refl _, by simp, fun K _ h => ⟨[], by simp [Key.Ok], by simp [Key.Sorted], rfl⟩⟩

theorem Norm.single {f : Expr D × ℕ} (hf : PFac cfg f) : Norm cfg [f] [f] :=
  ⟨by simpa [PFacs] using hf, .refl _, by simp, fun K hK h => ⟨K, hK, by
    have : K.length = 1 := by have := congrArg List.length h; simpa [Key.facs] using this.symm
    obtain ⟨x, rfl⟩ := List.length_eq_one_iff.1 this
    simp [Key.Sorted], h⟩⟩

theorem Norm.merge {P Q R S : List (Expr D × ℕ)} (h : Norm cfg P R) (h' : Norm cfg Q S) :
    Norm cfg (P ++ Q) (mergeF R S) where
  facs := h.facs.mergeF h'.facs
  same A _ φ := by rw [pv_append, pv_mergeF φ h.facs h'.facs, h.same A φ, h'.same A φ]
  sub f hf := by
    obtain ⟨g, hg | hg, e⟩ := mergeF_sub hf
    · obtain ⟨g', hg', e'⟩ := h.sub g hg; exact ⟨g', by simp [hg'], e'.trans e⟩
    · obtain ⟨g', hg', e'⟩ := h'.sub g hg; exact ⟨g', by simp [hg'], e'.trans e⟩
  sorted K hK e := by
    obtain ⟨K1, K2, rfl, e1, e2⟩ := List.map_eq_append_iff.1 e.symm
    obtain ⟨L1, o1, s1, r1⟩ := h.sorted K1 (fun x hx => hK x (by simp [hx])) e1.symm
    obtain ⟨L2, o2, s2, r2⟩ := h'.sorted K2 (fun x hx => hK x (by simp [hx])) e2.symm
    refine ⟨mergeK L1 L2, mergeK_ok o1 o2, mergeK_sorted o1 o2 s1 s2, ?_⟩
    rw [r1, r2, mergeF_facs o1 o2]

theorem Norm.perm {P Q R : List (Expr D × ℕ)} (h : Norm cfg P R) (hp : P.Perm Q) : Norm cfg Q R where
  facs := h.facs
  same A _ φ := by rw [← h.same A φ, pv_perm φ hp]
  sub f hf := by obtain ⟨g, hg, e⟩ := h.sub f hf; exact ⟨g, hp.mem_iff.1 hg, e⟩
  sorted K hK e := by
    subst e
    have : ∃ K' : Key, P = K'.facs := by
      have hm : ∀ f ∈ P, ∃ x : Sym × ℕ, (Expr.sym x.1, x.2) = f := by
        intro f hf
        obtain ⟨x, _, hx⟩ := List.mem_map.1 (hp.mem_iff.1 hf)
        exact ⟨x, hx⟩
      clear h hp
      induction P with
      | nil => exact ⟨[], rfl⟩
      | cons f P ih =>
        obtain ⟨K', rfl⟩ := ih fun g hg => hm g (by simp [hg])
        obtain ⟨x, hx⟩ := hm f (by simp)
        exact ⟨x :: K', by rw [← hx]; rfl⟩
    obtain ⟨K', rfl⟩ := this
    refine h.sorted K' (fun x hx => hK x ?_) rfl
    have := hp.mem_iff.1 (List.mem_map_of_mem (f := fun x : Sym × ℕ => ((Expr.sym x.1 : Expr D), x.2)) hx)
    obtain ⟨y, hy, e⟩ := List.mem_map.1 this
    simp only [Prod.mk.injEq, Expr.sym.injEq] at e
    rwa [← Prod.ext e.1 e.2]

end

end Tsym
