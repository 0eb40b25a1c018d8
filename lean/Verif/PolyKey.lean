import Verif.PolyTwo

set_option autoImplicit false
set_option linter.unusedSectionVars false
set_option linter.unusedSimpArgs false
set_option linter.unusedVariables false

/-!
# The order of monomials
-/

namespace Tsym

open Expr

/-- Rational numbers are compared exactly (the comparison of numbers goes through double, number.cpp:225-231). -/
class ExactLt (D : Type) [Flt D] : Prop where
  lt_rat : ∀ p q : ℚ, Flt.lt (Flt.ofRat p : D) (Flt.ofRat q) = decide (p < q)

instance {D : Type} [Flt D] [LawfulFlt D] : ExactLt D where
  lt_rat p q := by
    rw [Bool.eq_iff_iff, LawfulFlt.lt, LawfulFlt.ofRat, LawfulFlt.ofRat, decide_eq_true_eq]
    exact_mod_cast Iff.rfl

/-- Powers of symbols: by symbol, then by exponent. -/
def facLt (x y : Sym × ℕ) : Bool := symLt x.1 y.1 || (decide (x.1 = y.1) && decide (x.2 < y.2))

/-- The lexicographic order. -/
def lexK : Key → Key → Bool
  | _, [] => false
  | [], _ :: _ => true
  | x :: K, y :: L => facLt x y || (decide (x = y) && lexK K L)

/-- The order of monomials: from the last factor. -/
def keyLt (K L : Key) : Bool := lexK K.reverse L.reverse

theorem facLt_irrefl (x : Sym × ℕ) : facLt x x = false := by simp [facLt, symLt_irrefl]

theorem facLt_asymm {x y : Sym × ℕ} (h : facLt x y = true) : facLt y x = false := by
  simp only [facLt] at *
  grind [symLt_asymm, symLt_irrefl]

theorem facLt_trans {x y z : Sym × ℕ} (h : facLt x y = true) (h' : facLt y z = true) : facLt x z = true := by
  simp only [facLt] at *
  grind [symLt_asymm, symLt_irrefl, symLt_trans]

theorem facLt_total {x y : Sym × ℕ} (hx : x.1.id.Ok) (hy : y.1.id.Ok) (h : facLt x y = false) (h' : facLt y x = false) :
    x = y := by
  simp only [facLt, Bool.or_eq_false_iff, Bool.and_eq_false_iff, decide_eq_false_iff_not] at h h'
  have e := symLt_total hx hy h.1 h'.1
  refine Prod.ext e ?_
  have := h.2; have := h'.2
  simp only [e, not_true, false_or, not_lt] at *
  omega

theorem lexK_irrefl (K : Key) : lexK K K = false := by
  induction K with
  | nil => rfl
  | cons x K ih => simp [lexK, facLt_irrefl, ih]

theorem lexK_asymm : ∀ {K L : Key}, lexK K L = true → lexK L K = false
  | [], [] => by simp [lexK]
  | [], _ :: _ => by simp [lexK]
  | _ :: _, [] => by simp [lexK]
  | x :: K, y :: L => by
    have ih := @lexK_asymm K L
    simp only [lexK]
    grind [facLt_asymm, facLt_irrefl]

theorem lexK_trans : ∀ {K L M : Key}, lexK K L = true → lexK L M = true → lexK K M = true
  | _, _, [] => by intro h h'; unfold lexK at h'; cases h'
  | _, [], _ => by intro h h'; unfold lexK at h; cases h
  | [], _ :: _, _ :: _ => by simp [lexK]
  | x :: K, y :: L, z :: M => by
    have ih := @lexK_trans K L M
    simp only [lexK]
    grind [facLt_asymm, facLt_irrefl, facLt_trans]

theorem lexK_total : ∀ {K L : Key}, K.Ok → L.Ok → lexK K L = false → lexK L K = false → K = L
  | [], [] => by simp
  | [], _ :: _ => by simp [lexK]
  | _ :: _, [] => by simp [lexK]
  | x :: K, y :: L => by
    intro hK hL h h'
    simp only [lexK, Bool.or_eq_false_iff, Bool.and_eq_false_iff, decide_eq_false_iff_not] at h h'
    have e := facLt_total (hK x (by simp)).1 (hL y (by simp)).1 h.1 h'.1
    have h2 := h.2; have h3 := h'.2
    subst e
    simp only [not_true, false_or] at h2 h3
    rw [lexK_total (fun z hz => hK z (by simp [hz])) (fun z hz => hL z (by simp [hz])) h2 h3]

theorem Key.Ok.reverse {K : Key} (h : K.Ok) : Key.Ok K.reverse := fun x hx => h x (List.mem_reverse.1 hx)

theorem keyLt_irrefl (K : Key) : keyLt K K = false := lexK_irrefl _
theorem keyLt_asymm {K L : Key} (h : keyLt K L = true) : keyLt L K = false := lexK_asymm h
theorem keyLt_trans {K L M : Key} (h : keyLt K L = true) (h' : keyLt L M = true) : keyLt K M = true := lexK_trans h h'
theorem keyLt_total {K L : Key} (hK : K.Ok) (hL : L.Ok) (h : keyLt K L = false) (h' : keyLt L K = false) : K = L :=
  List.reverse_injective (lexK_total hK.reverse hL.reverse h h')

theorem keyLt_not {K L : Key} (hK : K.Ok) (hL : L.Ok) (h : K ≠ L) : (!keyLt K L) = keyLt L K := by
  cases h1 : keyLt K L
  · cases h2 : keyLt L K
    · exact absurd (keyLt_total hK hL h1 h2) h
    · rfl
  · rw [keyLt_asymm h1]; rfl

variable {D : Type} [Flt D] [ExactLt D] {cfg : Cfg D}

/-- The factor of a symbol. -/
def symFac (x : Sym × ℕ) : Expr D := fac (.sym x.1, x.2)

theorem Key.facs_map (K : Key) : (K.facs : List (Expr D × ℕ)).map fac = K.map symFac := by
  simp [Key.facs, symFac]

theorem lt_rat (p q : ℚ) : (Number.rat p : Number D).lt (.rat q) = decide (p < q) := ExactLt.lt_rat p q

theorem symFac_inj {x y : Sym × ℕ} (hx : 1 ≤ x.2) (hy : 1 ≤ y.2) (h : (symFac x : Expr D) = symFac y) : x = y := by
  unfold symFac fac at h
  simp only at h
  split at h <;> split at h
  · exact Prod.ext (by simpa using h) (by omega)
  · cases h
  · cases h
  · simp only [Expr.pow.injEq, Expr.sym.injEq, int, Expr.num.injEq, Number.rat.injEq] at h
    exact Prod.ext h.1 (by exact_mod_cast h.2)

theorem exact_symFac {x : Sym × ℕ} (hx : 1 ≤ x.2) : Exact (symFac x : Expr D) :=
  PFac.exact (cfg := Cfg.std 0) ⟨pbase_sym _, hx⟩

theorem permute_num_num (p q : ℚ) : doPermute (.num (.rat p) : Expr D) (.num (.rat q)) = decide (q < p) := by
  rw [doPermute_eq]; simp [permStep, permSame, lt_rat]

theorem permute_symFac {x y : Sym × ℕ} (hx : x.1.id.Ok ∧ 1 ≤ x.2) (hy : y.1.id.Ok ∧ 1 ≤ y.2) (hne : x ≠ y) :
    doPermute (symFac x : Expr D) (symFac y) = facLt y x := by
  by_cases h : x.1 = y.1
  · obtain ⟨s, j⟩ := x
    obtain ⟨t, k⟩ := y
    simp only at h hx hy
    subst h
    have hjk : j ≠ k := fun e => hne (by rw [e])
    have he : isEqual (.sym s : Expr D) (.sym s) = true := isEqual_refl (exact_sym _)
    simp only [facLt, symLt_irrefl, Bool.false_or, decide_true, Bool.true_and]
    unfold symFac fac
    simp only
    split <;> split
    · omega
    · rename_i h1 h2
      have : 1 < k := by omega
      rw [doPermute_eq]; simp [permStep, permSame, permDiff, he, int, one_eq, permute_num_num, this]; omega
    · rename_i h1 h2
      rw [doPermute_eq]; simp [permStep, permSame, permDiff, he, int, one_eq, permute_num_num, h2]
    · rw [doPermute_eq]; simp [permStep, permSame, permDiff, he, int, permute_num_num]
  · rw [symFac, symFac, permute_fac_sym hx.1 hy.1 h, facLt]
    have : y.1 ≠ x.1 := fun e => h e.symm
    simp [this]

/-- The comparison of operands (order.cpp:118-125). -/
def opLt (x y : Expr D) : Bool := !isEqual x y && !doPermute x y

theorem opLt_symFac {x y : Sym × ℕ} (hx : x.1.id.Ok ∧ 1 ≤ x.2) (hy : y.1.id.Ok ∧ 1 ≤ y.2) :
    opLt (symFac x : Expr D) (symFac y) = facLt x y := by
  unfold opLt
  by_cases h : x = y
  · subst h; rw [isEqual_refl (exact_symFac hx.2), facLt_irrefl]; rfl
  · rw [isEqual_ne (exact_symFac hx.2) (exact_symFac hy.2) (fun e => h (symFac_inj hx.2 hy.2 e)), permute_symFac hx hy h]
    cases h1 : facLt x y
    · cases h2 : facLt y x
      · exact absurd (facLt_total hx.1 hy.1 h1 h2) h
      · rfl
    · rw [facLt_asymm h1]; rfl

theorem symFac_ne_num (x : Sym × ℕ) (n : Number D) : (symFac x : Expr D) ≠ .num n := by
  unfold symFac fac; split <;> simp

theorem permute_num_symFac (q : ℚ) (x : Sym × ℕ) : doPermute (.num (.rat q) : Expr D) (symFac x) = false := by
  rw [doPermute_eq]; unfold symFac fac; split <;> simp [permStep, permSame, permDiff]

theorem permute_symFac_num (q : ℚ) (x : Sym × ℕ) : doPermute (symFac x : Expr D) (.num (.rat q)) = true := by
  rw [doPermute_eq]; unfold symFac fac; split <;> simp [permStep, permSame, permDiff]

theorem opLt_num_symFac (q : ℚ) {x : Sym × ℕ} (hx : 1 ≤ x.2) : opLt (.num (.rat q) : Expr D) (symFac x) = true := by
  rw [opLt, permute_num_symFac, isEqual_ne (exact_ratE q) (exact_symFac hx) (symFac_ne_num _ _).symm]; rfl

theorem opLt_symFac_num (q : ℚ) {x : Sym × ℕ} (hx : 1 ≤ x.2) : opLt (symFac x : Expr D) (.num (.rat q)) = false := by
  rw [opLt, permute_symFac_num]; simp

/-- The coefficient at the end of the reversed operands. -/
def coefTail (q : ℚ) : List (Expr D) := if q = 1 then [] else [.num (.rat q)]

theorem lexCmp_keys (p q : ℚ) : ∀ {K L : Key}, K.Ok → L.Ok → K ≠ L →
    lexCmp opLt (K.map symFac ++ coefTail p : List (Expr D)) (L.map symFac ++ coefTail q) = lexK K L
  | [], [] => by intro _ _ h; exact absurd rfl h
  | [], y :: L => by
    intro _ hL _
    unfold coefTail
    split
    · simp [lexCmp, lexK]
    · simp [lexCmp, lexK, opLt_num_symFac p (hL y (by simp)).2]
  | x :: K, [] => by
    intro hK _ _
    by_cases hq : q = 1
    · simp [coefTail, hq, lexCmp, lexK]
    · simp [coefTail, hq, lexCmp, lexK, opLt_num_symFac q (hK x (by simp)).2, opLt_symFac_num q (hK x (by simp)).2]
  | x :: K, y :: L => by
    intro hK hL h
    have hx := hK x (by simp)
    have hy := hL y (by simp)
    simp only [List.map_cons, List.cons_append, lexCmp, lexK, opLt_symFac hx hy, opLt_symFac hy hx]
    by_cases e : x = y
    · subst e
      simp only [facLt_irrefl, Bool.false_eq_true, if_false, decide_true, Bool.true_and, Bool.false_or]
      exact lexCmp_keys p q (fun z hz => hK z (by simp [hz])) (fun z hz => hL z (by simp [hz])) (fun e => h (by rw [e]))
    · cases h1 : facLt x y
      · cases h2 : facLt y x
        · exact absurd (facLt_total hx.1 hy.1 h1 h2) e
        · simp [e]
      · simp

theorem rl_reverse (q : ℚ) (K : Key) : (rl q (K.facs : List (Expr D × ℕ))).reverse = K.reverse.map symFac ++ coefTail q := by
  rw [rl, Key.facs_map, List.reverse_append, List.map_reverse]
  unfold coefTail
  split <;> simp

theorem permLast_rl {q : ℚ} {K : Key} (hK : K.Ok) (hne : K ≠ []) {y : Sym × ℕ} (hy : y.1.id.Ok ∧ 1 ≤ y.2) (h : K ≠ [y]) :
    permLast doPermute (rl q (K.facs : List (Expr D × ℕ))) (symFac y) = keyLt [y] K := by
  obtain ⟨K, x, rfl⟩ := List.eq_nil_or_concat K |>.resolve_left hne
  rw [List.concat_eq_append] at hK h ⊢
  have hx := hK x (by simp)
  have : (rl q (Key.facs (K ++ [x]) : List (Expr D × ℕ))).getLast? = some (symFac x) := by
    rw [← List.head?_reverse, rl_reverse]; simp
  simp only [permLast, this, keyLt, List.reverse_append, List.reverse_singleton, List.singleton_append, lexK]
  by_cases e : x = y
  · subst e
    rw [isEqual_refl (exact_symFac hx.2)]
    have hK' : K ≠ [] := fun e => h (by rw [e]; rfl)
    have : lexK [] K.reverse = true := by
      cases hr : K.reverse with
      | nil => exact absurd (List.reverse_eq_nil_iff.1 hr) hK'
      | cons a b => rfl
    simp [this]
  · rw [isEqual_ne (exact_symFac hx.2) (exact_symFac hy.2) (fun e' => e (symFac_inj hx.2 hy.2 e'))]
    have : ¬ y = x := fun e' => e e'.symm
    simp [permute_symFac hx hy e, this]

/-- Monomials with different symbols or exponents are ordered by these. -/
theorem permute_mexpr {p q : ℚ} {K L : Key} (hK : K.Ok) (hL : L.Ok) (h : K ≠ L) :
    doPermute (mexpr p K.facs : Expr D) (mexpr q L.facs) = keyLt L K := by
  have nil_iff : ∀ K : Key, (K.facs : List (Expr D × ℕ)) = [] ↔ K = [] := fun K => by simp [Key.facs]
  have single : ∀ (K : Key) (f : Expr D × ℕ), (K.facs : List (Expr D × ℕ)) = [f] → ∃ x, K = [x] ∧ fac f = symFac x := by
    intro K f h
    match K with
    | [] => simp [Key.facs] at h
    | [x] => simp [Key.facs] at h; exact ⟨x, rfl, by rw [← h]; rfl⟩
    | _ :: _ :: _ => simp [Key.facs] at h
  have dp : ∀ (l : List (Expr D)) (y : Sym × ℕ), doPermute (.prod l : Expr D) (symFac y) = permLast doPermute l (symFac y) := by
    intro l y
    rw [doPermute_eq]; unfold symFac fac; split <;> simp [permStep, permSame, permDiff]
  have pd : ∀ (l : List (Expr D)) (y : Sym × ℕ), doPermute (symFac y) (.prod l : Expr D) = !permLast doPermute l (symFac y) := by
    intro l y
    rw [doPermute_eq]; unfold symFac fac; split <;> simp [permStep, permSame, permDiff]
  rcases mexpr_cases p (K.facs : List (Expr D × ℕ)) with ⟨e1, e⟩ | ⟨f, e1, _, e⟩ | ⟨e1, _, e⟩ <;>
  rcases mexpr_cases q (L.facs : List (Expr D × ℕ)) with ⟨e1', e'⟩ | ⟨f', e1', _, e'⟩ | ⟨e1', _, e'⟩
  · exact absurd (((nil_iff K).1 e1).trans ((nil_iff L).1 e1').symm) h
  · obtain ⟨y, rfl, ey⟩ := single L f' e1'
    have := (nil_iff K).1 e1
    subst this
    rw [e, e', ey, permute_num_symFac]; rfl
  · have := (nil_iff K).1 e1
    subst this
    rw [e, e', doPermute_eq]; simp [permStep, permSame, permDiff, keyLt, lexK]
  · obtain ⟨x, rfl, ex⟩ := single K f e1
    have := (nil_iff L).1 e1'
    subst this
    rw [e, e', ex, permute_symFac_num]; rfl
  · obtain ⟨x, rfl, ex⟩ := single K f e1
    obtain ⟨y, rfl, ey⟩ := single L f' e1'
    rw [e, e', ex, ey, permute_symFac (hK x (by simp)) (hL y (by simp)) (fun e => h (by rw [e]))]
    simp [keyLt, lexK]
  · obtain ⟨x, rfl, ex⟩ := single K f e1
    rw [e, e', ex, pd, permLast_rl hL (fun e => e1' ((nil_iff _).2 e)) (hK x (by simp)) h.symm, keyLt_not hK hL h]
  · have := (nil_iff L).1 e1'
    subst this
    have hr : K.reverse ≠ [] := fun e => e1 ((nil_iff K).2 (List.reverse_eq_nil_iff.1 e))
    rw [e, e', doPermute_eq]
    simp only [permStep, permSame, permDiff, keyLt, List.reverse_nil]
    cases hh : K.reverse with
    | nil => exact absurd hh hr
    | cons a b => rfl
  · obtain ⟨y, rfl, ey⟩ := single L f' e1'
    rw [e, e', ey, dp, permLast_rl hK (fun e => e1 ((nil_iff _).2 e)) (hL y (by simp)) h]
  · rw [e, e', doPermute_eq]
    simp only [permStep, permSame, permLists]
    rw [rl_reverse, rl_reverse]
    exact lexCmp_keys q p hL.reverse hK.reverse (fun e => h (List.reverse_injective e).symm)

end Tsym
