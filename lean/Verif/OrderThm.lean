import Verif.ExprThm

set_option autoImplicit false
set_option linter.unusedSectionVars false
set_option linter.unusedSimpArgs false

/-!
# The order of operands: lemmas
-/

namespace Tsym

/-! ## Names -/

/-- The number a string of digits stands for. -/
def strVal (s : Str) : Nat := s.foldl (fun a c => a * 10 + (c.toNat - 48)) 0

theorem digit_toNat {n : Nat} (h : n < 10) : (digit n).toNat - 48 = n := by
  have : ∀ m < 10, (digit m).toNat - 48 = m := by decide
  exact this n h

theorem strVal_natStrAux (k : Nat) : ∀ n, n ≤ k → strVal (natStrAux k n) = n := by
  induction k with
  | zero => intro n h; obtain rfl : n = 0 := by omega
            decide
  | succ k ih =>
    intro n h
    simp only [natStrAux]
    split
    · rename_i h10
      simp only [strVal, List.foldl_cons, List.foldl_nil]
      rw [digit_toNat h10]; simp
    · rename_i h10
      have h1 : n / 10 ≤ k := by omega
      have := ih (n / 10) h1
      simp only [strVal, List.foldl_append, List.foldl_cons, List.foldl_nil] at this ⊢
      rw [this, digit_toNat (Nat.mod_lt _ (by norm_num))]
      omega

theorem strVal_natStr (n : Nat) : strVal (natStr n) = n := strVal_natStrAux n n (le_refl _)

theorem natStr_inj {m n : Nat} (h : natStr m = natStr n) : m = n := by
  rw [← strVal_natStr m, ← strVal_natStr n, h]

theorem Str.lt_irrefl (a : Str) : Str.lt a a = false := by
  induction a with
  | nil => rfl
  | cons c a ih => simp [Str.lt, ih]

theorem Str.lt_asymm {a : Str} : ∀ {b : Str}, Str.lt a b = true → Str.lt b a = false := by
  induction a with
  | nil => intro b _; cases b <;> simp [Str.lt]
  | cons c a ih =>
    intro b h
    cases b with
    | nil => simp [Str.lt] at h
    | cons d b =>
      simp only [Str.lt] at h ⊢
      split at h
      · rename_i h1; rw [if_neg (by omega), if_pos h1]
      · split at h
        · simp at h
        · rename_i h1 h2; rw [if_neg h2, if_neg h1]; exact ih h

theorem Str.lt_total {a : Str} : ∀ {b : Str}, Str.lt a b = false → Str.lt b a = false → a = b := by
  induction a with
  | nil => intro b h1 _; cases b <;> simp_all [Str.lt]
  | cons c a ih =>
    intro b h1 h2
    cases b with
    | nil => simp [Str.lt] at h2
    | cons d b =>
      simp only [Str.lt] at h1 h2
      split at h1
      · simp at h1
      · rename_i n1
        split at h1
        · rename_i n2; rw [if_pos n2] at h2; simp at h2
        · rename_i n2
          rw [if_neg n2, if_neg n1] at h2
          have : c = d := Char.ext (UInt32.toNat.inj (by
            show c.toNat = d.toNat
            omega))
          rw [this, ih h1 h2]

theorem Name.lt_irrefl (a : Name) : Name.lt a a = false := by
  simp [Name.lt, Str.lt_irrefl]

theorem Name.lt_asymm {a b : Name} (h : Name.lt a b = true) : Name.lt b a = false := by
  simp only [Name.lt] at h ⊢
  split at h
  · rename_i h1; simp [h1, Str.lt_asymm h1]
  · rename_i h1
    split at h
    · simp at h
    · rename_i h2
      simp only [Bool.not_eq_true] at h1 h2
      simp only [h1, h2, Bool.false_eq_true, if_false]
      split at h
      · rename_i h3; simp [h3, Str.lt_asymm h3]
      · rename_i h3
        split at h
        · simp at h
        · rename_i h4
          simp only [Bool.not_eq_true] at h3 h4
          simp only [h3, h4, Bool.false_eq_true, if_false]
          exact Str.lt_asymm h

theorem Name.lt_total {a b : Name} (h : Name.lt a b = false) (h' : Name.lt b a = false) : a = b := by
  obtain ⟨v, s, t⟩ := a
  obtain ⟨v', s', t'⟩ := b
  simp only [Name.lt] at h h'
  have e1 : v = v' := by
    apply Str.lt_total
    · by_contra hc; simp only [Bool.not_eq_false] at hc; simp [hc] at h
    · by_contra hc; simp only [Bool.not_eq_false] at hc; simp [hc] at h'
  subst e1
  simp only [Str.lt_irrefl, Bool.false_eq_true, if_false] at h h'
  have e2 : s = s' := by
    apply Str.lt_total
    · by_contra hc; simp only [Bool.not_eq_false] at hc; simp [hc] at h
    · by_contra hc; simp only [Bool.not_eq_false] at hc; simp [hc] at h'
  subst e2
  simp only [Str.lt_irrefl, Bool.false_eq_true, if_false] at h h'
  rw [Str.lt_total h h']

/-- A named symbol whose name does not start with the prefix of temporary symbols. Symbol::create
(symbol.cpp:48-61) makes no other named symbols. -/
def SymId.Ok : SymId → Prop
  | .named n => ¬ tmpPrefix <+: n.value
  | .tmp _ => True

theorem SymId.name_inj {a b : SymId} (ha : a.Ok) (hb : b.Ok) (h : a.name = b.name) : a = b := by
  cases a with
  | named n =>
    cases b with
    | named m => simp only [name] at h; rw [h]
    | tmp k =>
      simp only [name] at h
      exact absurd ⟨natStr k, by rw [h]⟩ ha
  | tmp k =>
    cases b with
    | named m =>
      simp only [name] at h
      exact absurd ⟨natStr k, by rw [← h]⟩ hb
    | tmp j =>
      simp only [name, Name.mk.injEq, List.append_cancel_left_eq, and_true] at h
      rw [natStr_inj h]

namespace Expr

variable {D : Type} [Flt D]

/-! ## Fuel of doPermute -/

theorem size_pos (e : Expr D) : 0 < size e := by cases e <;> simp [size]

theorem size_mem {l : List (Expr D)} {x : Expr D} (h : x ∈ l) : size x ≤ sizeList l := by
  induction l with
  | nil => simp at h
  | cons a l ih =>
    simp only [sizeList]
    rcases List.mem_cons.mp h with rfl | h
    · omega
    · have := ih h; omega

theorem lexCmp_congr {c d : Expr D → Expr D → Bool} : ∀ {l m : List (Expr D)},
    (∀ x ∈ l, ∀ y ∈ m, c x y = d x y ∧ c y x = d y x) → lexCmp c l m = lexCmp d l m := by
  intro l
  induction l with
  | nil => intro m _; cases m <;> rfl
  | cons a l ih =>
    intro m h
    cases m with
    | nil => rfl
    | cons b m =>
      simp only [lexCmp]
      rw [(h a (by simp) b (by simp)).1, (h a (by simp) b (by simp)).2,
        ih (fun x hx y hy => h x (by simp [hx]) y (by simp [hy]))]

/-- Two orders agree on all pairs that are smaller than `n` together. -/
def Agree (n : Nat) (p q : Expr D → Expr D → Bool) : Prop :=
  ∀ x y, size x + size y < n → p x y = q x y

theorem permLists_congr {p q : Expr D → Expr D → Bool} {n : Nat} (h : Agree n p q)
    {l m : List (Expr D)} (hs : sizeList l + sizeList m < n) : permLists p l m = permLists q l m := by
  unfold permLists
  apply lexCmp_congr
  intro x hx y hy
  rw [List.mem_reverse] at hx hy
  have := size_mem hx
  have := size_mem hy
  rw [h x y (by omega), h y x (by omega)]
  exact ⟨rfl, rfl⟩

theorem permLast_congr {p q : Expr D → Expr D → Bool} {n : Nat} (h : Agree n p q)
    {l : List (Expr D)} {r : Expr D} (hs : sizeList l + size r < n) :
    permLast p l r = permLast q l r := by
  unfold permLast
  cases hl : l.getLast? with
  | none => rfl
  | some x =>
    have := size_mem (List.mem_of_getLast? hl)
    simp only
    rw [h x r (by omega)]

theorem permSame_congr {p q : Expr D → Expr D → Bool} {l r : Expr D}
    (h : Agree (size l + size r) p q) : permSame p l r = permSame q l r := by
  cases l <;> cases r <;> simp only [permSame]
  case sum.sum l m =>
    rw [permLists_congr h (by simp only [size]; omega)]
  case prod.prod l m =>
    rw [permLists_congr h (by simp only [size]; omega)]
  case pow.pow b e c f =>
    rw [h b c (by simp only [size]; omega), h e f (by simp only [size]; omega)]
  case fn.fn f a g b => rw [h a b (by simp only [size]; omega)]
  case atan2.atan2 y x z w => rw [h y z (by simp only [size]; omega)]

theorem permDiff_congr {p q : Expr D → Expr D → Bool} {l r : Expr D}
    (h : Agree (size l + size r) p q) : permDiff p l r = permDiff q l r := by
  have hp := size_pos r
  cases l with
  | prod l =>
    cases r <;> simp only [permDiff] <;> rw [permLast_congr h (by simp only [size]; omega)]
  | sum l =>
    cases r <;> simp only [permDiff] <;> rw [permLast_congr h (by simp only [size]; omega)]
  | pow b e =>
    have h1 : p b r = q b r := h b r (by simp only [size]; omega)
    have h2 : p e one = q e one := h e one (by
      have := size_pos b
      simp only [size, one]; omega)
    cases r <;> simp only [permDiff, h1, h2]
  | _ => cases r <;> rfl

theorem permFuel_stable (n : Nat) : ∀ (m : Nat) (l r : Expr D), size l + size r ≤ n →
    size l + size r ≤ m → permFuel n l r = permFuel m l r := by
  induction n with
  | zero => intro m l r h; have := size_pos l; omega
  | succ n ih =>
    intro m l r hn hm
    cases m with
    | zero => have := size_pos l; omega
    | succ m =>
      have hag : Agree (size l + size r) (permFuel (D := D) n) (permFuel m) :=
        fun x y hxy => ih m x y (by omega) (by omega)
      have hag' : Agree (size r + size l) (permFuel (D := D) n) (permFuel m) :=
        fun x y hxy => ih m x y (by omega) (by omega)
      simp only [permFuel, permStep]
      rw [permSame_congr hag, permDiff_congr hag, permDiff_congr hag']

/-- The recursion equation of doPermute; the fuel does not show. -/
theorem doPermute_eq (l r : Expr D) : doPermute l r = permStep doPermute l r := by
  have hl := size_pos l
  have hr := size_pos r
  have key : doPermute l r = permFuel (size l + size r - 1 + 1) l r := by
    unfold doPermute
    exact permFuel_stable _ _ _ _ (le_refl _) (by omega)
  have hag : ∀ k, k = size l + size r →
      Agree k (permFuel (D := D) (size l + size r - 1)) doPermute := by
    intro k hk x y hxy
    unfold doPermute
    exact permFuel_stable _ _ _ _ (by omega) (le_refl _)
  rw [key]
  simp only [permFuel, permStep]
  rw [permSame_congr (hag _ rfl), permDiff_congr (hag _ rfl),
    permDiff_congr (hag (size r + size l) (by omega))]

/-! ## Totality and asymmetry -/

/-- Two expressions are in one of three relations: equal and not ordered, or different and ordered
in exactly one way. -/
def Trich (p : Expr D → Expr D → Bool) (a b : Expr D) : Prop :=
  (isEqual a b = true ∧ isEqual b a = true ∧ p a b = false ∧ p b a = false) ∨
  (isEqual a b = false ∧ isEqual b a = false ∧ p a b = !p b a)

/-- Specification: no Undefined and no atan2 anywhere, and no named symbol that looks like a
temporary one. -/
def Orderable (e : Expr D) : Prop :=
  ∀ x, Occurs x e → x ≠ undef ∧ (∀ u v, x ≠ atan2 u v) ∧ ∀ s, x = sym s → s.id.Ok

theorem Orderable.op {o e : Expr D} (h : Orderable e) (ho : o ∈ operands e) : Orderable o :=
  fun x hx => h x (.op ho hx)

theorem trich_lists {p : Expr D → Expr D → Bool} : ∀ {l m : List (Expr D)},
    (∀ x ∈ l, ∀ y ∈ m, Trich p x y) →
    let c : Expr D → Expr D → Bool := fun x y => !isEqual x y && !p x y
    (areEqual l m = true ∧ areEqual m l = true ∧ lexCmp c l m = false ∧ lexCmp c m l = false) ∨
    (areEqual l m = false ∧ areEqual m l = false ∧ lexCmp c l m = !lexCmp c m l) := by
  intro l
  induction l with
  | nil => intro m _; cases m <;> simp [areEqual, lexCmp]
  | cons a l ih =>
    intro m h
    cases m with
    | nil => simp [areEqual, lexCmp]
    | cons b m =>
      have hab := h a (by simp) b (by simp)
      have hlm := ih (m := m) (fun x hx y hy => h x (by simp [hx]) y (by simp [hy]))
      simp only [areEqual, lexCmp] at hlm ⊢
      rcases hab with ⟨h1, h2, h3, h4⟩ | ⟨h1, h2, h3⟩
      · simpa [h1, h2, h3, h4] using hlm
      · right
        rcases Bool.eq_false_or_eq_true (p b a) with hp | hp <;> simp [h1, h2, h3, hp]

/-- `permLists` looks at the lists from behind. -/
theorem areEqual_append {l m l' m' : List (Expr D)} (hlen : l.length = m.length) :
    areEqual (l ++ l') (m ++ m') = (areEqual l m && areEqual l' m') := by
  induction l generalizing m with
  | nil =>
    cases m with
    | nil => simp [areEqual]
    | cons _ _ => simp at hlen
  | cons a l ih =>
    cases m with
    | nil => simp at hlen
    | cons b m =>
      simp only [List.cons_append, areEqual]
      rw [ih (by simpa using hlen), Bool.and_assoc]

theorem areEqual_length {l m : List (Expr D)} (h : areEqual l m = true) : l.length = m.length := by
  induction l generalizing m with
  | nil => cases m <;> simp_all [areEqual]
  | cons a l ih =>
    cases m with
    | nil => simp [areEqual] at h
    | cons b m =>
      simp only [areEqual, Bool.and_eq_true] at h
      simp [ih h.2]

theorem areEqual_reverse (l : List (Expr D)) : ∀ m : List (Expr D),
    areEqual l.reverse m.reverse = areEqual l m := by
  intro m
  by_cases hlen : l.length = m.length
  · induction l generalizing m with
    | nil =>
      cases m with
      | nil => rfl
      | cons _ _ => simp at hlen
    | cons a l ih =>
      cases m with
      | nil => simp at hlen
      | cons b m =>
        have hl : l.length = m.length := by simpa using hlen
        rw [List.reverse_cons, List.reverse_cons, areEqual_append (by simpa using hl), ih m hl]
        simp [areEqual, Bool.and_comm]
  · have h1 : areEqual l m = false := by
      by_contra hc
      exact hlen (areEqual_length (by simpa using hc))
    have h2 : areEqual l.reverse m.reverse = false := by
      by_contra hc
      have := areEqual_length (Bool.eq_true_of_not_eq_false hc)
      exact hlen (by simpa using this)
    rw [h1, h2]

end Expr

namespace Expr

variable {D : Type} [Flt D] [LawfulFlt D]

theorem trich_permLists {p : Expr D → Expr D → Bool} {l m : List (Expr D)}
    (h : ∀ x ∈ l, ∀ y ∈ m, Trich p x y) :
    (areEqual l m = true ∧ areEqual m l = true ∧ permLists p l m = false ∧ permLists p m l = false) ∨
    (areEqual l m = false ∧ areEqual m l = false ∧ permLists p l m = !permLists p m l) := by
  have := trich_lists (p := p) (l := l.reverse) (m := m.reverse)
    (fun x hx y hy => h x (by simpa using hx) y (by simpa using hy))
  simp only [areEqual_reverse] at this
  unfold permLists
  rcases this with ⟨h1, h2, h3, h4⟩ | ⟨h1, h2, h3⟩
  · exact .inl ⟨h1, h2, h4, h3⟩
  · refine .inr ⟨h1, h2, ?_⟩
    rw [h3, Bool.not_not]

theorem trich_aux (n : Nat) : ∀ a b : Expr D, size a + size b ≤ n → Orderable a → Orderable b →
    Trich doPermute a b := by
  induction n with
  | zero => intro a b h; have := size_pos a; omega
  | succ n ih =>
    intro a b hn ha hb
    have hao : ∀ o ∈ operands a, Orderable o := fun o ho => ha.op ho
    have hbo : ∀ o ∈ operands b, Orderable o := fun o ho => hb.op ho
    have ha0 := ha _ .refl
    have hb0 := hb _ .refl
    clear ha hb
    unfold Trich
    rw [doPermute_eq a b, doPermute_eq b a]
    cases a with
    | undef => exact absurd rfl ha0.1
    | atan2 y x => exact absurd rfl (ha0.2.1 y x)
    | num m =>
      cases b with
      | undef => exact absurd rfl hb0.1
      | num k =>
        simp only [isEqual, permStep, permSame]
        rcases lt_trichotomy m.val k.val with h | h | h
        · right
          rw [(Number.eqv_false _ _).2 h.ne, (Number.eqv_false _ _).2 h.ne', (Number.lt_false _ _).2 h.le,
            (Number.lt_iff _ _).2 h]
          simp
        · left
          rw [(Number.eqv_iff _ _).2 h, (Number.eqv_iff _ _).2 h.symm, (Number.lt_false _ _).2 h.le,
            (Number.lt_false _ _).2 h.ge]
          simp
        · right
          rw [(Number.eqv_false _ _).2 h.ne', (Number.eqv_false _ _).2 h.ne, (Number.lt_false _ _).2 h.le,
            (Number.lt_iff _ _).2 h]
          simp
      | _ => right; simp [isEqual, permStep, permSame, permDiff]
    | sym s =>
      cases b with
      | undef => exact absurd rfl hb0.1
      | atan2 y x => exact absurd rfl (hb0.2.1 y x)
      | sym t =>
        have hs := ha0.2.2 s rfl
        have ht := hb0.2.2 t rfl
        simp only [isEqual, permStep, permSame, permSym]
        by_cases hst : s = t
        · left; subst hst; simp [Name.lt_irrefl]
        · right
          have hts : ¬ t = s := fun h => hst h.symm
          simp only [hst, hts, decide_false, true_and]
          by_cases hn : s.id.name = t.id.name
          · have hid := SymId.name_inj hs ht hn
            have hp : s.positive ≠ t.positive := by
              intro hp
              apply hst
              cases s; cases t
              simp only [Sym.mk.injEq]
              exact ⟨hid, hp⟩
            rw [if_pos ⟨hn, hp⟩, if_pos ⟨hn.symm, hp.symm⟩]
            revert hp
            cases s.positive <;> cases t.positive <;> simp
          · rw [if_neg (fun h => hn h.1), if_neg (fun h => hn h.1.symm)]
            by_cases h1 : Name.lt t.id.name s.id.name = true
            · rw [h1, Name.lt_asymm h1]; rfl
            · simp only [Bool.not_eq_true] at h1
              by_cases h2 : Name.lt s.id.name t.id.name = true
              · rw [h1, h2]; rfl
              · simp only [Bool.not_eq_true] at h2
                exact absurd (Name.lt_total h2 h1) hn
      | _ => right; simp [isEqual, permStep, permSame, permDiff]
    | cst c =>
      cases b with
      | undef => exact absurd rfl hb0.1
      | cst d =>
        simp only [isEqual, permStep, permSame]
        cases c <;> cases d <;> decide
      | _ => right; simp [isEqual, permStep, permSame, permDiff]
    | sum l =>
      cases b with
      | undef => exact absurd rfl hb0.1
      | atan2 y x => exact absurd rfl (hb0.2.1 y x)
      | sum m =>
        simp only [isEqual, permStep, permSame]
        apply trich_permLists
        intro x hx y hy
        have := size_mem hx
        have := size_mem hy
        exact ih x y (by simp only [size] at hn; omega) (hao x hx) (hbo y hy)
      | _ => right; simp [isEqual, permStep, permSame, permDiff]
    | prod l =>
      cases b with
      | undef => exact absurd rfl hb0.1
      | atan2 y x => exact absurd rfl (hb0.2.1 y x)
      | prod m =>
        simp only [isEqual, permStep, permSame]
        apply trich_permLists
        intro x hx y hy
        have := size_mem hx
        have := size_mem hy
        exact ih x y (by simp only [size] at hn; omega) (hao x hx) (hbo y hy)
      | _ => right; simp [isEqual, permStep, permSame, permDiff]
    | pow c e =>
      cases b with
      | undef => exact absurd rfl hb0.1
      | atan2 y x => exact absurd rfl (hb0.2.1 y x)
      | pow d f =>
        have h1 : Trich doPermute c d := ih c d (by simp only [size] at hn; omega)
          (hao c (by simp [operands])) (hbo d (by simp [operands]))
        have h2 : Trich doPermute e f := ih e f (by simp only [size] at hn; omega)
          (hao e (by simp [operands])) (hbo f (by simp [operands]))
        simp only [isEqual, permStep, permSame]
        rcases h1 with ⟨g1, g2, -, -⟩ | ⟨g1, g2, g3⟩
        · simpa [g1, g2, Trich] using h2
        · right; simp [g1, g2, g3]
      | _ => right; simp [isEqual, permStep, permSame, permDiff]
    | fn f x =>
      cases b with
      | undef => exact absurd rfl hb0.1
      | atan2 y x => exact absurd rfl (hb0.2.1 y x)
      | fn g y =>
        have h1 : Trich doPermute x y := ih x y (by simp only [size] at hn; omega)
          (hao x (by simp [operands])) (hbo y (by simp [operands]))
        simp only [isEqual, permStep, permSame]
        by_cases hfg : f = g
        · subst hfg
          simpa [Trich] using h1
        · right
          have hgf : ¬ g = f := fun h => hfg h.symm
          have hnn : f.name ≠ g.name := by
            revert hfg; cases f <;> cases g <;> decide
          simp only [hfg, hgf, decide_false, Bool.false_and, true_and]
          rw [if_pos hnn, if_pos hnn.symm]
          revert hfg; cases f <;> cases g <;> decide
      | _ => right; simp [isEqual, permStep, permSame, permDiff]

theorem trich (a b : Expr D) (ha : Orderable a) (hb : Orderable b) : Trich doPermute a b :=
  trich_aux _ a b (le_refl _) ha hb

end Expr

end Tsym
