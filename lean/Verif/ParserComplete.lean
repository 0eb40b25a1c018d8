import Verif.ParserSound

set_option autoImplicit false
set_option linter.unusedSimpArgs false

/-!
# Every text of the language is matched, if no name begins with a reserved word
-/

namespace Tsym

open PRes

variable {D : Type} {conv : Str → Option D}

/-! ## White space -/

theorem skipS_append {w s : Str} (hw : Spaces w) : skipS (w ++ s) = skipS s := by
  unfold skipS
  rw [List.dropWhile_append_of_pos hw]

theorem skipS_cons {c : Char} {s : Str} (hc : isSpaceC c = false) : skipS (c :: s) = c :: s := by
  simp [skipS, hc]

theorem headS_append {w s : Str} (hw : Spaces w) : headS (w ++ s) = headS s := by
  rw [headS, skipS_append hw, headS]

theorem headS_cons {c : Char} {s : Str} (hc : isSpaceC c = false) : headS (c :: s) = some c := by
  rw [headS, skipS_cons hc]; rfl

theorem litC_spaces {w s : Str} {c : Char} (hw : Spaces w) (hc : isSpaceC c = false) :
    litC c (w ++ c :: s) = some s := by
  rw [litC_iff, skipS_append hw, skipS_cons hc]

theorem skipS_spaces {w : Str} (hw : Spaces w) : skipS w = [] := by
  have := skipS_append (s := []) hw
  rw [List.append_nil] at this
  rw [this]
  rfl

/-- What may follow an operand. -/
def FollowO (r : Str) : Prop := ∀ c, headS r = some c → c ∈ [')', ',', '+', '-', '*', '/', '^']

/-- What may follow a factor. -/
def FollowF (r : Str) : Prop := ∀ c, headS r = some c → c ∈ [')', ',', '+', '-', '*', '/']

/-- What may follow a summand. -/
def FollowS (r : Str) : Prop := ∀ c, headS r = some c → c ∈ [')', ',', '+', '-']

/-- What may follow an expression. -/
def FollowE (r : Str) : Prop := ∀ c, headS r = some c → c ∈ [')', ',']

theorem FollowE.s {r : Str} (h : FollowE r) : FollowS r := fun c hc => by
  have := h c hc
  simp only [List.mem_cons, List.not_mem_nil, or_false] at this ⊢
  rcases this with rfl | rfl <;> simp

theorem FollowS.f {r : Str} (h : FollowS r) : FollowF r := fun c hc => by
  have := h c hc
  simp only [List.mem_cons, List.not_mem_nil, or_false] at this ⊢
  rcases this with rfl | rfl | rfl | rfl <;> simp

theorem FollowF.o {r : Str} (h : FollowF r) : FollowO r := fun c hc => by
  have := h c hc
  simp only [List.mem_cons, List.not_mem_nil, or_false] at this ⊢
  rcases this with rfl | rfl | rfl | rfl | rfl | rfl <;> simp

theorem litC_none_of {l : List Char} {r : Str} {c : Char} (h : ∀ x, headS r = some x → x ∈ l) (hc : c ∉ l) :
    litC c r = none := by
  cases hl : litC c r with
  | none => rfl
  | some q => exact absurd (h c (litC_head hl)) hc

theorem head_cases {r : Str} {x : Char} (hx : r.head? = some x) : isSpaceC x = true ∨ headS r = some x := by
  cases r with
  | nil => cases hx
  | cons y r =>
    cases hx
    cases hs : isSpaceC x with
    | true => exact .inl rfl
    | false => exact .inr (headS_cons hs)

theorem FollowO.head {r : Str} (h : FollowO r) {x : Char} (hx : r.head? = some x) :
    isAlnumC x = false ∧ x ≠ '_' ∧ x ≠ '.' ∧ x ≠ '(' ∧ x ≠ '{' := by
  rcases head_cases hx with hs | hs
  · rcases space_cases hs with rfl | rfl | rfl | rfl | rfl | rfl <;> decide
  · have := h x hs
    simp only [List.mem_cons, List.not_mem_nil, or_false] at this
    rcases this with rfl | rfl | rfl | rfl | rfl | rfl | rfl <;> decide

/-! ## Words -/

theorem prefix_of_word {n r q r2 : Str} (h : n ++ r = q ++ r2) (hq : ∀ x ∈ q, isAlnumC x = true)
    (hr : ∀ x, r.head? = some x → isAlnumC x = false) : ∃ b, n = q ++ b ∧ r2 = b ++ r := by
  rcases List.append_eq_append_iff.1 h with ⟨a, rfl, rfl⟩ | ⟨b, rfl, rfl⟩
  · cases a with
    | nil => exact ⟨[], by simp, rfl⟩
    | cons x a =>
      have h1 := hr x rfl
      rw [hq x (by simp)] at h1
      cases h1
  · exact ⟨b, rfl, rfl⟩

theorem noCase_none_of {w n r : Str} (hw : ∀ p, SameWord p w → ∀ x ∈ p, isAlnumC x = true)
    (hr : ∀ x, r.head? = some x → isAlnumC x = false) (h : ∀ p q, n = p ++ q → ¬ SameWord p w) :
    noCase w (n ++ r) = none := by
  cases hn : noCase w (n ++ r) with
  | none => rfl
  | some r2 =>
    obtain ⟨p, h1, h2⟩ := noCase_split hn
    obtain ⟨b, h3, -⟩ := prefix_of_word h1 (hw p h2) hr
    exact absurd h2 (h p b h3)

theorem alnum_of_alpha {w : Str} (hw : ∀ c ∈ w, isAlphaC c = true) (p : Str) (hp : SameWord p w) :
    ∀ x ∈ p, isAlnumC x = true := fun x hx => by
  simp [isAlnumC, sameWord_alpha hp hw x hx]

theorem alnum_not_space {c : Char} (h : isAlnumC c = true) : isSpaceC c = false := by
  cases hs : isSpaceC c with
  | false => rfl
  | true =>
    have := (space_not_word hs).1
    rw [h] at this
    cases this

theorem alnum_not_paren {c : Char} (h : isAlnumC c = true) : c ≠ '(' := by
  rintro rfl
  exact absurd h (by decide)

/-- A word that is not followed by a parenthesis is not a function. -/
theorem word_not_fn {expr : Str → PRes D} {w n r : Str} (hw : Spaces w) (hn : ∀ x ∈ n, isAlnumC x = true)
    (hne : n ≠ []) (hr : ∀ x, r.head? = some x → isAlnumC x = false) (hp : litC '(' r = none) :
    skipS (w ++ n ++ r) = n ++ r ∧ oneArgP expr (w ++ n ++ r) = some ([], none) ∧
      twoArgP expr (w ++ n ++ r) = some ([], none) := by
  have hs : skipS (w ++ n ++ r) = n ++ r := by
    rw [List.append_assoc, skipS_append hw]
    cases n with
    | nil => exact absurd rfl hne
    | cons c n => exact skipS_cons (alnum_not_space (hn c (by simp)))
  have key : ∀ q r2, n ++ r = q ++ r2 → (∀ x ∈ q, isAlnumC x = true) → litC '(' r2 = none := by
    intro q r2 h hq
    obtain ⟨b, rfl, rfl⟩ := prefix_of_word h hq hr
    cases b with
    | nil => exact hp
    | cons x b =>
      have hx := hn x (by simp)
      exact litC_none (x := x) (headS_cons (alnum_not_space hx)) (alnum_not_paren hx)
  refine ⟨hs, ?_, ?_⟩
  · unfold oneArgP
    rw [hs]
    split
    · rfl
    · rename_i f r2 hf
      obtain ⟨q, h1, h2⟩ := noCase_split (fnP_noCase hf)
      rw [key q r2 h1 (fn_word h2).1]
      rfl
  · unfold twoArgP
    rw [hs]
    split
    · rfl
    · rename_i r2 hf
      obtain ⟨q, h1, h2⟩ := noCase_split hf
      rw [key q r2 h1 (lowerC_atan2 h2).1]
      rfl

/-- What does not begin with a letter is not a function. -/
theorem not_fn {expr : Str → PRes D} {s s' : Str} {c : Char} (hs : skipS s = c :: s') (hc : isAlphaC c = false) :
    oneArgP expr s = some ([], none) ∧ twoArgP expr s = some ([], none) := by
  have ha : lowerC c ≠ 'a' := by
    intro h
    rw [lowerC_alpha (by rw [h]; decide)] at hc
    cases hc
  constructor
  · unfold oneArgP
    rw [hs]
    cases hf : fnP (c :: s') with
    | none => rfl
    | some x =>
      obtain ⟨f, r⟩ := x
      obtain ⟨x, s'', hx, hx'⟩ := fnP_head hf
      cases hx
      rw [hc] at hx'
      cases hx'
  · unfold twoArgP
    rw [hs]
    simp only [noCase, ha, if_false]
    rfl

theorem operand_of_scalar {n : Nat} {s r : Str} {a : List (Act D)}
    (h1 : oneArgP (peg conv n .expression) s = some ([], none))
    (h2 : twoArgP (peg conv n .expression) s = some ([], none)) (h3 : scalarP conv s = some (a, some r)) :
    Peg conv .operand s (a, some r) := by
  refine ⟨n + 1, ?_⟩
  rw [peg, h1, h2, h3, alt_fail, alt_fail]
  rfl

theorem sameWord_ne {p w : Str} (h : SameWord p w) (hw : w ≠ []) : p ≠ [] := by
  rintro rfl
  exact hw h.symm

theorem operand_pi {w p r : Str} (hw : Spaces w) (hp : SameWord p ['p', 'i']) (hr : FollowO r) :
    Peg conv .operand (w ++ p ++ r) ([.pushPi], some r) := by
  obtain ⟨h1, h2, h3⟩ := word_not_fn (expr := peg conv 0 .expression) hw (alnum_of_alpha (by decide) p hp)
    (sameWord_ne hp (by simp)) (fun x hx => (hr.head hx).1) (litC_none_of hr (by decide))
  refine operand_of_scalar h2 h3 ?_
  unfold scalarP
  rw [h1]
  simp only [noCase_append hp]

theorem lowerC_head_ne {p s : Str} {c d : Char} {w : Str} (h : SameWord p (c :: w)) (hcd : c ≠ d) {v : Str} :
    noCase (d :: v) (p ++ s) = none := by
  cases p with
  | nil => cases h
  | cons x p =>
    simp only [SameWord, List.map_cons, List.cons.injEq] at h
    simp [noCase, h.1, hcd]

theorem operand_euler {w p r : Str} (hw : Spaces w) (hp : SameWord p ['e', 'u', 'l', 'e', 'r']) (hr : FollowO r) :
    Peg conv .operand (w ++ p ++ r) ([.pushEuler], some r) := by
  obtain ⟨h1, h2, h3⟩ := word_not_fn (expr := peg conv 0 .expression) hw (alnum_of_alpha (by decide) p hp)
    (sameWord_ne hp (by simp)) (fun x hx => (hr.head hx).1) (litC_none_of hr (by decide))
  refine operand_of_scalar h2 h3 ?_
  unfold scalarP
  rw [h1]
  simp only [noCase_append hp, lowerC_head_ne hp (d := 'p') (by decide)]

theorem IsName.alnum {n : Str} (h : IsName n) : ∀ x ∈ n, isAlnumC x = true := by
  obtain ⟨c, l, rfl, hc, hl⟩ := h.shape
  intro x hx
  rcases List.mem_cons.1 hx with rfl | hx
  · simp [isAlnumC, hc]
  · exact hl x hx

theorem IsName.ne_nil {n : Str} (h : IsName n) : n ≠ [] := by
  obtain ⟨c, l, rfl, hc, hl⟩ := h.shape
  simp

/-- The symbol parser on a name. -/
theorem symbolP_name {n R : Str} (hn : IsName n) (hR : ∀ x, R.head? = some x → isAlnumC x = false) :
    symbolP (n ++ R) = match R with
      | x :: r =>
        if x = '_' then
          match subscriptP r with
          | some (u, r') => some (⟨n, u, []⟩, r')
          | none => some (⟨n, [], []⟩, x :: r)
        else some (⟨n, [], []⟩, x :: r)
      | [] => some (⟨n, [], []⟩, []) := by
  obtain ⟨c, l, rfl, hc, hl⟩ := hn.shape
  have h1 : (l ++ R).takeWhile isAlnumC = l := by
    rw [List.takeWhile_append_of_pos hl]
    cases R with
    | nil => simp
    | cons x r => simp [hR x rfl]
  have h2 : (l ++ R).dropWhile isAlnumC = R := by
    rw [List.dropWhile_append_of_pos hl]
    cases R with
    | nil => simp
    | cons x r => simp [hR x rfl]
  simp only [List.cons_append, symbolP, hc, if_true, h1, h2]
  cases R <;> rfl

theorem operand_name {w n R r : Str} {m : Name} (hw : Spaces w) (hn : IsName n) (hm : m.value = n) (hpl : m.Plain)
    (hR : ∀ x, R.head? = some x → isAlnumC x = false) (hp : litC '(' R = none)
    (hs : symbolP (n ++ R) = some (m, r)) : Peg conv .operand (w ++ n ++ R) ([.pushSymbol m], some r) := by
  obtain ⟨h1, h2, h3⟩ := word_not_fn (expr := peg conv 0 .expression) hw hn.alnum hn.ne_nil hR hp
  refine operand_of_scalar h2 h3 ?_
  unfold scalarP
  rw [h1]
  dsimp only
  rw [noCase_none_of (alnum_of_alpha (by decide)) hR fun p q h => (hpl p q (hm.trans h)).1,
    noCase_none_of (alnum_of_alpha (by decide)) hR fun p q h => (hpl p q (hm.trans h)).2]
  simp only [hs]

theorem operand_symbol {w n r : Str} (hw : Spaces w) (hn : IsName n) (hpl : Name.Plain ⟨n, [], []⟩)
    (hr : FollowO r) : Peg conv .operand (w ++ n ++ r) ([.pushSymbol ⟨n, [], []⟩], some r) := by
  refine operand_name hw hn rfl hpl (fun x hx => (hr.head hx).1) (litC_none_of hr (by decide)) ?_
  rw [symbolP_name hn fun x hx => (hr.head hx).1]
  cases r with
  | nil => rfl
  | cons x r => simp [(hr.head (x := x) rfl).2.1]

theorem operand_symbolSub {w n r : Str} {c : Char} (hw : Spaces w) (hn : IsName n) (hc : isAlnumC c = true)
    (hpl : Name.Plain ⟨n, [c], []⟩) :
    Peg conv .operand (w ++ n ++ ['_', c] ++ r) ([.pushSymbol ⟨n, [c], []⟩], some r) := by
  rw [List.append_assoc (w ++ n)]
  have hR : ∀ x, (['_', c] ++ r).head? = some x → isAlnumC x = false := by
    intro x hx; cases hx; decide
  refine operand_name hw hn rfl hpl hR (litC_none (x := '_') (headS_cons (by decide)) (by decide)) ?_
  rw [symbolP_name hn hR]
  have hb : c ≠ '{' := by rintro rfl; exact absurd hc (by decide)
  simp [subscriptP, hb, hc]

theorem operand_symbolBraces {w n u r : Str} (hw : Spaces w) (hn : IsName n) (hu : u ≠ [])
    (hc : ∀ c ∈ u, isAlnumC c = true) (hpl : Name.Plain ⟨n, u, []⟩) :
    Peg conv .operand (w ++ n ++ '_' :: '{' :: u ++ ['}'] ++ r) ([.pushSymbol ⟨n, u, []⟩], some r) := by
  have e : w ++ n ++ '_' :: '{' :: u ++ ['}'] ++ r = w ++ n ++ ('_' :: '{' :: (u ++ '}' :: r)) := by simp
  rw [e]
  have hR : ∀ x, ('_' :: '{' :: (u ++ '}' :: r)).head? = some x → isAlnumC x = false := by
    intro x hx; cases hx; decide
  refine operand_name hw hn rfl hpl hR (litC_none (x := '_') (headS_cons (by decide)) (by decide)) ?_
  rw [symbolP_name hn hR]
  have hb : isAlnumC '}' = false := by decide
  have h1 : (u ++ '}' :: r).takeWhile isAlnumC = u := by
    rw [List.takeWhile_append_of_pos hc]; simp [hb]
  have h2 : (u ++ '}' :: r).dropWhile isAlnumC = '}' :: r := by
    rw [List.dropWhile_append_of_pos hc]; simp [hb]
  simp [subscriptP, h1, h2, hu]

/-! ## Numbers -/

theorem take_digits {d r : Str} (hd : ∀ c ∈ d, isDigitC c = true)
    (hr : ∀ x, r.head? = some x → isDigitC x = false) :
    (d ++ r).takeWhile isDigitC = d ∧ (d ++ r).dropWhile isDigitC = r := by
  rw [List.takeWhile_append_of_pos hd, List.dropWhile_append_of_pos hd]
  cases r with
  | nil => simp
  | cons x r => simp [hr x rfl]

theorem not_digit {x : Char} (h : isAlnumC x = false) : isDigitC x = false := by
  simp only [isAlnumC, Bool.or_eq_false_iff] at h
  exact h.2

theorem not_alpha {x : Char} (h : isAlnumC x = false) : isAlphaC x = false := by
  simp only [isAlnumC, Bool.or_eq_false_iff] at h
  exact h.1

theorem FollowO.notDigit {r : Str} (h : FollowO r) : ∀ x, r.head? = some x → isDigitC x = false :=
  fun _ hx => not_digit (h.head hx).1

theorem FollowO.expP {r : Str} (h : FollowO r) : expP r = ([], r) := by
  cases r with
  | nil => rfl
  | cons x r =>
    have := (h.head (x := x) rfl).1
    have h1 : x ≠ 'e' := by rintro rfl; exact absurd this (by decide)
    have h2 : x ≠ 'E' := by rintro rfl; exact absurd this (by decide)
    simp [Tsym.expP, h1, h2]

theorem expP_exact {e r : Str} (he : IsExponent e) (hr : FollowO r) : expP (e ++ r) = (e, r) := by
  obtain ⟨x, sg, d, rfl, hx, hsg, hd, hf⟩ := he
  obtain ⟨h1, h2⟩ := take_digits hd.2 hr.notDigit
  have hs : signP (sg.toList ++ (d ++ r)) = (sg, d ++ r) := by
    cases sg with
    | some c => rcases hsg c rfl with rfl | rfl <;> rfl
    | none =>
      obtain ⟨hd1, hd2⟩ := hd
      cases d with
      | nil => exact absurd rfl hd1
      | cons c d =>
        have hc := hd2 c (by simp)
        have h3 : c ≠ '+' := by rintro rfl; exact absurd hc (by decide)
        have h4 : c ≠ '-' := by rintro rfl; exact absurd hc (by decide)
        simp [signP, h3, h4]
  have e1 : x :: (sg.toList ++ d) ++ r = x :: (sg.toList ++ (d ++ r)) := by simp
  rw [e1]
  simp only [Tsym.expP, hs, h1, h2, hf]
  simp [hx, hd.1]

theorem realP_exact {p r : Str} {d : D} (hp : IsReal p) (hd : conv p = some d) (hr : FollowO r) :
    realP conv (p ++ r) = some (d, r) := by
  rcases hp with ⟨i, f, e, rfl, hi, hf, hne, he⟩ | ⟨i, e, rfl, hi, he⟩
  · have hdot : ∀ x, ('.' :: (f ++ (e ++ r))).head? = some x → isDigitC x = false := by
      intro x hx; cases hx; decide
    have e1 : i ++ '.' :: f ++ e ++ r = i ++ ('.' :: (f ++ (e ++ r))) := by simp
    obtain ⟨h1, h2⟩ := take_digits hi hdot
    have her : ∀ x, (e ++ r).head? = some x → isDigitC x = false := by
      rcases he with rfl | ⟨x, sg, d, rfl, hx, -⟩
      · exact hr.notDigit
      · intro y hy
        cases hy
        rcases hx with rfl | rfl <;> decide
    obtain ⟨h3, h4⟩ := take_digits hf her
    have h5 : expP (e ++ r) = (e, r) := by
      rcases he with rfl | he
      · exact hr.expP
      · exact expP_exact he hr
    have hn : ¬ (i = [] ∧ f = []) := by
      rintro ⟨rfl, rfl⟩
      rcases hne with h | h <;> exact h rfl
    unfold realP
    rw [e1]
    simp only [h1, h2, h3, h4, h5]
    simp only [if_true, Bool.and_eq_true, decide_eq_true_eq, hn, if_false, hd]
    rfl
  · have hex : expP (e ++ r) = (e, r) := expP_exact he hr
    obtain ⟨x, sg, dd, rfl, hx, hsg, hdd, hfit⟩ := he
    have hne : ∀ y, (x :: (sg.toList ++ dd) ++ r).head? = some y → isDigitC y = false := by
      intro y hy
      cases hy
      rcases hx with rfl | rfl <;> decide
    obtain ⟨h1, h2⟩ := take_digits hi.2 hne
    have hdot : x ≠ '.' := by rcases hx with rfl | rfl <;> decide
    unfold realP
    rw [List.append_assoc]
    simp only [h1, h2]
    rw [List.cons_append] at hex ⊢
    simp only [hdot, if_false, hi.1, hex, hd]
    simp [hx]

theorem digit_not_alpha {c : Char} (h : isDigitC c = true) : isAlphaC c = false := by
  simp only [isDigitC, isAlphaC, Bool.and_eq_true, decide_eq_true_eq, Bool.or_eq_false_iff, Bool.and_eq_false_iff,
    decide_eq_false_iff_not] at h ⊢
  omega

theorem digit_not_space {c : Char} (h : isDigitC c = true) : isSpaceC c = false :=
  alnum_not_space (by simp [isAlnumC, h])

/-- Numbers are not symbols or constants. -/
theorem operand_number {w s r : Str} {c : Char} {s' : Str} {x : Act D} (hw : Spaces w) (hs : s = c :: s')
    (hc : isAlphaC c = false) (hsp : isSpaceC c = false)
    (h : (match realP conv s with
        | some (d, r) => some ([.pushDouble d], some r)
        | none =>
          match integerP s with
          | some (n, r) => some ([.pushInteger n], some r)
          | none => some ([], none) : PRes D) = some ([x], some r)) :
    Peg conv .operand (w ++ s) ([x], some r) := by
  have h1 : skipS (w ++ s) = c :: s' := by rw [skipS_append hw, hs, skipS_cons hsp]
  obtain ⟨h2, h3⟩ := not_fn (expr := peg conv 0 .expression) h1 hc
  refine operand_of_scalar h2 h3 ?_
  have hp : lowerC c ≠ 'p' := by
    intro h; rw [lowerC_alpha (by rw [h]; decide)] at hc; cases hc
  have he : lowerC c ≠ 'e' := by
    intro h; rw [lowerC_alpha (by rw [h]; decide)] at hc; cases hc
  unfold scalarP
  rw [h1]
  rw [hs] at h
  simp only [noCase, hp, he, if_false, symbolP, hc, Bool.false_eq_true]
  exact h

theorem operand_double {w p r : Str} {d : D} (hw : Spaces w) (hp : IsReal p) (hd : conv p = some d)
    (hr : FollowO r) : Peg conv .operand (w ++ p ++ r) ([.pushDouble d], some r) := by
  have h := realP_exact hp hd hr
  have hc : ∃ c s', p = c :: s' ∧ isAlphaC c = false ∧ isSpaceC c = false := by
    rcases hp with ⟨i, f, e, rfl, hi, hf, hne, he⟩ | ⟨i, e, rfl, hi, he⟩
    · cases i with
      | nil => exact ⟨'.', f ++ e, by simp, by decide, by decide⟩
      | cons c i => exact ⟨c, _, rfl, digit_not_alpha (hi c (by simp)), digit_not_space (hi c (by simp))⟩
    · cases i with
      | nil => exact absurd rfl hi.1
      | cons c i => exact ⟨c, _, rfl, digit_not_alpha (hi.2 c (by simp)), digit_not_space (hi.2 c (by simp))⟩
  obtain ⟨c, s', rfl, h1, h2⟩ := hc
  rw [List.append_assoc]
  refine operand_number hw (List.cons_append ..) h1 h2 ?_
  rw [h]

theorem operand_integer {w p r : Str} (hw : Spaces w) (hp : Digits1 p) (hr : FollowO r) :
    Peg conv .operand (w ++ p ++ r) ([.pushInteger p], some r) := by
  obtain ⟨h1, h2⟩ := take_digits hp.2 hr.notDigit
  have h : realP conv (p ++ r) = none := by
    unfold realP
    simp only [h1, h2]
    cases r with
    | nil => rfl
    | cons x r =>
      obtain ⟨h3, -, h4, -⟩ := hr.head (x := x) rfl
      have h5 : x ≠ 'e' := by rintro rfl; exact absurd h3 (by decide)
      have h6 : x ≠ 'E' := by rintro rfl; exact absurd h3 (by decide)
      simp [h4, h5, h6, hp.1]
  have hint : integerP (p ++ r) = some (p, r) := by
    unfold integerP
    rw [h1, h2, if_neg hp.1]
  obtain ⟨h3, h4⟩ := hp
  cases p with
  | nil => exact absurd rfl h3
  | cons c s' =>
    rw [List.append_assoc]
    refine operand_number hw (List.cons_append ..) (digit_not_alpha (h4 c (by simp)))
      (digit_not_space (h4 c (by simp))) ?_
    rw [h, hint]

/-! ## Functions -/

theorem fnP_exact {f : PFct} {p R : Str} (h : SameWord p f.text) : fnP (p ++ R) = some (f, R) := by
  have h1 : ∀ g : PFct, g.text.length = 3 ∨ g.text.length = 4 := by intro g; cases g <;> simp [PFct.text]
  rcases p with _ | ⟨a, _ | ⟨b, _ | ⟨c, _ | ⟨d, _ | ⟨e, p⟩⟩⟩⟩⟩
  all_goals
    cases f <;>
    simp only [SameWord, PFct.text, List.map_cons, List.map_nil, List.cons.injEq, reduceCtorEq, and_true,
      and_false] at h
  all_goals
    simp only [fnP, List.cons_append, List.nil_append, List.findSome?_cons, PFct.text, noCase]
    simp [h]

theorem word_skip {w n s : Str} (hw : Spaces w) (hn : ∀ x ∈ n, isAlnumC x = true) (hne : n ≠ []) :
    skipS (w ++ n ++ s) = n ++ s := by
  rw [List.append_assoc, skipS_append hw]
  cases n with
  | nil => exact absurd rfl hne
  | cons c n => exact skipS_cons (alnum_not_space (hn c (by simp)))

theorem operand_function {w p w1 q w2 r : Str} {f : PFct} {a : List (Act D)} (hw : Spaces w)
    (hp : SameWord p f.text) (hw1 : Spaces w1) (hw2 : Spaces w2)
    (h : Peg conv .expression (q ++ (w2 ++ ')' :: r)) (a, some (w2 ++ ')' :: r))) :
    Peg conv .operand (w ++ p ++ w1 ++ '(' :: q ++ w2 ++ [')'] ++ r) (a ++ [.toFunction f], some r) := by
  obtain ⟨n, h⟩ := h
  refine ⟨n + 1, ?_⟩
  have e : w ++ p ++ w1 ++ '(' :: q ++ w2 ++ [')'] ++ r = w ++ p ++ (w1 ++ '(' :: (q ++ (w2 ++ ')' :: r))) := by simp
  obtain ⟨h1, c, l, h2, -⟩ := f.text_word
  have h3 : oneArgP (peg conv n .expression) (w ++ p ++ w1 ++ '(' :: q ++ w2 ++ [')'] ++ r) =
      some (a ++ [.toFunction f], some r) := by
    unfold oneArgP
    rw [e, word_skip hw (fn_word hp).1 (sameWord_ne hp (by rw [h2]; simp)), fnP_exact hp]
    simp only [litC_spaces hw1 (c := '(') (by decide), seq_ofOpt_some, h]
    simp [PRes.seq, litC_spaces hw2 (c := ')') (by decide), PRes.act, ofOpt, PRes.pre]
  rw [peg, h3]
  rfl

theorem operand_atan2 {w p w1 q w2 q' w3 r : Str} {a b : List (Act D)} (hw : Spaces w)
    (hp : SameWord p ['a', 't', 'a', 'n', '2']) (hw1 : Spaces w1) (hw2 : Spaces w2) (hw3 : Spaces w3)
    (h : Peg conv .expression (q ++ (w2 ++ ',' :: (q' ++ (w3 ++ ')' :: r))))
      (a, some (w2 ++ ',' :: (q' ++ (w3 ++ ')' :: r)))))
    (h' : Peg conv .expression (q' ++ (w3 ++ ')' :: r)) (b, some (w3 ++ ')' :: r))) :
    Peg conv .operand (w ++ p ++ w1 ++ '(' :: q ++ w2 ++ ',' :: q' ++ w3 ++ [')'] ++ r)
      (a ++ b ++ [.toAtan2], some r) := by
  obtain ⟨n, h⟩ := h
  obtain ⟨n', h'⟩ := h'
  have h := peg_mono (Nat.le_max_left n n') h
  have h' := peg_mono (Nat.le_max_right n n') h'
  generalize max n n' = n at h h'
  refine ⟨n + 1, ?_⟩
  have e : w ++ p ++ w1 ++ '(' :: q ++ w2 ++ ',' :: q' ++ w3 ++ [')'] ++ r =
    w ++ p ++ (w1 ++ '(' :: (q ++ (w2 ++ ',' :: (q' ++ (w3 ++ ')' :: r))))) := by simp
  have hs := word_skip (s := w1 ++ '(' :: (q ++ (w2 ++ ',' :: (q' ++ (w3 ++ ')' :: r))))) hw
    (lowerC_atan2 hp).1 (sameWord_ne hp (by simp))
  have h1 : oneArgP (peg conv n .expression) (w ++ p ++ w1 ++ '(' :: q ++ w2 ++ ',' :: q' ++ w3 ++ [')'] ++ r) =
      some ([], none) := by
    unfold oneArgP
    rw [e, hs]
    split
    · rfl
    · rename_i f r2 hf
      have hl : litC '(' r2 = none := by
        obtain ⟨x, hx, hx'⟩ := noCase_split (fnP_noCase hf)
        obtain ⟨b', rfl, rfl⟩ := prefix_of_word hx (fn_word hx').1 (by
          intro y hy
          rcases head_of_litC (litC_spaces hw1 (c := '(') (by decide)) hy with h5 | rfl
          · exact (space_not_word h5).1
          · decide)
        have h6 := hp
        simp only [SameWord, List.map_append] at h6
        rw [show List.map lowerC x = f.text from hx'] at h6
        cases b' with
        | nil => cases f <;> simp [PFct.text] at h6
        | cons y b' =>
          have hy : isAlnumC y = true := (lowerC_atan2 hp).1 y (by simp)
          exact litC_none (x := y) (headS_cons (alnum_not_space hy)) (alnum_not_paren hy)
      rw [hl]
      rfl
  have h2 : twoArgP (peg conv n .expression) (w ++ p ++ w1 ++ '(' :: q ++ w2 ++ ',' :: q' ++ w3 ++ [')'] ++ r) =
      some (a ++ b ++ [.toAtan2], some r) := by
    unfold twoArgP
    rw [e, hs]
    simp only [noCase_append hp, litC_spaces hw1 (c := '(') (by decide), seq_ofOpt_some, h]
    simp only [PRes.seq, litC_spaces hw2 (c := ',') (by decide), ofOpt, h',
      litC_spaces hw3 (c := ')') (by decide), PRes.pre, PRes.act, Option.map_some, List.append_nil, List.nil_append]
  rw [peg, h1, h2]
  rfl

theorem operand_parens {w q w2 r : Str} {a : List (Act D)} (hw : Spaces w) (hw2 : Spaces w2)
    (h : Peg conv .expression (q ++ (w2 ++ ')' :: r)) (a, some (w2 ++ ')' :: r))) :
    Peg conv .operand (w ++ '(' :: q ++ w2 ++ [')'] ++ r) (a, some r) := by
  obtain ⟨n, h⟩ := h
  refine ⟨n + 1, ?_⟩
  have e : w ++ '(' :: q ++ w2 ++ [')'] ++ r = w ++ '(' :: (q ++ (w2 ++ ')' :: r)) := by simp
  rw [e]
  have hs : skipS (w ++ '(' :: (q ++ (w2 ++ ')' :: r))) = '(' :: (q ++ (w2 ++ ')' :: r)) := by
    rw [skipS_append hw, skipS_cons (by decide)]
  obtain ⟨h1, h2⟩ := not_fn (expr := peg conv n .expression) hs (by decide)
  have h3 : scalarP conv (w ++ '(' :: (q ++ (w2 ++ ')' :: r))) = some ([], none) := by
    unfold scalarP
    rw [hs]
    simp [noCase, symbolP, realP, integerP, show isDigitC '(' = false by decide,
      show isAlphaC '(' = false by decide, show lowerC '(' = '(' by decide]
  have h4 : parenP (peg conv n .expression) (w ++ '(' :: (q ++ (w2 ++ ')' :: r))) = some (a, some r) := by
    unfold parenP
    simp only [litC_spaces hw (c := '(') (by decide), seq_ofOpt_some, h]
    simp only [PRes.seq, litC_spaces hw2 (c := ')') (by decide), ofOpt, PRes.pre, Option.map_some, List.append_nil]
  rw [peg, h1, h2, h3, h4, alt_fail, alt_fail, alt_fail]

/-! ## The rules -/

theorem Peg.join {R R' : PRule} {s s' : Str} {x y} (h : Peg conv R s x) (h' : Peg conv R' s' y) :
    ∃ n, peg conv n R s = some x ∧ peg conv n R' s' = some y := by
  obtain ⟨n, h⟩ := h
  obtain ⟨n', h'⟩ := h'
  exact ⟨max n n', peg_mono (Nat.le_max_left ..) h, peg_mono (Nat.le_max_right ..) h'⟩

theorem Peg.seq2 {R R1 R2 : PRule} {s r : Str} {a b o} (hR : ∀ n s, peg conv (n + 1) R s =
    seq (peg conv n R1 s) (peg conv n R2)) (h1 : Peg conv R1 s (a, some r)) (h2 : Peg conv R2 r (b, o)) :
    Peg conv R s (a ++ b, o) := by
  obtain ⟨n, h1, h2⟩ := h1.join h2
  refine ⟨n + 1, ?_⟩
  rw [hR, h1]
  simp only [PRes.seq, h2, PRes.pre, Option.map_some]

theorem factorLoop_stop {r : Str} (h : litC '^' r = none) : Peg conv .factorLoop r ([], some r) :=
  ⟨1, by rw [peg, h]; rfl⟩

theorem summandLoop_stop {r : Str} (h : FollowS r) : Peg conv .summandLoop r ([], some r) :=
  ⟨1, by rw [peg, litC_none_of h (by decide), litC_none_of h (by decide)]; rfl⟩

theorem expressionLoop_stop {r : Str} (h : FollowE r) : Peg conv .expressionLoop r ([], some r) :=
  ⟨1, by rw [peg, litC_none_of h (by decide), litC_none_of h (by decide)]; rfl⟩

theorem factorLoop_more {w q r : Str} {a : List (Act D)} (hw : Spaces w) (h : Peg conv .factor (q ++ r) (a, some r))
    (hr : litC '^' r = none) : Peg conv .factorLoop (w ++ '^' :: (q ++ r)) (a ++ [.toPower], some r) := by
  obtain ⟨n, h1, h2⟩ := h.join (factorLoop_stop hr)
  refine ⟨n + 1, ?_⟩
  rw [peg, litC_spaces hw (by decide), seq_ofOpt_some, h1]
  simp only [PRes.act, PRes.star, h2, PRes.pre, Option.map_some, List.append_nil]

theorem summandLoop_times {w q r : Str} {a b : List (Act D)} {o} (hw : Spaces w)
    (h : Peg conv .signed (q ++ r) (a, some r)) (hl : Peg conv .summandLoop r (b, o)) :
    Peg conv .summandLoop (w ++ '*' :: (q ++ r)) (a ++ [.toProduct] ++ b, o) := by
  obtain ⟨n, h1, h2⟩ := h.join hl
  refine ⟨n + 1, ?_⟩
  rw [peg, litC_spaces hw (by decide), seq_ofOpt_some, h1]
  simp only [PRes.act, PRes.alt, PRes.star, h2, PRes.pre, Option.map_some]

theorem summandLoop_over {w q r : Str} {a b : List (Act D)} {o} (hw : Spaces w)
    (h : Peg conv .signed (q ++ r) (a, some r)) (hl : Peg conv .summandLoop r (b, o)) :
    Peg conv .summandLoop (w ++ '/' :: (q ++ r)) (a ++ [.toQuotient] ++ b, o) := by
  obtain ⟨n, h1, h2⟩ := h.join hl
  refine ⟨n + 1, ?_⟩
  have hl := litC_spaces (s := q ++ r) hw (c := '/') (by decide)
  rw [peg, hl, litC_none (litC_head hl) (by decide), seq_ofOpt_some, h1]
  simp only [PRes.act, PRes.seq, ofOpt, PRes.alt, PRes.star, h2, PRes.pre, Option.map_some, List.nil_append]

theorem expressionLoop_plus {w q r : Str} {a b : List (Act D)} {o} (hw : Spaces w)
    (h : Peg conv .summand (q ++ r) (a, some r)) (hl : Peg conv .expressionLoop r (b, o)) :
    Peg conv .expressionLoop (w ++ '+' :: (q ++ r)) (a ++ [.toSum] ++ b, o) := by
  obtain ⟨n, h1, h2⟩ := h.join hl
  refine ⟨n + 1, ?_⟩
  rw [peg, litC_spaces hw (by decide), seq_ofOpt_some, h1]
  simp only [PRes.act, PRes.alt, PRes.star, h2, PRes.pre, Option.map_some]

theorem expressionLoop_minus {w q r : Str} {a b : List (Act D)} {o} (hw : Spaces w)
    (h : Peg conv .summand (q ++ r) (a, some r)) (hl : Peg conv .expressionLoop r (b, o)) :
    Peg conv .expressionLoop (w ++ '-' :: (q ++ r)) (a ++ [.toDifference] ++ b, o) := by
  obtain ⟨n, h1, h2⟩ := h.join hl
  refine ⟨n + 1, ?_⟩
  have hl := litC_spaces (s := q ++ r) hw (c := '-') (by decide)
  rw [peg, hl, litC_none (litC_head hl) (by decide), seq_ofOpt_some, h1]
  simp only [PRes.act, PRes.seq, ofOpt, PRes.alt, PRes.star, h2, PRes.pre, Option.map_some, List.nil_append]

/-- A rule has a result. -/
theorem peg_total (R : PRule) (s : Str) : ∃ x, Peg conv R s x := by
  obtain ⟨a, o, h, -⟩ := peg_fits (conv := conv) _ R s (Nat.le_refl _)
  exact ⟨(a, o), _, h⟩

theorem signed_minus {w p r : Str} {a : List (Act D)} (hw : Spaces w) (h : Peg conv .factor (p ++ r) (a, some r)) :
    Peg conv .signed (w ++ '-' :: (p ++ r)) (a ++ [.flipSign], some r) := by
  have hl := litC_spaces (s := p ++ r) hw (c := '-') (by decide)
  obtain ⟨⟨b, o⟩, m, hm⟩ := peg_total (conv := conv) .factor (w ++ '-' :: (p ++ r))
  obtain ⟨rfl, rfl⟩ := factor_minus hl hm
  obtain ⟨n, h1, h2⟩ := h.join ⟨m, hm⟩
  refine ⟨n + 1, ?_⟩
  rw [peg, h2, alt_fail, hl, seq_ofOpt_some, h1]
  rfl

/-- No category but the expression begins with a plus sign. -/
theorem head_not_plus {c : Cat} {p : Str} {t : Tree D} (h : Parses conv c p t) (r : Str) :
    c = .expression ∨ ∃ x, headS (p ++ r) = some x ∧ x ≠ '+' := by
  have word : ∀ w n R : Str, Spaces w → (∀ x ∈ n, isAlnumC x = true) → n ≠ [] →
      ∃ x, headS (w ++ n ++ R) = some x ∧ x ≠ '+' := by
    intro w n R hw hn hne
    rw [headS, word_skip hw hn hne]
    cases n with
    | nil => exact absurd rfl hne
    | cons y n =>
      refine ⟨y, rfl, ?_⟩
      rintro rfl
      exact absurd (hn '+' (by simp)) (by decide)
  induction h generalizing r with
  | pi hw hp => exact .inr (word _ _ r hw (alnum_of_alpha (by decide) _ hp) (sameWord_ne hp (by simp)))
  | euler hw hp => exact .inr (word _ _ r hw (alnum_of_alpha (by decide) _ hp) (sameWord_ne hp (by simp)))
  | symbol hw hn => exact .inr (word _ _ r hw hn.alnum hn.ne_nil)
  | symbolSub hw hn hc =>
    right
    rw [List.append_assoc (_ ++ _)]
    exact word _ _ _ hw hn.alnum hn.ne_nil
  | @symbolBraces w n u hw hn hne hall =>
    right
    rw [show w ++ n ++ '_' :: '{' :: u ++ ['}'] ++ r = w ++ n ++ ('_' :: '{' :: u ++ ['}'] ++ r) by simp]
    exact word _ _ _ hw hn.alnum hn.ne_nil
  | @double w p d hw hp hd =>
    right
    rw [List.append_assoc, headS_append hw]
    rcases hp with ⟨i, f, e, rfl, hi, hf, hne, he⟩ | ⟨i, e, rfl, hi, he⟩
    · cases i with
      | nil => exact ⟨'.', headS_cons (by decide), by decide⟩
      | cons c i =>
        refine ⟨c, headS_cons (digit_not_space (hi c (by simp))), ?_⟩
        rintro rfl
        exact absurd (hi '+' (by simp)) (by decide)
    · cases i with
      | nil => exact absurd rfl hi.1
      | cons c i =>
        refine ⟨c, headS_cons (digit_not_space (hi.2 c (by simp))), ?_⟩
        rintro rfl
        exact absurd (hi.2 '+' (by simp)) (by decide)
  | integer hw hp =>
    exact .inr (word _ _ r hw (fun x hx => by simp [isAlnumC, hp.2 x hx]) hp.1)
  | @function w p w1 q w2 f t hw hp =>
    right
    obtain ⟨-, c, l, h2, -⟩ := f.text_word
    rw [show w ++ p ++ w1 ++ '(' :: q ++ w2 ++ [')'] ++ r = w ++ p ++ (w1 ++ '(' :: q ++ w2 ++ [')'] ++ r) by simp]
    exact word _ _ _ hw (fn_word hp).1 (sameWord_ne hp (by rw [h2]; simp))
  | @atan2 w p w1 q w2 q' w3 t t' hw hp =>
    right
    rw [show w ++ p ++ w1 ++ '(' :: q ++ w2 ++ ',' :: q' ++ w3 ++ [')'] ++ r =
      w ++ p ++ (w1 ++ '(' :: q ++ w2 ++ ',' :: q' ++ w3 ++ [')'] ++ r) by simp]
    exact word _ _ _ hw (lowerC_atan2 hp).1 (sameWord_ne hp (by simp))
  | @parens w q w2 t hw =>
    right
    rw [show w ++ '(' :: q ++ w2 ++ [')'] ++ r = w ++ '(' :: (q ++ w2 ++ [')'] ++ r) by simp, headS_append hw]
    exact ⟨'(', headS_cons (by decide), by decide⟩
  | operand _ ih | factor _ ih | signed _ ih =>
    rcases ih r with h | h
    · cases h
    · exact .inr h
  | @power p w q _ _ _ _ _ ih =>
    rw [show p ++ w ++ '^' :: q ++ r = p ++ (w ++ '^' :: q ++ r) by simp]
    rcases ih (w ++ '^' :: q ++ r) with h | h
    · cases h
    · exact .inr h
  | @minus w p _ hw =>
    right
    rw [show w ++ '-' :: p ++ r = w ++ '-' :: (p ++ r) by simp, headS_append hw]
    exact ⟨'-', headS_cons (by decide), by decide⟩
  | @times p w q _ _ _ _ _ ih =>
    rw [show p ++ w ++ '*' :: q ++ r = p ++ (w ++ '*' :: q ++ r) by simp]
    rcases ih (w ++ '*' :: q ++ r) with h | h
    · cases h
    · exact .inr h
  | @over p w q _ _ _ _ _ ih =>
    rw [show p ++ w ++ '/' :: q ++ r = p ++ (w ++ '/' :: q ++ r) by simp]
    rcases ih (w ++ '/' :: q ++ r) with h | h
    · cases h
    · exact .inr h
  | summand | plusSummand | plus | minusSummand => exact .inl rfl

theorem expression_plain {s r : Str} {a b : List (Act D)} {o} (hs : litC '+' s = none)
    (h : Peg conv .summand s (a, some r)) (hl : Peg conv .expressionLoop r (b, o)) :
    Peg conv .expression s (a ++ b, o) := by
  obtain ⟨n, h1, h2⟩ := h.join hl
  refine ⟨n + 1, ?_⟩
  rw [peg, hs]
  simp only [PRes.alt, ofOpt, PRes.seq, PRes.pre, Option.map_some, List.nil_append, h1, h2]

theorem expression_plus {w p r : Str} {a b : List (Act D)} {o} (hw : Spaces w)
    (h : Peg conv .summand (p ++ r) (a, some r)) (hl : Peg conv .expressionLoop r (b, o)) :
    Peg conv .expression (w ++ '+' :: (p ++ r)) (a ++ b, o) := by
  obtain ⟨n, h1, h2⟩ := h.join hl
  refine ⟨n + 1, ?_⟩
  rw [peg, litC_spaces hw (by decide)]
  simp only [PRes.alt, ofOpt, PRes.seq, PRes.pre, Option.map_some, List.nil_append, h1, h2]

/-- What the rule for a category has to match. -/
def Matched (conv : Str → Option D) (p : Str) (t : Tree D) : Cat → Prop
  | .operand => ∀ r, FollowO r → Peg conv .operand (p ++ r) (t.acts, some r)
  | .factor => ∀ r, FollowF r → Peg conv .factor (p ++ r) (t.acts, some r)
  | .signed => ∀ r, FollowF r → Peg conv .signed (p ++ r) (t.acts, some r)
  | .summand => ∀ r a o, FollowF r → Peg conv .summandLoop r (a, o) → Peg conv .summand (p ++ r) (t.acts ++ a, o)
  | .expression => ∀ r a o, FollowS r → Peg conv .expressionLoop r (a, o) →
      Peg conv .expression (p ++ r) (t.acts ++ a, o)

theorem FollowE.of_close {w s : Str} {c : Char} (hw : Spaces w) (hc : c = ')' ∨ c = ',') : FollowE (w ++ c :: s) := by
  intro x hx
  rw [headS_append hw, headS_cons (by rcases hc with rfl | rfl <;> decide)] at hx
  cases hx
  rcases hc with rfl | rfl <;> simp

theorem Matched.close {p : Str} {t : Tree D} (h : Matched conv p t .expression) {r : Str} (hr : FollowE r) :
    Peg conv .expression (p ++ r) (t.acts, some r) := by
  have := h r [] (some r) hr.s (expressionLoop_stop hr)
  rwa [List.append_nil] at this

theorem derives_matched {c : Cat} {p : Str} {t : Tree D} (h : Parses conv c p t)
    (hp : t.All Name.Plain fun _ => True) : Matched conv p t c := by
  induction h with
  | pi hw h => exact fun r hr => operand_pi hw h hr
  | euler hw h => exact fun r hr => operand_euler hw h hr
  | symbol hw hn => exact fun r hr => operand_symbol hw hn hp hr
  | symbolSub hw hn hc => exact fun r hr => operand_symbolSub hw hn hc hp
  | symbolBraces hw hn hu hc => exact fun r hr => operand_symbolBraces hw hn hu hc hp
  | double hw h hd => exact fun r hr => operand_double hw h hd hr
  | integer hw h => exact fun r hr => operand_integer hw h hr
  | function hw h hw1 hd hw2 ih =>
    exact fun r hr => operand_function hw h hw1 hw2 ((ih hp).close (.of_close hw2 (.inl rfl)))
  | @atan2 w p w1 q w2 q' w3 t t' hw h hw1 hd hw2 hd' hw3 ih ih' =>
    exact fun r hr => operand_atan2 hw h hw1 hw2 hw3 ((ih hp.1).close (.of_close hw2 (.inr rfl)))
      ((ih' hp.2).close (.of_close hw3 (.inl rfl)))
  | parens hw hd hw2 ih =>
    exact fun r hr => operand_parens hw hw2 ((ih hp).close (.of_close hw2 (.inl rfl)))
  | operand hd ih =>
    intro r hr
    have := Peg.seq2 (R := .factor) (fun n s => by rw [peg]) (ih hp r hr.o)
      (factorLoop_stop (litC_none_of hr (by decide)))
    rwa [List.append_nil] at this
  | @power p w q t t' hd hw hd' ih ih' =>
    intro r hr
    have hl := factorLoop_more hw (ih' hp.2 r hr) (litC_none_of hr (by decide))
    have := Peg.seq2 (R := .factor) (fun n s => by rw [peg]) (ih hp.1 (w ++ '^' :: (q ++ r)) (by
      intro x hx
      rw [headS_append hw, headS_cons (by decide)] at hx
      cases hx
      simp)) hl
    simpa [Tree.acts] using this
  | factor hd ih =>
    intro r hr
    obtain ⟨n, h⟩ := ih hp r hr
    exact ⟨n + 1, by rw [peg, h]; rfl⟩
  | @minus w p t hw hd ih =>
    intro r hr
    have := signed_minus hw (ih hp r hr)
    simpa [Tree.acts] using this
  | signed hd ih =>
    intro r a o hr hl
    exact Peg.seq2 (fun n s => by rw [peg]) (ih hp r hr) hl
  | @times p w q t t' hd hw hd' ih ih' =>
    intro r a o hr hl
    have := ih hp.1 (w ++ '*' :: (q ++ r)) _ o (by
      intro x hx
      rw [headS_append hw, headS_cons (by decide)] at hx
      cases hx
      simp) (summandLoop_times hw (ih' hp.2 r hr) hl)
    simpa [Tree.acts] using this
  | @over p w q t t' hd hw hd' ih ih' =>
    intro r a o hr hl
    have := ih hp.1 (w ++ '/' :: (q ++ r)) _ o (by
      intro x hx
      rw [headS_append hw, headS_cons (by decide)] at hx
      cases hx
      simp) (summandLoop_over hw (ih' hp.2 r hr) hl)
    simpa [Tree.acts] using this
  | @summand p t hd ih =>
    intro r a o hr hl
    have h1 := ih hp r [] (some r) hr.f (summandLoop_stop hr)
    rw [List.append_nil] at h1
    refine expression_plain ?_ h1 hl
    rcases head_not_plus hd r with h | ⟨x, h2, h3⟩
    · cases h
    · exact litC_none h2 h3
  | @plusSummand w p t hw hd ih =>
    intro r a o hr hl
    have h1 := ih hp r [] (some r) hr.f (summandLoop_stop hr)
    rw [List.append_nil] at h1
    have := expression_plus hw h1 hl
    simpa using this
  | @plus p w q t t' hd hw hd' ih ih' =>
    intro r a o hr hl
    have h1 := ih' hp.2 r [] (some r) hr.f (summandLoop_stop hr)
    rw [List.append_nil] at h1
    have := ih hp.1 (w ++ '+' :: (q ++ r)) _ o (by
      intro x hx
      rw [headS_append hw, headS_cons (by decide)] at hx
      cases hx
      simp) (expressionLoop_plus hw h1 hl)
    simpa [Tree.acts] using this
  | @minusSummand p w q t t' hd hw hd' ih ih' =>
    intro r a o hr hl
    have h1 := ih' hp.2 r [] (some r) hr.f (summandLoop_stop hr)
    rw [List.append_nil] at h1
    have := ih hp.1 (w ++ '-' :: (q ++ r)) _ o (by
      intro x hx
      rw [headS_append hw, headS_cons (by decide)] at hx
      cases hx
      simp) (expressionLoop_minus hw h1 hl)
    simpa [Tree.acts] using this

/-- A text is matched completely, with the actions of its tree. -/
theorem text_peg {s : Str} {t : Tree D} (h : IsText conv s t) (hp : t.All Name.Plain fun _ => True) :
    ∃ r, skipS r = [] ∧ peg conv (parseFuel s) .expression s = some (t.acts, some r) := by
  obtain ⟨p, w, rfl, hw, hd⟩ := h
  have h1 := Matched.close (derives_matched hd hp) (r := w) (by
    intro c hc
    rw [headS, skipS_spaces hw] at hc
    cases hc)
  obtain ⟨a, o, h2⟩ := peg_some (conv := conv) (p ++ w)
  have := h1.det ⟨_, h2⟩
  cases this
  exact ⟨w, skipS_spaces hw, h2⟩

end Tsym
