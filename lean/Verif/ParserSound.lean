import Verif.ParserThm
import Verif.Grammar

set_option autoImplicit false
set_option linter.unusedSimpArgs false

/-!
# What the rules match

A match is either the text of a syntax tree, with the actions of the tree and nothing else, or what remains
of the input begins with a character that no enclosing rule can match (`Stuck0`, `StuckF`, `StuckS`,
`StuckE`).
-/

namespace Tsym

open PRes

variable {D : Type} {conv : Str → Option D}

/-- The actions for a tree: first the operands, then the operation. -/
def Tree.acts : Tree D → List (Act D)
  | pi => [.pushPi]
  | e => [.pushEuler]
  | sym n => [.pushSymbol n]
  | dbl d => [.pushDouble d]
  | int s => [.pushInteger s]
  | fn f a => a.acts ++ [.toFunction f]
  | atan2 a b => a.acts ++ b.acts ++ [.toAtan2]
  | pow a b => a.acts ++ b.acts ++ [.toPower]
  | neg a => a.acts ++ [.flipSign]
  | mul a b => a.acts ++ b.acts ++ [.toProduct]
  | div a b => a.acts ++ b.acts ++ [.toQuotient]
  | add a b => a.acts ++ b.acts ++ [.toSum]
  | sub a b => a.acts ++ b.acts ++ [.toDifference]

/-! ## Combinators -/

theorem pre_some {a : List (Act D)} {p : PRes D} {b o} : p.pre a = some (b, o) ↔
    ∃ c, p = some (c, o) ∧ b = a ++ c := by
  rcases p with _ | ⟨c, o'⟩
  · simp [PRes.pre]
  · simp only [PRes.pre, Option.map_some, Option.some.injEq, Prod.mk.injEq]
    constructor
    · rintro ⟨rfl, rfl⟩; exact ⟨c, ⟨rfl, rfl⟩, rfl⟩
    · rintro ⟨c', ⟨rfl, rfl⟩, rfl⟩; exact ⟨rfl, rfl⟩

@[simp] theorem pre_nil (p : PRes D) : p.pre [] = p := by
  rcases p with _ | ⟨c, o'⟩ <;> rfl

theorem seq_some {p : PRes D} {q : Str → PRes D} {a r} : p.seq q = some (a, some r) ↔
    ∃ b r1 c, p = some (b, some r1) ∧ q r1 = some (c, some r) ∧ a = b ++ c := by
  rcases p with _ | ⟨b, _ | r1⟩
  · simp [PRes.seq]
  · simp [PRes.seq]
  · simp only [PRes.seq, pre_some]
    constructor
    · rintro ⟨c, h1, h2⟩; exact ⟨b, r1, c, rfl, h1, h2⟩
    · rintro ⟨b', r1', c, h1, h2, h3⟩; cases h1; exact ⟨c, h2, h3⟩

@[simp] theorem seq_ofOpt_none (q : Str → PRes D) : (ofOpt none : PRes D).seq q = some ([], none) := rfl

@[simp] theorem seq_ofOpt_some (r : Str) (q : Str → PRes D) : (ofOpt (some r) : PRes D).seq q = q r := by
  simp [PRes.seq, ofOpt]

theorem act_some {p : PRes D} {x : Act D} {a r} : p.act x = some (a, some r) ↔
    ∃ b, p = some (b, some r) ∧ a = b ++ [x] := by
  rcases p with _ | ⟨b, _ | r1⟩
  · simp [PRes.act]
  · simp [PRes.act]
  · simp only [PRes.act, Option.some.injEq, Prod.mk.injEq]
    constructor
    · rintro ⟨rfl, h⟩; exact ⟨b, ⟨rfl, h⟩, rfl⟩
    · rintro ⟨c, ⟨rfl, h⟩, rfl⟩; exact ⟨rfl, h⟩

theorem act_none {p : PRes D} {x : Act D} {a} : p.act x = some (a, none) ↔ p = some (a, none) := by
  rcases p with _ | ⟨b, _ | r1⟩ <;> simp [PRes.act]

theorem alt_some {p q : PRes D} {a r} : p.alt q = some (a, some r) ↔
    p = some (a, some r) ∨ ∃ b c, p = some (b, none) ∧ q = some (c, some r) ∧ a = b ++ c := by
  rcases p with _ | ⟨b, _ | r1⟩
  · simp [PRes.alt]
  · simp only [PRes.alt, pre_some]
    constructor
    · rintro ⟨c, h1, h2⟩; exact .inr ⟨b, c, rfl, h1, h2⟩
    · rintro (h | ⟨b', c, h1, h2, h3⟩)
      · cases h
      · cases h1; exact ⟨c, h2, h3⟩
  · simp [PRes.alt]

@[simp] theorem alt_fail (q : PRes D) : PRes.alt (some ([], none)) q = q := by simp [PRes.alt]

/-! ## White space and literals -/

/-- The first character after white space. -/
def headS (s : Str) : Option Char := (skipS s).head?

theorem takeWhile_all {p : Char → Bool} {s : Str} : ∀ c ∈ s.takeWhile p, p c = true := by
  induction s with
  | nil => simp
  | cons x s ih =>
    intro c hc
    rw [List.takeWhile_cons] at hc
    split at hc
    · rename_i hx
      rcases List.mem_cons.1 hc with rfl | h
      · exact hx
      · exact ih c h
    · simp at hc

theorem skipS_split (s : Str) : ∃ w, Spaces w ∧ s = w ++ skipS s := by
  refine ⟨s.takeWhile isSpaceC, fun c hc => ?_, (List.takeWhile_append_dropWhile).symm⟩
  exact takeWhile_all c hc

theorem headS_not_space {s : Str} {c : Char} (h : headS s = some c) : isSpaceC c = false := by
  unfold headS skipS at h
  have := List.head?_dropWhile_not isSpaceC s
  rw [h] at this
  simpa using this

theorem litC_iff {c : Char} {s r : Str} : litC c s = some r ↔ skipS s = c :: r := by
  unfold litC
  split
  · rename_i x r' hs
    simp only [hs, List.cons.injEq]
    split
    · rename_i hx; simp [hx]
    · rename_i hx; simp [hx]
  · rename_i hs; simp [hs]

theorem litC_head {c : Char} {s r : Str} (h : litC c s = some r) : headS s = some c := by
  rw [headS, litC_iff.1 h]; rfl

theorem litC_split {c : Char} {s r : Str} (h : litC c s = some r) : ∃ w, Spaces w ∧ s = w ++ c :: r := by
  obtain ⟨w, hw, hs⟩ := skipS_split s
  exact ⟨w, hw, by rw [litC_iff.1 h] at hs; exact hs⟩

theorem litC_none {c x : Char} {s : Str} (h : headS s = some x) (hx : x ≠ c) : litC c s = none := by
  cases hl : litC c s with
  | none => rfl
  | some r => rw [litC_head hl] at h; cases h; exact absurd rfl hx

theorem litC_some_of_head {c : Char} {s : Str} (h : headS s = some c) : ∃ r, litC c s = some r := by
  unfold headS at h
  cases hs : skipS s with
  | nil => rw [hs] at h; cases h
  | cons x r =>
    rw [hs] at h
    cases h
    exact ⟨r, litC_iff.2 hs⟩

theorem noCase_split {w s r : Str} (h : noCase w s = some r) : ∃ p, s = p ++ r ∧ SameWord p w := by
  induction w generalizing s with
  | nil => cases h; exact ⟨[], rfl, rfl⟩
  | cons c w ih =>
    cases s with
    | nil => cases h
    | cons x s =>
      simp only [noCase] at h
      split at h
      · rename_i hx
        obtain ⟨p, rfl, hp⟩ := ih h
        exact ⟨x :: p, rfl, by simp [SameWord, hx] at hp ⊢; exact hp⟩
      · cases h

theorem noCase_append {p w r : Str} (h : SameWord p w) : noCase w (p ++ r) = some r := by
  induction p generalizing w with
  | nil => cases h; rfl
  | cons x p ih =>
    cases w with
    | nil => cases h
    | cons c w =>
      simp only [SameWord, List.map_cons, List.cons.injEq] at h
      simp only [List.cons_append, noCase, h.1, if_true]
      exact ih h.2

/-! ## Remaining inputs that nothing can match -/

/-- After an operand. -/
def Stuck0 (r : Str) : Prop := headS r = some '(' ∨ headS r = some 'e' ∨ headS r = some 'E'

/-- After a factor. -/
def StuckF (conv : Str → Option D) (r : Str) : Prop :=
  Stuck0 r ∨ ∃ q, litC '^' r = some q ∧ ∀ a r', ¬ Peg conv .factor q (a, some r')

/-- After a summand. -/
def StuckS (conv : Str → Option D) (r : Str) : Prop :=
  StuckF conv r ∨ headS r = some '*' ∨ headS r = some '/'

/-- After an expression. -/
def StuckE (conv : Str → Option D) (r : Str) : Prop :=
  StuckS conv r ∨ headS r = some '+' ∨ headS r = some '-'

theorem Stuck0.lit {r : Str} (h : Stuck0 r) {c : Char} (h1 : c ≠ '(') (h2 : c ≠ 'e') (h3 : c ≠ 'E') :
    litC c r = none := by
  rcases h with h | h | h
  · exact litC_none h h1.symm
  · exact litC_none h h2.symm
  · exact litC_none h h3.symm

theorem StuckF.lit {r : Str} (h : StuckF conv r) {c : Char} (h1 : c ≠ '(') (h2 : c ≠ 'e') (h3 : c ≠ 'E')
    (h4 : c ≠ '^') : litC c r = none := by
  rcases h with h | ⟨q, h, -⟩
  · exact h.lit h1 h2 h3
  · exact litC_none (litC_head h) h4.symm

theorem StuckS.lit {r : Str} (h : StuckS conv r) {c : Char} (h1 : c ≠ '(') (h2 : c ≠ 'e') (h3 : c ≠ 'E')
    (h4 : c ≠ '^') (h5 : c ≠ '*') (h6 : c ≠ '/') : litC c r = none := by
  rcases h with h | h | h
  · exact h.lit h1 h2 h3 h4
  · exact litC_none h h5.symm
  · exact litC_none h h6.symm

theorem StuckE.lit {r : Str} (h : StuckE conv r) {c : Char} (h1 : c ≠ '(') (h2 : c ≠ 'e') (h3 : c ≠ 'E')
    (h4 : c ≠ '^') (h5 : c ≠ '*') (h6 : c ≠ '/') (h7 : c ≠ '+') (h8 : c ≠ '-') : litC c r = none := by
  rcases h with h | h | h
  · exact h.lit h1 h2 h3 h4 h5 h6
  · exact litC_none h h7.symm
  · exact litC_none h h8.symm

theorem Stuck0.head {r : Str} (h : Stuck0 r) : headS r ≠ none := by
  rcases h with h | h | h <;> simp [h]

theorem StuckE.head {r : Str} (h : StuckE conv r) : headS r ≠ none := by
  rcases h with ((h | ⟨q, h, -⟩) | h | h) | h | h
  · exact h.head
  · simp [litC_head h]
  all_goals simp [h]

/-! ## Scalars -/

theorem subscriptP_sound {s u r : Str} (h : subscriptP s = some (u, r)) :
    (∃ c, u = [c] ∧ isAlnumC c = true ∧ s = c :: r) ∨
      (u ≠ [] ∧ (∀ c ∈ u, isAlnumC c = true) ∧ s = '{' :: u ++ '}' :: r) := by
  cases s with
  | nil => cases h
  | cons c s =>
    simp only [subscriptP] at h
    split at h
    · rename_i hc
      subst hc
      split at h
      · cases h
      · rename_i hne
        split at h
        · rename_i x r' hr
          split at h
          · rename_i hx
            cases h
            subst hx
            refine .inr ⟨hne, takeWhile_all, ?_⟩
            have := List.takeWhile_append_dropWhile (p := isAlnumC) (l := s)
            rw [hr] at this
            rw [List.cons_append, this]
          · cases h
        · cases h
    · split at h
      · rename_i hc
        cases h
        exact .inl ⟨c, rfl, hc, rfl⟩
      · cases h

/-- What the symbol parser matches, if the reserved words have been excluded. -/
theorem symbolP_sound {s : Str} {n : Name} {r : Str} (h : symbolP s = some (n, r))
    (h1 : noCase ['p', 'i'] s = none) (h2 : noCase ['e', 'u', 'l', 'e', 'r'] s = none) {w : Str} (hw : Spaces w) :
    ∃ p, s = p ++ r ∧ Parses conv .operand (w ++ p) (.sym n) := by
  cases s with
  | nil => cases h
  | cons c s =>
    simp only [symbolP] at h
    have hs := List.takeWhile_append_dropWhile (p := isAlnumC) (l := s)
    split at h
    · rename_i hc
      have hn : IsName (c :: s.takeWhile isAlnumC) := by
        refine ⟨⟨c, _, rfl, hc, takeWhile_all⟩, fun hp => ?_, fun hp => ?_⟩
        · have := noCase_append (r := s.dropWhile isAlnumC) hp
          rw [List.cons_append, hs, h1] at this
          cases this
        · have := noCase_append (r := s.dropWhile isAlnumC) hp
          rw [List.cons_append, hs, h2] at this
          cases this
      split at h
      · rename_i x r' hr
        rw [hr] at hs
        split at h
        · rename_i hx
          subst hx
          split at h
          · rename_i u r'' hu
            cases h
            rcases subscriptP_sound hu with ⟨c', rfl, hc', rfl⟩ | ⟨hne, hall, rfl⟩
            · refine ⟨c :: s.takeWhile isAlnumC ++ ['_', c'], ?_, ?_⟩
              · conv_lhs => rw [← hs]
                simp
              · rw [← List.append_assoc]
                exact .symbolSub hw hn hc'
            · refine ⟨c :: s.takeWhile isAlnumC ++ '_' :: '{' :: u ++ ['}'], ?_, ?_⟩
              · conv_lhs => rw [← hs]
                simp
              · have := Parses.symbolBraces (conv := conv) hw hn hne hall
                simpa using this
          · cases h
            exact ⟨c :: s.takeWhile isAlnumC, by rw [List.cons_append, hs], .symbol hw hn⟩
        · cases h
          exact ⟨c :: s.takeWhile isAlnumC, by rw [List.cons_append, hs], .symbol hw hn⟩
      · rename_i hr
        rw [hr] at hs
        cases h
        exact ⟨c :: s.takeWhile isAlnumC, by rw [List.cons_append, hs], .symbol hw hn⟩
    · cases h

theorem signP_split (s : Str) : s = (signP s).1.toList ++ (signP s).2 ∧ ∀ c ∈ (signP s).1, c = '+' ∨ c = '-' := by
  cases s with
  | nil => simp [signP]
  | cons c s =>
    simp only [signP]
    split
    · rename_i h
      refine ⟨rfl, ?_⟩
      simpa using h
    · simp

theorem expP_sound (s : Str) : s = (expP s).1 ++ (expP s).2 ∧ ((expP s).1 = [] ∨ IsExponent (expP s).1) := by
  cases s with
  | nil => simp [expP]
  | cons x r =>
    simp only [expP]
    split
    · rename_i hx
      split
      · rename_i hd
        simp only [ne_eq, Bool.and_eq_true, decide_eq_true_eq] at hd
        obtain ⟨h1, h2⟩ := signP_split r
        refine ⟨?_, .inr ⟨x, (signP r).1, (signP r).2.takeWhile isDigitC, rfl, by simpa using hx, h2,
          ⟨by simpa using hd.1, takeWhile_all⟩, hd.2⟩⟩
        simp only [List.cons_append, List.append_assoc, List.takeWhile_append_dropWhile]
        rw [← h1]
      · simp
    · simp

/-- What the floating point parser matches: a literal, or digits before the letter e. -/
theorem realP_sound {s : Str} {d : D} {r : Str} (h : realP conv s = some (d, r)) :
    (∃ p, s = p ++ r ∧ IsReal p ∧ conv p = some d) ∨ r.head? = some 'e' ∨ r.head? = some 'E' := by
  unfold realP at h
  have hs := List.takeWhile_append_dropWhile (p := isDigitC) (l := s)
  simp only at h
  split at h
  · cases h
  · rename_i x r' hr
    rw [hr] at hs
    split at h
    · rename_i hx
      subst hx
      split at h
      · cases h
      · rename_i hne
        rw [Option.map_eq_some_iff] at h
        obtain ⟨d', hd, hd'⟩ := h
        cases hd'
        obtain ⟨h1, h2⟩ := expP_sound (r'.dropWhile isDigitC)
        refine .inl ⟨_, ?_, .inl ⟨_, _, _, rfl, takeWhile_all, takeWhile_all, ?_, h2⟩, hd⟩
        · simp only [List.append_assoc, List.cons_append]
          rw [← h1, List.takeWhile_append_dropWhile, hs]
        · simp only [Bool.and_eq_true, decide_eq_true_eq] at hne
          by_cases hi : s.takeWhile isDigitC = []
          · exact .inr fun hf => hne ⟨hi, hf⟩
          · exact .inl hi
    · split at h
      · cases h
      · rename_i hne
        split at h
        · rename_i hx
          rw [Option.map_eq_some_iff] at h
          obtain ⟨d', hd, hd'⟩ := h
          cases hd'
          obtain ⟨h1, h2⟩ := expP_sound (x :: r')
          rcases h2 with h2 | h2
          · rw [h2, List.nil_append] at h1
            rw [← h1]
            right
            simpa using hx
          · refine .inl ⟨_, ?_, .inr ⟨_, _, rfl, ⟨hne, takeWhile_all⟩, h2⟩, hd⟩
            rw [List.append_assoc, ← h1, hs]
        · cases h

theorem skipS_of_head {s : Str} {c : Char} (h : s.head? = some c) (hc : isSpaceC c = false) : skipS s = s := by
  cases s with
  | nil => cases h
  | cons x r =>
    cases h
    simp [skipS, hc]

theorem scalarP_sound {s : Str} {a : List (Act D)} {r : Str} (h : scalarP conv s = some (a, some r)) :
    (∃ p t, s = p ++ r ∧ Parses conv .operand p t ∧ a = t.acts) ∨ Stuck0 r := by
  obtain ⟨w, hw, hs⟩ := skipS_split s
  unfold scalarP at h
  simp only at h
  split at h
  · rename_i r' h1
    cases h
    obtain ⟨p, h2, h3⟩ := noCase_split h1
    exact .inl ⟨w ++ p, .pi, by rw [List.append_assoc, ← h2, ← hs], .pi hw h3, rfl⟩
  · rename_i hpi
    split at h
    · rename_i r' h1
      cases h
      obtain ⟨p, h2, h3⟩ := noCase_split h1
      exact .inl ⟨w ++ p, .e, by rw [List.append_assoc, ← h2, ← hs], .euler hw h3, rfl⟩
    · rename_i heu
      split at h
      · rename_i n r' h1
        cases h
        obtain ⟨p, h2, h3⟩ := symbolP_sound (conv := conv) h1 hpi heu hw
        exact .inl ⟨w ++ p, .sym n, by rw [List.append_assoc, ← h2, ← hs], h3, rfl⟩
      · split at h
        · rename_i d r' h1
          cases h
          rcases realP_sound h1 with ⟨p, h2, h3, h4⟩ | h2 | h2
          · exact .inl ⟨w ++ p, .dbl d, by rw [List.append_assoc, ← h2, ← hs], .double hw h3 h4, rfl⟩
          · exact .inr (.inr (.inl (by rw [headS, skipS_of_head h2 (by decide), h2])))
          · exact .inr (.inr (.inr (by rw [headS, skipS_of_head h2 (by decide), h2])))
        · split at h
          · rename_i n r' h1
            cases h
            unfold integerP at h1
            split at h1
            · cases h1
            · rename_i hne
              cases h1
              refine .inl ⟨w ++ _, .int _, ?_, .integer hw ⟨hne, takeWhile_all⟩, rfl⟩
              rw [List.append_assoc, List.takeWhile_append_dropWhile, ← hs]
          · cases h

/-! ## Functions -/

theorem noCase_head {c : Char} {w s r : Str} (h : noCase (c :: w) s = some r) : ∃ x s', s = x :: s' ∧ lowerC x = c := by
  cases s with
  | nil => cases h
  | cons x s =>
    simp only [noCase] at h
    split at h
    · rename_i hx; exact ⟨x, s, rfl, hx⟩
    · cases h

theorem lowerC_alpha {x : Char} (h : isAlphaC (lowerC x) = true) : isAlphaC x = true := by
  unfold lowerC at h
  split at h
  · rename_i hx
    simp only [isAlphaC, Bool.or_eq_true]
    exact .inl hx
  · exact h

theorem sameWord_alpha {p w : Str} (h : SameWord p w) (hw : ∀ c ∈ w, isAlphaC c = true) :
    ∀ c ∈ p, isAlphaC c = true := by
  intro c hc
  apply lowerC_alpha
  apply hw
  rw [← h]
  exact List.mem_map_of_mem hc

/-- Letters before a blank or a parenthesis are taken by the symbol parser. -/
theorem symbolP_word {c : Char} {p r : Str} (hc : isAlphaC c = true) (hp : ∀ x ∈ p, isAlnumC x = true)
    (hr : ∀ x, r.head? = some x → isAlnumC x = false ∧ x ≠ '_') :
    symbolP (c :: (p ++ r)) = some (⟨c :: p, [], []⟩, r) := by
  have h1 : (p ++ r).takeWhile isAlnumC = p := by
    rw [List.takeWhile_append_of_pos hp]
    cases r with
    | nil => simp
    | cons x r => simp [(hr x rfl).1]
  have h2 : (p ++ r).dropWhile isAlnumC = r := by
    rw [List.dropWhile_append_of_pos hp]
    cases r with
    | nil => simp
    | cons x r => simp [(hr x rfl).1]
  simp only [symbolP, hc, if_true, h1, h2]
  cases r with
  | nil => rfl
  | cons x r => simp [(hr x rfl).2]

theorem space_cases {c : Char} (h : isSpaceC c = true) :
    c = ' ' ∨ c = '\t' ∨ c = '\n' ∨ c = '\x0b' ∨ c = '\x0c' ∨ c = '\r' := by
  simpa [isSpaceC, or_assoc] using h

theorem space_not_word {c : Char} (h : isSpaceC c = true) : isAlnumC c = false ∧ c ≠ '_' := by
  rcases space_cases h with rfl | rfl | rfl | rfl | rfl | rfl <;> decide

/-- Before a literal there is white space or the literal itself. -/
theorem head_of_litC {c : Char} {r q : Str} (h : litC c r = some q) {x : Char} (hx : r.head? = some x) :
    isSpaceC x = true ∨ x = c := by
  obtain ⟨w, hw, rfl⟩ := litC_split h
  cases w with
  | nil => simp at hx; exact .inr hx.symm
  | cons y w => simp at hx; subst hx; exact .inl (hw _ (by simp))

/-- A word before a parenthesis, that is not a reserved word, is taken for a symbol. -/
theorem scalarP_word {s p r q : Str} (hs : skipS s = p ++ r) (hp : ∀ x ∈ p, isAlnumC x = true)
    (hne : ∃ c l, p = c :: l ∧ isAlphaC c = true ∧ lowerC c ≠ 'p' ∧ lowerC c ≠ 'e')
    (hq : litC '(' r = some q) {a : List (Act D)} {r' : Str} (h : scalarP conv s = some (a, some r')) : Stuck0 r' := by
  obtain ⟨c, l, rfl, hc, hcp, hce⟩ := hne
  unfold scalarP at h
  simp only [hs, List.cons_append, noCase, hcp, hce, if_false] at h
  rw [symbolP_word hc (fun x hx => hp x (by simp [hx]))] at h
  · cases h
    exact .inl (litC_head hq)
  · intro x hx
    rcases head_of_litC hq hx with h1 | rfl
    · exact space_not_word h1
    · decide

theorem PFct.text_word (f : PFct) : (∀ c ∈ f.text, isAlphaC c = true) ∧
    ∃ c l, f.text = c :: l ∧ c ≠ 'p' ∧ c ≠ 'e' := by
  cases f <;> refine ⟨by decide, _, _, rfl, by decide, by decide⟩

theorem fnP_head {s : Str} {f : PFct} {r : Str} (h : fnP s = some (f, r)) : ∃ x s', s = x :: s' ∧ isAlphaC x = true := by
  obtain ⟨h1, c, l, h2, -⟩ := f.text_word
  have h3 := fnP_noCase h
  rw [h2] at h3
  obtain ⟨x, s', rfl, hx⟩ := noCase_head h3
  exact ⟨x, s', rfl, lowerC_alpha (by rw [hx]; exact h1 c (by simp [h2]))⟩

/-- The statement about a rule that calls `expression`. -/
def ExprOk (conv : Str → Option D) (expr : Str → PRes D) : Prop :=
  ∀ s a r, expr s = some (a, some r) →
    (∃ p t, s = p ++ r ∧ Parses conv .expression p t ∧ a = t.acts) ∨ StuckE conv r

theorem ExprOk.close {expr : Str → PRes D} (he : ExprOk conv expr) {s r : Str} {a : List (Act D)}
    (h : expr s = some (a, some r)) {c : Char} (hc : c = ')' ∨ c = ',') {q : Str} (hq : litC c r = some q) :
    ∃ p w t, s = p ++ w ++ c :: q ∧ Spaces w ∧ Parses conv .expression p t ∧ a = t.acts := by
  rcases he s a r h with ⟨p, t, rfl, h1, h2⟩ | h1
  · obtain ⟨w, hw, rfl⟩ := litC_split hq
    exact ⟨p, w, t, by simp, hw, h1, h2⟩
  · have : litC c r = none := by
      rcases hc with rfl | rfl <;> exact h1.lit (by decide) (by decide) (by decide) (by decide) (by decide)
        (by decide) (by decide) (by decide)
    rw [this] at hq
    cases hq

theorem ofOpt_some {o : Option Str} {a : List (Act D)} {r : Str} : (ofOpt o : PRes D) = some (a, some r) ↔
    a = [] ∧ o = some r := by
  simp [ofOpt, eq_comm]

theorem oneArgP_sound {expr : Str → PRes D} (he : ExprOk conv expr) {s r : Str} {a : List (Act D)}
    (h : oneArgP expr s = some (a, some r)) : ∃ p t, s = p ++ r ∧ Parses conv .operand p t ∧ a = t.acts := by
  obtain ⟨w, hw, hs⟩ := skipS_split s
  unfold oneArgP at h
  split at h
  · cases h
  · rename_i f r1 hf
    obtain ⟨b, h1, rfl⟩ := act_some.1 h
    obtain ⟨_, r2, b1, h2, h3, rfl⟩ := seq_some.1 h1
    obtain ⟨rfl, h2'⟩ := ofOpt_some.1 h2
    obtain ⟨b2, r3, _, h4, h5, rfl⟩ := seq_some.1 h3
    obtain ⟨rfl, h5'⟩ := ofOpt_some.1 h5
    obtain ⟨p, w2, t, rfl, hw2, hd, rfl⟩ := he.close h4 (.inl rfl) h5'
    obtain ⟨w1, hw1, rfl⟩ := litC_split h2'
    obtain ⟨n, hn, hn'⟩ := noCase_split (fnP_noCase hf)
    refine ⟨w ++ n ++ w1 ++ '(' :: p ++ w2 ++ [')'], .fn f t, ?_, .function hw hn' hw1 hd hw2, by simp [Tree.acts]⟩
    rw [hs, hn]
    simp

theorem twoArgP_sound {expr : Str → PRes D} (he : ExprOk conv expr) {s r : Str} {a : List (Act D)}
    (h : twoArgP expr s = some (a, some r)) : ∃ p t, s = p ++ r ∧ Parses conv .operand p t ∧ a = t.acts := by
  obtain ⟨w, hw, hs⟩ := skipS_split s
  unfold twoArgP at h
  split at h
  · cases h
  · rename_i r1 hf
    obtain ⟨b, h1, rfl⟩ := act_some.1 h
    obtain ⟨_, r2, b1, h2, h3, rfl⟩ := seq_some.1 h1
    obtain ⟨rfl, h2'⟩ := ofOpt_some.1 h2
    obtain ⟨b2, r3, _, h4, h5, rfl⟩ := seq_some.1 h3
    obtain ⟨_, r4, _, h6, h7, rfl⟩ := seq_some.1 h5
    obtain ⟨rfl, h6'⟩ := ofOpt_some.1 h6
    obtain ⟨b3, r5, _, h8, h9, rfl⟩ := seq_some.1 h7
    obtain ⟨rfl, h9'⟩ := ofOpt_some.1 h9
    obtain ⟨p, w2, t, rfl, hw2, hd, rfl⟩ := he.close h4 (.inr rfl) h6'
    obtain ⟨p', w3, t', rfl, hw3, hd', rfl⟩ := he.close h8 (.inl rfl) h9'
    obtain ⟨w1, hw1, rfl⟩ := litC_split h2'
    obtain ⟨n, hn, hn'⟩ := noCase_split hf
    refine ⟨w ++ n ++ w1 ++ '(' :: p ++ w2 ++ ',' :: p' ++ w3 ++ [')'], .atan2 t t', ?_,
      .atan2 hw hn' hw1 hd hw2 hd' hw3, by simp [Tree.acts]⟩
    rw [hs, hn]
    simp

theorem parenP_sound {expr : Str → PRes D} (he : ExprOk conv expr) {s r : Str} {a : List (Act D)}
    (h : parenP expr s = some (a, some r)) : ∃ p t, s = p ++ r ∧ Parses conv .operand p t ∧ a = t.acts := by
  unfold parenP at h
  obtain ⟨_, r2, b1, h2, h3, rfl⟩ := seq_some.1 h
  obtain ⟨rfl, h2'⟩ := ofOpt_some.1 h2
  obtain ⟨b2, r3, _, h4, h5, rfl⟩ := seq_some.1 h3
  obtain ⟨rfl, h5'⟩ := ofOpt_some.1 h5
  obtain ⟨p, w2, t, rfl, hw2, hd, rfl⟩ := he.close h4 (.inl rfl) h5'
  obtain ⟨w, hw, rfl⟩ := litC_split h2'
  exact ⟨w ++ '(' :: p ++ w2 ++ [')'], t, by simp, .parens hw hd hw2, by simp⟩

/-- A function that does not match leaves no actions, or it is followed by a parenthesis. -/
theorem oneArgP_fail {expr : Str → PRes D} {s : Str} {a : List (Act D)} (h : oneArgP expr s = some (a, none)) :
    a = [] ∨ ∃ f p r q, skipS s = p ++ r ∧ SameWord p (PFct.text f) ∧ litC '(' r = some q := by
  unfold oneArgP at h
  split at h
  · cases h; exact .inl rfl
  · rename_i f r hf
    rw [act_none] at h
    cases hl : litC '(' r with
    | none => rw [hl] at h; cases h; exact .inl rfl
    | some q =>
      obtain ⟨n, hn, hn'⟩ := noCase_split (fnP_noCase hf)
      exact .inr ⟨f, n, r, q, hn, hn', hl⟩

theorem twoArgP_fail {expr : Str → PRes D} {s : Str} {a : List (Act D)} (h : twoArgP expr s = some (a, none)) :
    a = [] ∨ ∃ p r q, skipS s = p ++ r ∧ SameWord p ['a', 't', 'a', 'n', '2'] ∧ litC '(' r = some q := by
  unfold twoArgP at h
  split at h
  · cases h; exact .inl rfl
  · rename_i r hf
    rw [act_none] at h
    cases hl : litC '(' r with
    | none => rw [hl] at h; cases h; exact .inl rfl
    | some q =>
      obtain ⟨n, hn, hn'⟩ := noCase_split hf
      exact .inr ⟨n, r, q, hn, hn', hl⟩

theorem scalarP_fail_acts {s : Str} {a : List (Act D)} (h : scalarP conv s = some (a, none)) : a = [] := by
  unfold scalarP at h
  simp only at h
  split at h
  · cases h
  · split at h
    · cases h
    · split at h
      · cases h
      · split at h
        · cases h
        · split at h
          · cases h
          · cases h; rfl

theorem lowerC_atan2 {p : Str} (h : SameWord p ['a', 't', 'a', 'n', '2']) :
    (∀ x ∈ p, isAlnumC x = true) ∧ ∃ c l, p = c :: l ∧ isAlphaC c = true ∧ lowerC c ≠ 'p' ∧ lowerC c ≠ 'e' := by
  have key : ∀ x, isAlnumC (lowerC x) = true → isAlnumC x = true := by
    intro x hx
    unfold lowerC at hx
    split at hx
    · rename_i h1
      simp only [isAlnumC, isAlphaC, Bool.or_eq_true]
      exact .inl (.inl h1)
    · exact hx
  constructor
  · intro x hx
    apply key
    have : lowerC x ∈ ['a', 't', 'a', 'n', '2'] := by rw [← h]; exact List.mem_map_of_mem hx
    have h2 : ∀ y ∈ ['a', 't', 'a', 'n', '2'], isAlnumC y = true := by decide
    exact h2 _ this
  · cases p with
    | nil => cases h
    | cons c l =>
      simp only [SameWord, List.map_cons, List.cons.injEq] at h
      refine ⟨c, l, rfl, lowerC_alpha (by rw [h.1]; decide), ?_, ?_⟩ <;> rw [h.1] <;> decide

theorem fn_word {f : PFct} {p : Str} (h : SameWord p f.text) :
    (∀ x ∈ p, isAlnumC x = true) ∧ ∃ c l, p = c :: l ∧ isAlphaC c = true ∧ lowerC c ≠ 'p' ∧ lowerC c ≠ 'e' := by
  obtain ⟨h1, c, l, h2, h3, h4⟩ := f.text_word
  have ha := sameWord_alpha h h1
  refine ⟨fun x hx => by simp [isAlnumC, ha x hx], ?_⟩
  cases p with
  | nil => rw [h2] at h; cases h
  | cons x p =>
    rw [h2] at h
    simp only [SameWord, List.map_cons, List.cons.injEq] at h
    exact ⟨x, p, rfl, ha x (by simp), by rw [h.1]; exact h3, by rw [h.1]; exact h4⟩

theorem scalarP_word_some {s p r q : Str} (hs : skipS s = p ++ r) (hp : ∀ x ∈ p, isAlnumC x = true)
    (hne : ∃ c l, p = c :: l ∧ isAlphaC c = true ∧ lowerC c ≠ 'p' ∧ lowerC c ≠ 'e')
    (hq : litC '(' r = some q) : ∃ a r', scalarP conv s = some (a, some r') := by
  obtain ⟨c, l, rfl, hc, hcp, hce⟩ := hne
  unfold scalarP
  simp only [hs, List.cons_append, noCase, hcp, hce, if_false]
  rw [symbolP_word hc (fun x hx => hp x (by simp [hx]))]
  · exact ⟨_, _, rfl⟩
  · intro x hx
    rcases head_of_litC hq hx with h1 | rfl
    · exact space_not_word h1
    · decide

theorem twoArgP_none {expr : Str → PRes D} {f : PFct} {s p r q : Str} (hs : skipS s = p ++ r)
    (hp : SameWord p f.text) (hq : litC '(' r = some q) : twoArgP expr s = some ([], none) := by
  unfold twoArgP
  split
  · rfl
  · rename_i r2 hr2
    exfalso
    rw [hs] at hr2
    obtain ⟨x, hx, hx'⟩ := noCase_split hr2
    have h := congrArg (List.map lowerC) hx
    rw [List.map_append, List.map_append, hp, hx'] at h
    cases f <;> simp only [PFct.text, List.cons_append, List.nil_append, List.cons.injEq, reduceCtorEq] at h
    all_goals first
      | exact absurd h.1 (by decide)
      | exact absurd h.2.1 (by decide)
      | skip
    obtain ⟨-, -, -, -, h⟩ := h
    cases r with
    | nil => cases h
    | cons y r =>
      simp only [List.map_cons, List.cons.injEq] at h
      rcases head_of_litC hq (x := y) rfl with h1 | rfl
      · rcases space_cases h1 with rfl | rfl | rfl | rfl | rfl | rfl <;> exact absurd h.1 (by decide)
      · exact absurd h.1 (by decide)

theorem operand_sound {expr : Str → PRes D} (he : ExprOk conv expr) {s r : Str} {a : List (Act D)}
    (h : alt (oneArgP expr s) (alt (twoArgP expr s) (alt (scalarP conv s) (parenP expr s))) = some (a, some r)) :
    (∃ p t, s = p ++ r ∧ Parses conv .operand p t ∧ a = t.acts) ∨ Stuck0 r := by
  rcases alt_some.1 h with h | ⟨b, c, h1, h2, rfl⟩
  · exact .inl (oneArgP_sound he h)
  have key : ∀ p r1 q, skipS s = p ++ r1 → (∀ x ∈ p, isAlnumC x = true) →
      (∃ c l, p = c :: l ∧ isAlphaC c = true ∧ lowerC c ≠ 'p' ∧ lowerC c ≠ 'e') → litC '(' r1 = some q →
      ∀ c', alt (scalarP conv s) (parenP expr s) = some (c', some r) → Stuck0 r := by
    intro p r1 q h3 hw1 hw2 h5 c' h2
    rcases alt_some.1 h2 with h | ⟨b, c, h1, h2, rfl⟩
    · exact scalarP_word h3 hw1 hw2 h5 h
    · obtain ⟨_, _, h6⟩ := scalarP_word_some (conv := conv) h3 hw1 hw2 h5
      rw [h1] at h6
      cases h6
  rcases oneArgP_fail h1 with rfl | ⟨f, p, r1, q, h3, h4, h5⟩
  · rw [List.nil_append]
    rcases alt_some.1 h2 with k | ⟨b', c', k1, k2, rfl⟩
    · exact .inl (twoArgP_sound he k)
    · rcases twoArgP_fail k1 with rfl | ⟨p, r1, q, h3, h4, h5⟩
      · rw [List.nil_append]
        rcases alt_some.1 k2 with l | ⟨b'', c'', l1, l2, rfl⟩
        · exact scalarP_sound l
        · rw [scalarP_fail_acts l1, List.nil_append]
          exact .inl (parenP_sound he l2)
      · obtain ⟨hw1, hw2⟩ := lowerC_atan2 h4
        exact .inr (key p r1 q h3 hw1 hw2 h5 _ k2)
  · obtain ⟨hw1, hw2⟩ := fn_word h4
    rw [twoArgP_none h3 h4 h5, alt_fail] at h2
    exact .inr (key p r1 q h3 hw1 hw2 h5 _ h2)

/-! ## The rules -/

theorem star_some {p : PRes D} {next : Str → PRes D} {s r : Str} {a : List (Act D)} :
    p.star next s = some (a, some r) ↔
    (p = some (a, none) ∧ r = s) ∨ ∃ b r1 c, p = some (b, some r1) ∧ next r1 = some (c, some r) ∧ a = b ++ c := by
  rcases p with _ | ⟨b, _ | r1⟩
  · simp [PRes.star]
  · simp only [PRes.star, Option.some.injEq, Prod.mk.injEq]
    constructor
    · rintro ⟨rfl, h⟩; cases h; exact .inl ⟨⟨rfl, trivial⟩, rfl⟩
    · rintro (⟨⟨rfl, -⟩, rfl⟩ | ⟨b', r1, c, ⟨-, h⟩, -⟩)
      · exact ⟨rfl, rfl⟩
      · cases h
  · simp only [PRes.star, pre_some]
    constructor
    · rintro ⟨c, h1, h2⟩; exact .inr ⟨b, r1, c, rfl, h1, h2⟩
    · rintro (⟨h, -⟩ | ⟨b', r1', c, h1, h2, h3⟩)
      · cases h
      · cases h1; exact ⟨c, h2, h3⟩

/-- Before a minus sign there is no operand. -/
theorem operand_minus {n : Nat} {s q : Str} (h : litC '-' s = some q) {a o}
    (ho : peg conv n .operand s = some (a, o)) : a = [] ∧ o = none := by
  have hs := litC_iff.1 h
  cases n with
  | zero => cases ho
  | succ n =>
    have h1 : fnP ('-' :: q) = none := by
      cases hf : fnP ('-' :: q) with
      | none => rfl
      | some x =>
        obtain ⟨f, r⟩ := x
        obtain ⟨x, s', hx, hx'⟩ := fnP_head hf
        cases hx
        exact absurd hx' (by decide)
    have h2 : oneArgP (peg conv n .expression) s = some ([], none) := by
      unfold oneArgP
      rw [hs, h1]
      rfl
    have h3 : twoArgP (peg conv n .expression) s = some ([], none) := by
      unfold twoArgP
      rw [hs]
      rfl
    have h4 : scalarP conv s = some ([], none) := by
      have hd : isDigitC '-' = false := by decide
      unfold scalarP
      rw [hs]
      simp [noCase, symbolP, realP, integerP, hd, show isAlphaC '-' = false by decide,
        show lowerC '-' = '-' by decide]
    have h5 : parenP (peg conv n .expression) s = some ([], none) := by
      unfold parenP
      rw [litC_none (litC_head h) (by decide)]
      rfl
    rw [peg, h2, h3, h4, h5] at ho
    cases ho
    exact ⟨rfl, rfl⟩

theorem factor_minus {n : Nat} {s q : Str} (h : litC '-' s = some q) {a o}
    (ho : peg conv n .factor s = some (a, o)) : a = [] ∧ o = none := by
  cases n with
  | zero => cases ho
  | succ n =>
    rw [peg] at ho
    cases hp : peg conv n .operand s with
    | none => rw [hp] at ho; cases ho
    | some x =>
      obtain ⟨b, o'⟩ := x
      obtain ⟨rfl, rfl⟩ := operand_minus h hp
      rw [hp] at ho
      cases ho
      exact ⟨rfl, rfl⟩

/-- What the rules match, for a given depth. -/
structure RulesOk (conv : Str → Option D) (n : Nat) : Prop where
  operand : ∀ s a r, peg conv n .operand s = some (a, some r) →
    (∃ p t, s = p ++ r ∧ Parses conv .operand p t ∧ a = t.acts) ∨ Stuck0 r
  factorLoop : ∀ s a r, peg conv n .factorLoop s = some (a, some r) → ∀ p0 t0, Parses conv .operand p0 t0 →
    (∃ p t, s = p ++ r ∧ Parses conv .factor (p0 ++ p) t ∧ t0.acts ++ a = t.acts ∧ litC '^' r = none) ∨
      StuckF conv r
  factor : ∀ s a r, peg conv n .factor s = some (a, some r) →
    (∃ p t, s = p ++ r ∧ Parses conv .factor p t ∧ a = t.acts ∧ litC '^' r = none) ∨ StuckF conv r
  signed : ∀ s a r, peg conv n .signed s = some (a, some r) →
    (∃ p t, s = p ++ r ∧ Parses conv .signed p t ∧ a = t.acts) ∨ StuckF conv r
  summandLoop : ∀ s a r, peg conv n .summandLoop s = some (a, some r) → ∀ p0 t0, Parses conv .summand p0 t0 →
    (∃ p t, s = p ++ r ∧ Parses conv .summand (p0 ++ p) t ∧ t0.acts ++ a = t.acts) ∨ StuckS conv r
  summand : ∀ s a r, peg conv n .summand s = some (a, some r) →
    (∃ p t, s = p ++ r ∧ Parses conv .summand p t ∧ a = t.acts) ∨ StuckS conv r
  expressionLoop : ∀ s a r, peg conv n .expressionLoop s = some (a, some r) →
    ∀ p0 t0, Parses conv .expression p0 t0 →
    (∃ p t, s = p ++ r ∧ Parses conv .expression (p0 ++ p) t ∧ t0.acts ++ a = t.acts) ∨ StuckE conv r
  expression : ExprOk conv (peg conv n .expression)

/-- The loop over exponents ends where no exponent can follow. -/
theorem factorLoop_end {n : Nat} {s r : Str} {a : List (Act D)}
    (h : peg conv n .factorLoop s = some (a, some r)) (hs : litC '^' s = none) : a = [] ∧ r = s := by
  cases n with
  | zero => cases h
  | succ n =>
    rw [peg, hs, seq_ofOpt_none] at h
    cases h
    exact ⟨rfl, rfl⟩

theorem factorLoop_stuck {n : Nat} {s r : Str} {a : List (Act D)}
    (h : peg conv n .factorLoop s = some (a, some r)) (hs : StuckF conv s) : r = s := by
  cases n with
  | zero => cases h
  | succ n =>
    rcases hs with hs | ⟨q, hq, hs⟩
    · exact (factorLoop_end h (hs.lit (by decide) (by decide) (by decide))).2
    · rw [peg, hq, seq_ofOpt_some] at h
      rcases star_some.1 h with ⟨-, h⟩ | ⟨b, r1, c, h1, -, -⟩
      · exact h
      · obtain ⟨b', h2, -⟩ := act_some.1 h1
        exact absurd ⟨n, h2⟩ (hs _ _)

theorem summandLoop_end {n : Nat} {s r : Str} {a : List (Act D)}
    (h : peg conv n .summandLoop s = some (a, some r)) (h1 : litC '*' s = none) (h2 : litC '/' s = none) :
    a = [] ∧ r = s := by
  cases n with
  | zero => cases h
  | succ n =>
    rw [peg, h1, h2, seq_ofOpt_none] at h
    cases h
    exact ⟨rfl, rfl⟩

theorem expressionLoop_end {n : Nat} {s r : Str} {a : List (Act D)}
    (h : peg conv n .expressionLoop s = some (a, some r)) (h1 : litC '+' s = none) (h2 : litC '-' s = none) :
    a = [] ∧ r = s := by
  cases n with
  | zero => cases h
  | succ n =>
    rw [peg, h1, h2, seq_ofOpt_none] at h
    cases h
    exact ⟨rfl, rfl⟩

theorem rules_ok (n : Nat) : RulesOk conv n := by
  induction n with
  | zero => constructor <;> intro s a r h <;> cases h
  | succ n ih =>
    constructor
    · intro s a r h
      rw [peg] at h
      exact operand_sound ih.expression h
    · intro s a r h p0 t0 h0
      rw [peg] at h
      rcases star_some.1 h with ⟨h1, rfl⟩ | ⟨b, r1, c, h1, h2, rfl⟩
      · cases hl : litC '^' r with
        | none =>
          rw [hl, seq_ofOpt_none] at h1
          cases h1
          exact .inl ⟨[], t0, rfl, by rw [List.append_nil]; exact .operand h0, by simp, rfl⟩
        | some q =>
          rw [hl, seq_ofOpt_some, act_none] at h1
          exact .inr (.inr ⟨q, hl, fun a' r' hp => by cases hp.det ⟨n, h1⟩⟩)
      · cases hl : litC '^' s with
        | none =>
          rw [hl, seq_ofOpt_none] at h1
          cases h1
        | some q =>
          rw [hl, seq_ofOpt_some] at h1
          obtain ⟨b', h3, rfl⟩ := act_some.1 h1
          rcases ih.factor _ _ _ h3 with ⟨p, t, rfl, h4, rfl, h5⟩ | h4
          · obtain ⟨rfl, rfl⟩ := factorLoop_end h2 h5
            obtain ⟨w, hw, rfl⟩ := litC_split hl
            refine .inl ⟨w ++ '^' :: p, .pow t0 t, by simp, ?_, by simp [Tree.acts], h5⟩
            have := Parses.power h0 hw h4
            simpa using this
          · rw [factorLoop_stuck h2 h4]
            exact .inr h4
    · intro s a r h
      rw [peg] at h
      obtain ⟨b, r1, c, h1, h2, rfl⟩ := seq_some.1 h
      rcases ih.operand _ _ _ h1 with ⟨p, t, rfl, h3, rfl⟩ | h3
      · rcases ih.factorLoop _ _ _ h2 p t h3 with ⟨p', t', rfl, h4, h5, h6⟩ | h4
        · exact .inl ⟨p ++ p', t', by simp, h4, h5, h6⟩
        · exact .inr h4
      · rw [factorLoop_stuck h2 (.inl h3)]
        exact .inr (.inl h3)
    · intro s a r h
      rw [peg] at h
      rcases alt_some.1 h with h1 | ⟨b, c, h1, h2, rfl⟩
      · rcases ih.factor _ _ _ h1 with ⟨p, t, rfl, h4, rfl, h5⟩ | h4
        · exact .inl ⟨p, t, rfl, .factor h4, rfl⟩
        · exact .inr h4
      · cases hl : litC '-' s with
        | none => rw [hl, seq_ofOpt_none] at h2; cases h2
        | some q =>
          rw [hl, seq_ofOpt_some] at h2
          obtain ⟨b', h3, rfl⟩ := act_some.1 h2
          obtain ⟨rfl, -⟩ := factor_minus hl h1
          rcases ih.factor _ _ _ h3 with ⟨p, t, rfl, h4, rfl, h5⟩ | h4
          · obtain ⟨w, hw, rfl⟩ := litC_split hl
            exact .inl ⟨w ++ '-' :: p, .neg t, by simp, .minus hw h4, by simp [Tree.acts]⟩
          · exact .inr h4
    · intro s a r h p0 t0 h0
      rw [peg] at h
      rcases star_some.1 h with ⟨h1, rfl⟩ | ⟨b, r1, c, h1, h2, rfl⟩
      · cases hl : litC '*' r with
        | some q => exact .inr (.inr (.inl (litC_head hl)))
        | none =>
          cases hl' : litC '/' r with
          | some q => exact .inr (.inr (.inr (litC_head hl')))
          | none =>
            rw [hl, hl', seq_ofOpt_none] at h1
            cases h1
            exact .inl ⟨[], t0, rfl, by rw [List.append_nil]; exact h0, by simp⟩
      · have stuck : StuckF conv r1 → StuckS conv r := by
          intro h4
          obtain ⟨-, rfl⟩ := summandLoop_end h2 (h4.lit (by decide) (by decide) (by decide) (by decide))
            (h4.lit (by decide) (by decide) (by decide) (by decide))
          exact .inl h4
        cases hl : litC '*' s with
        | some q =>
          have hl' : litC '/' s = none := litC_none (litC_head hl) (by decide)
          rw [hl, hl', seq_ofOpt_some, seq_ofOpt_none] at h1
          rcases alt_some.1 h1 with h3 | ⟨_, _, -, h3, -⟩
          · obtain ⟨b', k3, rfl⟩ := act_some.1 h3
            rcases ih.signed _ _ _ k3 with ⟨p, t, rfl, h4, rfl⟩ | h4
            · obtain ⟨w, hw, rfl⟩ := litC_split hl
              rcases ih.summandLoop _ _ _ h2 _ _ (.times h0 hw h4) with ⟨p', t', rfl, h6, h7⟩ | h6
              · exact .inl ⟨w ++ '*' :: p ++ p', t', by simp, by simpa using h6, by simpa [Tree.acts] using h7⟩
              · exact .inr h6
            · exact .inr (stuck h4)
          · cases h3
        | none =>
          rw [hl, seq_ofOpt_none] at h1
          cases hl' : litC '/' s with
          | none => rw [hl', seq_ofOpt_none] at h1; cases h1
          | some q =>
            rw [hl', seq_ofOpt_some] at h1
            rcases alt_some.1 h1 with h3 | ⟨_, _, h3, h4, rfl⟩
            · cases h3
            · cases h3
              obtain ⟨b', h3, rfl⟩ := act_some.1 h4
              rcases ih.signed _ _ _ h3 with ⟨p, t, rfl, k4, rfl⟩ | k4
              · obtain ⟨w, hw, rfl⟩ := litC_split hl'
                rcases ih.summandLoop _ _ _ h2 _ _ (.over h0 hw k4) with ⟨p', t', rfl, h6, h7⟩ | h6
                · exact .inl ⟨w ++ '/' :: p ++ p', t', by simp, by simpa using h6, by simpa [Tree.acts] using h7⟩
                · exact .inr h6
              · exact .inr (stuck k4)
    · intro s a r h
      rw [peg] at h
      obtain ⟨b, r1, c, h1, h2, rfl⟩ := seq_some.1 h
      rcases ih.signed _ _ _ h1 with ⟨p, t, rfl, h3, rfl⟩ | h3
      · rcases ih.summandLoop _ _ _ h2 p t (.signed h3) with ⟨p', t', rfl, h4, h5⟩ | h4
        · exact .inl ⟨p ++ p', t', by simp, h4, h5⟩
        · exact .inr h4
      · obtain ⟨-, rfl⟩ := summandLoop_end h2 (h3.lit (by decide) (by decide) (by decide) (by decide))
          (h3.lit (by decide) (by decide) (by decide) (by decide))
        exact .inr (.inl h3)
    · intro s a r h p0 t0 h0
      rw [peg] at h
      rcases star_some.1 h with ⟨h1, rfl⟩ | ⟨b, r1, c, h1, h2, rfl⟩
      · cases hl : litC '+' r with
        | some q => exact .inr (.inr (.inl (litC_head hl)))
        | none =>
          cases hl' : litC '-' r with
          | some q => exact .inr (.inr (.inr (litC_head hl')))
          | none =>
            rw [hl, hl', seq_ofOpt_none] at h1
            cases h1
            exact .inl ⟨[], t0, rfl, by rw [List.append_nil]; exact h0, by simp⟩
      · have stuck : StuckS conv r1 → StuckE conv r := by
          intro h4
          obtain ⟨-, rfl⟩ := expressionLoop_end h2
            (h4.lit (by decide) (by decide) (by decide) (by decide) (by decide) (by decide))
            (h4.lit (by decide) (by decide) (by decide) (by decide) (by decide) (by decide))
          exact .inl h4
        cases hl : litC '+' s with
        | some q =>
          have hl' : litC '-' s = none := litC_none (litC_head hl) (by decide)
          rw [hl, hl', seq_ofOpt_some, seq_ofOpt_none] at h1
          rcases alt_some.1 h1 with h3 | ⟨_, _, -, h3, -⟩
          · obtain ⟨b', k3, rfl⟩ := act_some.1 h3
            rcases ih.summand _ _ _ k3 with ⟨p, t, rfl, h4, rfl⟩ | h4
            · obtain ⟨w, hw, rfl⟩ := litC_split hl
              rcases ih.expressionLoop _ _ _ h2 _ _ (.plus h0 hw h4) with ⟨p', t', rfl, h6, h7⟩ | h6
              · exact .inl ⟨w ++ '+' :: p ++ p', t', by simp, by simpa using h6, by simpa [Tree.acts] using h7⟩
              · exact .inr h6
            · exact .inr (stuck h4)
          · cases h3
        | none =>
          rw [hl, seq_ofOpt_none] at h1
          cases hl' : litC '-' s with
          | none => rw [hl', seq_ofOpt_none] at h1; cases h1
          | some q =>
            rw [hl', seq_ofOpt_some] at h1
            rcases alt_some.1 h1 with h3 | ⟨_, _, h3, h4, rfl⟩
            · cases h3
            · cases h3
              obtain ⟨b', h3, rfl⟩ := act_some.1 h4
              rcases ih.summand _ _ _ h3 with ⟨p, t, rfl, k4, rfl⟩ | k4
              · obtain ⟨w, hw, rfl⟩ := litC_split hl'
                rcases ih.expressionLoop _ _ _ h2 _ _ (.minusSummand h0 hw k4) with ⟨p', t', rfl, h6, h7⟩ | h6
                · exact .inl ⟨w ++ '-' :: p ++ p', t', by simp, by simpa using h6, by simpa [Tree.acts] using h7⟩
                · exact .inr h6
              · exact .inr (stuck k4)
    · intro s a r h
      rw [peg] at h
      obtain ⟨b, r0, c, h1, h2, rfl⟩ := seq_some.1 h
      obtain ⟨b', r1, c', h3, h4, rfl⟩ := seq_some.1 h2
      have hb : b = [] ∧ ((∃ w, Spaces w ∧ s = w ++ '+' :: r0) ∨ s = r0) := by
        rcases alt_some.1 h1 with h5 | ⟨_, _, h5, h6, rfl⟩
        · obtain ⟨rfl, k5⟩ := ofOpt_some.1 h5
          exact ⟨rfl, .inl (litC_split k5)⟩
        · obtain ⟨rfl, k6⟩ := ofOpt_some.1 h6
          cases k6
          simp only [ofOpt, Option.some.injEq, Prod.mk.injEq] at h5
          obtain ⟨rfl, -⟩ := h5
          exact ⟨rfl, .inr rfl⟩
      obtain ⟨rfl, hs⟩ := hb
      rcases ih.summand _ _ _ h3 with ⟨p, t, rfl, h5, rfl⟩ | h5
      · rcases hs with ⟨w, hw, rfl⟩ | rfl
        · rcases ih.expressionLoop _ _ _ h4 _ t (.plusSummand hw h5) with ⟨p', t', rfl, h6, h7⟩ | h6
          · exact .inl ⟨w ++ '+' :: p ++ p', t', by simp, by simpa using h6, by simpa using h7⟩
          · exact .inr h6
        · rcases ih.expressionLoop _ _ _ h4 p t (.summand h5) with ⟨p', t', rfl, h6, h7⟩ | h6
          · exact .inl ⟨p ++ p', t', by simp, h6, by simpa using h7⟩
          · exact .inr h6
      · obtain ⟨-, rfl⟩ := expressionLoop_end h4
          (h5.lit (by decide) (by decide) (by decide) (by decide) (by decide) (by decide))
          (h5.lit (by decide) (by decide) (by decide) (by decide) (by decide) (by decide))
        exact .inr (.inl h5)

/-- A match of the whole input is a text, and the actions are those of its tree. -/
theorem peg_text {n : Nat} {s r : Str} {a : List (Act D)} (h : peg conv n .expression s = some (a, some r))
    (hr : skipS r = []) : ∃ t, IsText conv s t ∧ a = t.acts := by
  rcases (rules_ok n).expression _ _ _ h with ⟨p, t, rfl, h1, h2⟩ | h1
  · obtain ⟨w, hw, h3⟩ := skipS_split r
    rw [hr, List.append_nil] at h3
    subst h3
    exact ⟨t, ⟨p, r, rfl, hw, h1⟩, h2⟩
  · exact absurd (by rw [headS, hr]; rfl) h1.head

/-! ## Execution of the actions of a tree -/

section

variable [Flt D] (E : Eng D) (u : Err)

theorem exec_append (a b : List (Act D)) (st : List (Expr D)) :
    exec E u (a ++ b) st = (do let st' ← exec E u a st; exec E u b st') := by
  induction a generalizing st with
  | nil => simp only [List.nil_append, exec, pure_bind]
  | cons x a ih => simp only [List.cons_append, exec, bind_assoc, ih]

theorem PFct.apply_eq (f : PFct) : f.apply E = f.call E := by cases f <;> rfl

theorem exec_one (x : Act D) (st : List (Expr D)) : exec E u [x] st = x.run E u st := by
  simp only [exec, bind_pure]

/-- The actions of a tree put its value on the stack. -/
theorem exec_acts (t : Tree D) (st : List (Expr D)) :
    exec E u t.acts st = (do let v ← t.eval E cppInt; pure (v :: st)) := by
  induction t generalizing st with
  | pi | e | sym | dbl => simp only [Tree.acts, exec_one, Act.run, Tree.eval, pure_bind, mkSymbol]
  | int s =>
    simp only [Tree.acts, exec_one, Act.run, Tree.eval, bind_assoc, pure_bind]
    rfl
  | fn f a ih =>
    simp only [Tree.acts, exec_append, ih, exec_one, Act.run, Tree.eval, bind_assoc, pure_bind, PFct.apply_eq]
  | neg a ih =>
    simp only [Tree.acts, exec_append, ih, exec_one, Act.run, Tree.eval, bind_assoc, pure_bind, Api.neg]
  | div a b iha ihb | sub a b iha ihb =>
    simp only [Tree.acts, exec_append, iha, ihb, exec_one, Act.run, Tree.eval, bind_assoc, pure_bind, Api.div,
      Api.sub]
  | atan2 a b iha ihb | pow a b iha ihb | mul a b iha ihb | add a b iha ihb =>
    simp only [Tree.acts, exec_append, iha, ihb, exec_one, Act.run, Tree.eval, bind_assoc, pure_bind, Api.atan2,
      Api.pow, Api.mul, Api.add]

end

end Tsym
