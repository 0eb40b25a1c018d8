import Verif.ParserComplete
import Verif.NameFct
import Verif.Props.Values

set_option autoImplicit false
set_option linter.unusedSimpArgs false
set_option linter.unusedSectionVars false

/-!
# Parser: C33, C34, C35

The language and the value of a text are defined in Grammar.lean.
-/

namespace Tsym

variable {D : Type} [Flt D] (E : Eng D) (conv : Str → Option D)

/-! ## C34 -/

/-- C34: taking from an empty stack does not occur: whatever its outcome would be, the result of the parser
is the same, for every string. -/
theorem C34_no_underflow (u v : Err) (s : Str) : parseFrom E u conv s = parseFrom E v conv s := by
  unfold parseFrom
  split
  · obtain ⟨a, o, h⟩ := peg_some (conv := conv) s
    rw [h]
    obtain ⟨k, hk⟩ : ∃ k, height a 0 = some k := by
      obtain h1 := peg_grows (conv := conv) (parseFuel s) .expression s
      rw [h] at h1
      obtain ⟨j, hj, -⟩ := h1 a o rfl 0 (Nat.le_refl _)
      exact ⟨j, hj⟩
    simp only
    rw [exec_under E u v a [] k hk]
  · rfl

/-- The parser always gets to the end of the rules. -/
theorem parse_terminates (s : Str) : ∃ a o, peg conv (parseFuel s) .expression s = some (a, o) :=
  peg_some (conv := conv) s

/-! ## C33 -/

/-- The string consists of ASCII characters. -/
def Ascii (s : Str) : Prop := ∀ c ∈ s, c.toNat < 128

theorem parse_eq {s : Str} {t : Tree D} {r : Str} (ha : Ascii s) (hr : skipS r = [])
    (h : peg conv (parseFuel s) .expression s = some (t.acts, some r)) :
    Api.parse E conv s = (do let v ← t.eval E cppInt; pure (some v)) := by
  unfold Api.parse parseFrom
  have ha' : (s.all fun c => decide (c.toNat < 128)) = true := by
    simpa [List.all_eq_true, Ascii] using ha
  rw [if_pos ha', h]
  simp only [exec_acts, bind_assoc, pure_bind, hr, Option.isSome_some, List.headD_cons, decide_true, Bool.and_self,
    if_true]

/-- C33: if the parser accepts a string, then the string is a text of the language, and the value is the
value of its tree, with the outcome of every operation. Integers are read by the constructor of cpp_int. -/
theorem C33_sound {s : Str} {v : Expr D} {cs} (h : Api.parse E conv s = .ok (some v, cs)) :
    Ascii s ∧ ∃ t, IsText conv s t ∧ t.eval E cppInt = .ok (v, cs) := by
  have ha : Ascii s := by
    by_contra hn
    have ha' : ¬ (s.all fun c => decide (c.toNat < 128)) = true := by
      simpa [List.all_eq_true, Ascii] using hn
    unfold Api.parse parseFrom at h
    rw [if_neg ha', pure_bind] at h
    cases h
  refine ⟨ha, ?_⟩
  obtain ⟨a, o, hp⟩ := peg_some (conv := conv) s
  have hacc : ∃ r, o = some r ∧ skipS r = [] := by
    unfold Api.parse parseFrom at h
    have ha' : (s.all fun c => decide (c.toNat < 128)) = true := by
      simpa [List.all_eq_true, Ascii] using ha
    rw [if_pos ha', hp] at h
    obtain ⟨p, c1, c2, h1, h2, -⟩ := M.bind_ok.1 h
    obtain ⟨st, c3, c4, h3, h4, -⟩ := M.bind_ok.1 h1
    cases h4
    cases o with
    | none => cases h2
    | some r =>
      refine ⟨r, rfl, ?_⟩
      by_contra hn
      simp [hn] at h2
      cases h2
  obtain ⟨r, rfl, hr⟩ := hacc
  obtain ⟨t, ht, rfl⟩ := peg_text hp hr
  refine ⟨t, ht, ?_⟩
  rw [parse_eq E conv ha hr hp] at h
  obtain ⟨w, c1, c2, h1, h2, rfl⟩ := M.bind_ok.1 h
  cases h2
  rwa [List.append_nil]

/-- C33, other direction: a text of the language is accepted, and its value is the value of the tree.
The part that is false: names that begin with "pi" or "euler" are not accepted (`C33_false_prefix`). -/
theorem C33_complete_partial {s : Str} {t : Tree D} (ha : Ascii s) (h : IsText conv s t)
    (hp : t.All Name.Plain fun _ => True) :
    Api.parse E conv s = (do let v ← t.eval E cppInt; pure (some v)) := by
  obtain ⟨r, hr, hpeg⟩ := text_peg h hp
  exact parse_eq E conv ha hr hpeg

theorem cppInt_noZero {s : Str} (h : NoZero s) : cppInt s = .ok (decVal s) := by
  unfold cppInt
  split
  · cases h rfl
    rfl
  · rfl

theorem eval_decimal {P : Name → Prop} (t : Tree D) (h : t.All P NoZero) :
    t.eval E cppInt = t.eval E fun s => .ok (decVal s) := by
  induction t with
  | pi | e | sym | dbl => rfl
  | int s => simp only [Tree.eval, cppInt_noZero (show NoZero s from h)]
  | fn f a ih | neg a ih => simp only [Tree.eval, ih h]
  | atan2 a b iha ihb | pow a b iha ihb | mul a b iha ihb | div a b iha ihb | add a b iha ihb | sub a b iha ihb =>
    simp only [Tree.eval, iha h.1, ihb h.2]

theorem Tree.All.mono {P P' : Name → Prop} {Q Q' : Str → Prop} (hP : ∀ n, P n → P' n) (hQ : ∀ s, Q s → Q' s)
    {t : Tree D} (h : t.All P Q) : t.All P' Q' := by
  induction t with
  | pi | e | dbl => trivial
  | sym n => exact hP _ h
  | int s => exact hQ _ h
  | fn f a ih | neg a ih => exact ih h
  | atan2 a b iha ihb | pow a b iha ihb | mul a b iha ihb | div a b iha ihb | add a b iha ihb | sub a b iha ihb =>
    exact ⟨iha h.1, ihb h.2⟩

/-- C33 with decimal integers: if no integer begins with a superfluous zero, then integers have their decimal
value. The part that is false: integers with a leading zero (`C33_false_octal`). -/
theorem C33_decimal_partial {s : Str} {t : Tree D} (ha : Ascii s) (h : IsText conv s t)
    (hp : t.All Name.Plain NoZero) :
    Api.parse E conv s = (do let v ← t.eval E fun s => .ok (decVal s); pure (some v)) := by
  rw [← eval_decimal E t hp]
  exact C33_complete_partial E conv ha h (hp.mono (fun _ => id) fun _ _ => trivial)

/-- The trees on a stack, after actions. -/
def build : List (Act D) → List (Tree D) → List (Tree D)
  | [], st => st
  | x :: l, st => build l (match x, st with
    | .pushPi, st => .pi :: st
    | .pushEuler, st => .e :: st
    | .pushSymbol n, st => .sym n :: st
    | .pushDouble d, st => .dbl d :: st
    | .pushInteger s, st => .int s :: st
    | .toFunction f, a :: st => .fn f a :: st
    | .flipSign, a :: st => .neg a :: st
    | .toAtan2, b :: a :: st => .atan2 a b :: st
    | .toPower, b :: a :: st => .pow a b :: st
    | .toProduct, b :: a :: st => .mul a b :: st
    | .toQuotient, b :: a :: st => .div a b :: st
    | .toSum, b :: a :: st => .add a b :: st
    | .toDifference, b :: a :: st => .sub a b :: st
    | _, st => st)

theorem build_append (a b : List (Act D)) (st : List (Tree D)) : build (a ++ b) st = build b (build a st) := by
  induction a generalizing st with
  | nil => rfl
  | cons x a ih => simp only [List.cons_append, build, ih]

theorem build_acts (t : Tree D) (st : List (Tree D)) : build t.acts st = t :: st := by
  induction t generalizing st with
  | pi | e | sym | dbl | int => rfl
  | fn f a ih | neg a ih => simp only [Tree.acts, build_append, ih]; rfl
  | atan2 a b iha ihb | pow a b iha ihb | mul a b iha ihb | div a b iha ihb | add a b iha ihb | sub a b iha ihb =>
    simp only [Tree.acts, build_append, iha, ihb]; rfl

/-- The language is unambiguous: a text has one tree. -/
theorem C33_unambiguous_partial {s : Str} {t t' : Tree D} (h : IsText conv s t) (h' : IsText conv s t')
    (hp : t.All Name.Plain fun _ => True) (hp' : t'.All Name.Plain fun _ => True) : t = t' := by
  obtain ⟨r, -, h1⟩ := text_peg h hp
  obtain ⟨r', -, h2⟩ := text_peg h' hp'
  rw [h1] at h2
  simp only [Option.some.injEq, Prod.mk.injEq] at h2
  have := congrArg (fun a => build a []) h2.1
  simpa [build_acts] using this

/-! ## C35 -/

/-- A legal name: letters and digits, beginning with a letter, and a subscript of letters and digits. -/
structure Name.Legal (n : Name) : Prop where
  value : IsName n.value
  sub : ∀ c ∈ n.sub, isAlnumC c = true
  sup : n.sup = []

theorem alnum_ascii {c : Char} (h : isAlnumC c = true) : c.toNat < 128 := by
  simp only [isAlnumC, isAlphaC, isDigitC, Bool.or_eq_true, Bool.and_eq_true, decide_eq_true_eq] at h
  omega

/-- The text of a legal name is a text for the symbol. -/
theorem concat_text {n : Name} (h : n.Legal) : IsText conv n.concat (.sym n) ∧ Ascii n.concat := by
  obtain ⟨v, sub, sup⟩ := n
  obtain ⟨h1, h2, rfl⟩ := h
  have ha : Ascii v := fun c hc => alnum_ascii (h1.alnum c hc)
  have hs : Ascii sub := fun c hc => alnum_ascii (h2 c hc)
  have hw : Spaces [] := fun c hc => by cases hc
  match sub with
  | [] =>
    simp only [Name.concat, Name.braces, List.length_nil, List.append_nil, if_true]
    exact ⟨⟨v, [], by simp, hw, .summand (.signed (.factor (.operand (.symbol (w := []) hw h1))))⟩, by
      simpa using ha⟩
  | [c] =>
    refine ⟨⟨v ++ ['_', c], [], by simp [Name.concat, Name.braces], hw,
      .summand (.signed (.factor (.operand (.symbolSub (w := []) hw h1 (h2 c (by simp))))))⟩, ?_⟩
    intro x hx
    simp [Name.concat, Name.braces] at hx
    rcases hx with hx | rfl | rfl
    · exact ha x hx
    · decide
    · exact hs x (by simp)
  | c :: d :: l =>
    refine ⟨⟨v ++ '_' :: '{' :: (c :: d :: l) ++ ['}'], [], by simp [Name.concat, Name.braces], hw, ?_⟩, ?_⟩
    · have := Parses.symbolBraces (conv := conv) (w := []) hw h1 (u := c :: d :: l) (by simp) h2
      exact .summand (.signed (.factor (.operand (by simpa using this))))
    · intro x hx
      simp [Name.concat, Name.braces] at hx
      rcases hx with hx | rfl | rfl | rfl | rfl | hx | rfl
      · exact ha x hx
      · decide
      · decide
      · exact hs x (by simp)
      · exact hs x (by simp)
      · exact hs x (by simp [hx])
      · decide

/-- C35: every text for a symbol, in particular the canonical one, gives that symbol, if the name does not
begin with a reserved word (`C35_false_prefix`). -/
theorem C35_var_partial {s : Str} {n : Name} (ha : Ascii s) (h : IsText conv s (.sym n)) (hp : n.Plain) :
    Api.varOf E conv s = .ok (.sym ⟨.named n, false⟩, []) ∧
      Api.varPos E conv s = .ok (.sym ⟨.named n, true⟩, []) := by
  obtain ⟨r, hr, hpeg⟩ := text_peg h hp
  have key : Api.varOf E conv s = .ok (.sym ⟨.named n, false⟩, []) := by
    unfold Api.varOf parseFrom
    have ha' : (s.all fun c => decide (c.toNat < 128)) = true := by
      simpa [List.all_eq_true, Ascii] using ha
    rw [if_pos ha', hpeg]
    simp only [exec_acts, Tree.eval, bind_assoc, pure_bind, hr, Option.isSome_some, List.headD_cons, decide_true,
      Bool.and_self, if_true]
    rfl
  refine ⟨key, ?_⟩
  unfold Api.varPos
  rw [key]
  rfl

theorem split_underscore {v v' r r' : Str} (hv : ∀ c ∈ v, isAlnumC c = true) (hv' : ∀ c ∈ v', isAlnumC c = true)
    (hr : ∀ x, r.head? = some x → isAlnumC x = false) (hr' : ∀ x, r'.head? = some x → isAlnumC x = false)
    (h : v ++ r = v' ++ r') : v = v' ∧ r = r' := by
  obtain ⟨b, rfl, rfl⟩ := prefix_of_word h hv' hr
  cases b with
  | nil => simp
  | cons x b =>
    have h1 := hr' x rfl
    rw [hv x (by simp)] at h1
    cases h1

theorem braces_head (t : Str) : ∀ x, (Name.braces t '_').head? = some x → isAlnumC x = false := by
  intro x hx
  unfold Name.braces at hx
  split at hx
  · rename_i h; subst h; simp at hx
  · cases hx; decide

theorem braces_inj {t t' : Str} (ht : ∀ c ∈ t, isAlnumC c = true) (ht' : ∀ c ∈ t', isAlnumC c = true)
    (h : Name.braces t '_' = Name.braces t' '_') : t = t' := by
  have hb : isAlnumC '{' = false := by decide
  match t, t' with
  | [], [] => rfl
  | [], [_] => simp [Name.braces] at h
  | [], _ :: _ :: _ => simp [Name.braces] at h
  | [_], [] => simp [Name.braces] at h
  | [_], [_] => simpa [Name.braces] using h
  | [_], _ :: _ :: _ => simp [Name.braces] at h
  | _ :: _ :: _, [] => simp [Name.braces] at h
  | _ :: _ :: _, [_] => simp [Name.braces] at h
  | a :: b :: l, a' :: b' :: l' =>
    simp [Name.braces] at h
    obtain ⟨rfl, rfl, rfl⟩ := h
    rfl

/-- C35: different legal names have different texts, and different texts for printing in ASCII. -/
theorem C35_concat_injective {n m : Name} (hn : n.Legal) (hm : m.Legal) (h : n.concat = m.concat) : n = m := by
  obtain ⟨v, t, u⟩ := n
  obtain ⟨v', t', u'⟩ := m
  obtain ⟨h1, h2, rfl⟩ := hn
  obtain ⟨h1', h2', rfl⟩ := hm
  simp only [Name.concat] at h
  have e : Name.braces [] '^' = [] := by simp [Name.braces]
  rw [e, List.append_nil, List.append_nil] at h
  obtain ⟨rfl, h3⟩ := split_underscore h1.alnum h1'.alnum (braces_head _) (braces_head _) h
  cases braces_inj h2 h2' h3
  rfl

/-- C35: the printed texts of different names are different, if none of them is a Greek letter with a
subscript (`C35_false_greek`). -/
theorem C35_unicode_partial {n m : Name} (hn : n.Legal) (hm : m.Legal) (hgn : Name.isGreek n.value = false)
    (hgm : Name.isGreek m.value = false) (h : n.unicode = m.unicode) : n = m := by
  simp only [Name.unicode, hgn, hgm] at h
  exact C35_concat_injective hn hm h

/-! ## Examples and counterexamples -/

namespace ParserEx

open SymEx ExprEx

/-- No floating point literals. -/
def noDbl : Str → Option Hyb := fun _ => none

/-- The symbol with a name of one letter. -/
def name (c : Char) : Name := ⟨[c], [], []⟩

instance (s w : Str) : Decidable (SameWord s w) := inferInstanceAs (Decidable (s.map lowerC = w))

theorem plain_of {n : Name} (h1 : noCase ['p', 'i'] n.value = none)
    (h2 : noCase ['e', 'u', 'l', 'e', 'r'] n.value = none) : n.Plain := by
  intro p q h
  constructor <;> intro hp
  · rw [h, noCase_append hp] at h1; cases h1
  · rw [h, noCase_append hp] at h2; cases h2

theorem spaces_nil : Spaces [] := fun c hc => by cases hc

theorem letter {c : Char} (hc : isAlphaC c = true) : IsName [c] :=
  ⟨⟨c, [], rfl, hc, by simp⟩, by simp [SameWord], by simp [SameWord]⟩

theorem operandLetter {c : Char} (hc : isAlphaC c = true) :
    Parses noDbl .operand [c] (.sym (name c)) := .symbol (w := []) spaces_nil (letter hc)

theorem plain_letter (c : Char) : (name c).Plain := by
  apply plain_of
  · by_cases h : lowerC c = 'p' <;> simp [name, noCase, h]
  · by_cases h : lowerC c = 'e' <;> simp [name, noCase, h]

/-- The tree of (a - (-(b^2))) - c. -/
def t1 : Tree Hyb := .sub (.sub (.sym (name 'a')) (.neg (.pow (.sym (name 'b')) (.int ['2'])))) (.sym (name 'c'))

theorem text1 : IsText noDbl "a - -b^2 - c ".toList t1 := by
  have hs : Spaces [' '] := by intro c hc; simp at hc; subst hc; decide
  have ha : Parses noDbl .expression ['a'] (.sym (name 'a')) :=
    .summand (.signed (.factor (.operand (operandLetter (by decide)))))
  have h2 : Parses noDbl .factor ['2'] (.int ['2']) :=
    .operand (.integer (w := []) spaces_nil ⟨by simp, by decide⟩)
  have hb : Parses noDbl .summand " -b^2".toList (.neg (.pow (.sym (name 'b')) (.int ['2']))) :=
    .signed (.minus hs (.power (operandLetter (by decide)) spaces_nil h2))
  have hc : Parses noDbl .summand " c".toList (.sym (name 'c')) :=
    .signed (.factor (.operand (.symbol (w := [' ']) hs (letter (by decide)))))
  exact ⟨"a - -b^2 - c".toList, [' '], rfl, hs,
    .minusSummand (p := "a - -b^2".toList) (.minusSummand ha hs hb) hs hc⟩

theorem plain1 : t1.All Name.Plain NoZero :=
  ⟨⟨plain_letter _, plain_letter _, fun h => absurd h (by decide)⟩, plain_letter _⟩

/-- C33 on an example: the minus sign before b applies to the power, and differences associate to the left. -/
example : ∃ v cs, Api.parse lib noDbl "a - -b^2 - c ".toList = .ok (some v, cs) ∧
    IsText noDbl "a - -b^2 - c ".toList t1 ∧ t1.All Name.Plain NoZero ∧ Ascii "a - -b^2 - c ".toList := by
  obtain ⟨cs, h⟩ : ∃ cs, Api.parse lib noDbl "a - -b^2 - c ".toList = .ok (some (.sum [ExprEx.a, .pow ExprEx.b (.int 2),
    .prod [.int (-1), .sym ⟨.named (name 'c'), false⟩]]), cs) := M.val_some (by krfl)
  exact ⟨_, cs, h, text1, plain1, by intro c hc; revert c; decide⟩

/-- C33 is false for names that begin with a reserved word: "pip" is a legal name, but not accepted. -/
theorem C33_false_prefix : IsText noDbl "pip".toList (.sym ⟨"pip".toList, [], []⟩) ∧
    ∃ cs, Api.parse lib noDbl "pip".toList = .ok (none, cs) := by
  refine ⟨⟨"pip".toList, [], rfl, spaces_nil, .summand (.signed (.factor (.operand (.symbol (w := []) spaces_nil
    ⟨⟨'p', ['i', 'p'], rfl, by decide, by decide⟩, by decide, by decide⟩))))⟩, M.val_some (by krfl)⟩

/-- C33 is false for integers with a leading zero: "010" is the number ten, but the result is eight. -/
theorem C33_false_octal : IsText noDbl "010".toList (.int "010".toList) ∧ decVal "010".toList = 10 ∧
    ∃ cs, Api.parse lib noDbl "010".toList = .ok (some (.int 8), cs) := by
  refine ⟨⟨"010".toList, [], rfl, spaces_nil, .summand (.signed (.factor (.operand (.integer (w := []) spaces_nil
    ⟨by decide, by decide⟩))))⟩, by decide, M.val_some (by krfl)⟩

/-- The text "08" makes the library throw an exception. -/
theorem C33_false_throw : IsText noDbl "08".toList (.int "08".toList) ∧
    Api.parse lib noDbl "08".toList = .error .runtime := by
  refine ⟨⟨"08".toList, [], rfl, spaces_nil, .summand (.signed (.factor (.operand (.integer (w := []) spaces_nil
    ⟨by decide, by decide⟩))))⟩, by krfl⟩

/-- The value of a text that is not matched completely is not the value of the matched part: actions of a
failed alternative remain on the stack. For "a*(b" the value is b, although "a" is the matched part. -/
theorem stale_result : ∃ cs, parseFrom lib .ub noDbl "a*(b".toList = .ok (⟨ExprEx.b, true, false⟩, cs) :=
  M.val_some (by krfl)

/-- C34 on an example with failed alternatives. -/
example : ∃ a o, peg noDbl (parseFuel "a*(b+-*".toList) .expression "a*(b+-*".toList = some (a, o) ∧ a.length = 2 :=
  ⟨_, _, rfl, rfl⟩

/-- A name with a subscript. -/
def long : Name := ⟨"ab1".toList, "xy".toList, []⟩

theorem long_legal : long.Legal := ⟨⟨⟨'a', ['b', '1'], rfl, by decide, by decide⟩, by decide, by decide⟩, by decide, rfl⟩

theorem long_plain : long.Plain := plain_of rfl rfl

/-- C35 on an example. -/
example : IsText noDbl "ab1_{xy}".toList (.sym long) ∧ long.Plain ∧ Ascii "ab1_{xy}".toList := by
  obtain ⟨h1, h2⟩ := concat_text noDbl long_legal
  exact ⟨h1, long_plain, h2⟩

/-- C35 is false for names that begin with a reserved word: the result is Undefined. -/
theorem C35_false_prefix : (⟨"pip".toList, [], []⟩ : Name).Legal ∧
    ∃ cs, Api.varOf lib noDbl (Name.concat ⟨"pip".toList, [], []⟩) = .ok (.undef, cs) :=
  ⟨⟨⟨⟨'p', ['i', 'p'], rfl, by decide, by decide⟩, by decide, by decide⟩, by decide, rfl⟩, M.val_some (by krfl)⟩

/-- C35 is false for Greek letters: the subscript is not printed, so that two different symbols have the same
text. -/
theorem C35_false_greek : (⟨"alpha".toList, ['1'], []⟩ : Name).Legal ∧ (⟨"alpha".toList, ['2'], []⟩ : Name).Legal ∧
    Name.unicode ⟨"alpha".toList, ['1'], []⟩ = Name.unicode ⟨"alpha".toList, ['2'], []⟩ := by
  refine ⟨⟨⟨⟨'a', "lpha".toList, rfl, by decide, by decide⟩, by decide, by decide⟩, by decide, rfl⟩,
    ⟨⟨⟨'a', "lpha".toList, rfl, by decide, by decide⟩, by decide, by decide⟩, by decide, rfl⟩, rfl⟩

end ParserEx

end Tsym
