import Verif.Parser

set_option autoImplicit false

/-!
# The documented language (src/parser.h:15-34)

This is the specification for the parser: an ambiguity-free grammar over the characters, with syntax trees,
and the value of a tree. It does not refer to the rules of the parser, only to the character classes.
-/

namespace Tsym

variable {D : Type}

/-- Syntax trees. -/
inductive Tree (D : Type) where
  | pi | e | sym (n : Name) | dbl (d : D) | int (digits : Str)
  | fn (f : PFct) (a : Tree D) | atan2 (y x : Tree D)
  | pow (b e : Tree D) | neg (a : Tree D) | mul (a b : Tree D) | div (a b : Tree D)
  | add (a b : Tree D) | sub (a b : Tree D)

/-- Syntactic categories. -/
inductive Cat where
  | expression | summand | signed | factor | operand

/-- White space. -/
def Spaces (w : Str) : Prop := ∀ c ∈ w, isSpaceC c = true

/-- A string is a word, up to the case of the letters. -/
def SameWord (s w : Str) : Prop := s.map lowerC = w

/-- A name of a symbol without subscript: a letter, then letters and digits, not a reserved word. -/
structure IsName (s : Str) : Prop where
  shape : ∃ c l, s = c :: l ∧ isAlphaC c = true ∧ ∀ x ∈ l, isAlnumC x = true
  notPi : ¬ SameWord s ['p', 'i']
  notEuler : ¬ SameWord s ['e', 'u', 'l', 'e', 'r']

/-- One or more digits. -/
def Digits1 (s : Str) : Prop := s ≠ [] ∧ ∀ c ∈ s, isDigitC c = true

/-- The exponent of a floating point literal, in the range of int. -/
def IsExponent (s : Str) : Prop :=
  ∃ x sg d, s = x :: (Option.toList sg ++ d) ∧ (x = 'e' ∨ x = 'E') ∧ (∀ c ∈ sg, c = '+' ∨ c = '-') ∧
    Digits1 d ∧ expFits sg d = true

/-- A floating point literal has a decimal point or an exponent. -/
def IsReal (s : Str) : Prop :=
  (∃ i f e, s = i ++ '.' :: f ++ e ∧ (∀ c ∈ i, isDigitC c = true) ∧ (∀ c ∈ f, isDigitC c = true) ∧
    (i ≠ [] ∨ f ≠ []) ∧ (e = [] ∨ IsExponent e)) ∨
  (∃ i e, s = i ++ e ∧ Digits1 i ∧ IsExponent e)

/-- The grammar: the string is a text for the syntax tree. -/
inductive Parses (conv : Str → Option D) : Cat → Str → Tree D → Prop
  | pi {w p : Str} : Spaces w → SameWord p ['p', 'i'] → Parses conv .operand (w ++ p) .pi
  | euler {w p : Str} : Spaces w → SameWord p ['e', 'u', 'l', 'e', 'r'] → Parses conv .operand (w ++ p) .e
  | symbol {w n : Str} : Spaces w → IsName n → Parses conv .operand (w ++ n) (.sym ⟨n, [], []⟩)
  | symbolSub {w n : Str} {c : Char} : Spaces w → IsName n → isAlnumC c = true →
      Parses conv .operand (w ++ n ++ ['_', c]) (.sym ⟨n, [c], []⟩)
  | symbolBraces {w n u : Str} : Spaces w → IsName n → u ≠ [] → (∀ c ∈ u, isAlnumC c = true) →
      Parses conv .operand (w ++ n ++ '_' :: '{' :: u ++ ['}']) (.sym ⟨n, u, []⟩)
  | double {w p : Str} {d : D} : Spaces w → IsReal p → conv p = some d → Parses conv .operand (w ++ p) (.dbl d)
  | integer {w p : Str} : Spaces w → Digits1 p → Parses conv .operand (w ++ p) (.int p)
  | function {w p w1 q w2 : Str} {f : PFct} {t : Tree D} : Spaces w → SameWord p f.text → Spaces w1 →
      Parses conv .expression q t → Spaces w2 →
      Parses conv .operand (w ++ p ++ w1 ++ '(' :: q ++ w2 ++ [')']) (.fn f t)
  | atan2 {w p w1 q w2 q' w3 : Str} {t t' : Tree D} : Spaces w → SameWord p ['a', 't', 'a', 'n', '2'] → Spaces w1 →
      Parses conv .expression q t → Spaces w2 → Parses conv .expression q' t' → Spaces w3 →
      Parses conv .operand (w ++ p ++ w1 ++ '(' :: q ++ w2 ++ ',' :: q' ++ w3 ++ [')']) (.atan2 t t')
  | parens {w q w2 : Str} {t : Tree D} : Spaces w → Parses conv .expression q t → Spaces w2 →
      Parses conv .operand (w ++ '(' :: q ++ w2 ++ [')']) t
  | operand {p : Str} {t : Tree D} : Parses conv .operand p t → Parses conv .factor p t
  | power {p w q : Str} {t t' : Tree D} : Parses conv .operand p t → Spaces w → Parses conv .factor q t' →
      Parses conv .factor (p ++ w ++ '^' :: q) (.pow t t')
  | factor {p : Str} {t : Tree D} : Parses conv .factor p t → Parses conv .signed p t
  | minus {w p : Str} {t : Tree D} : Spaces w → Parses conv .factor p t →
      Parses conv .signed (w ++ '-' :: p) (.neg t)
  | signed {p : Str} {t : Tree D} : Parses conv .signed p t → Parses conv .summand p t
  | times {p w q : Str} {t t' : Tree D} : Parses conv .summand p t → Spaces w → Parses conv .signed q t' →
      Parses conv .summand (p ++ w ++ '*' :: q) (.mul t t')
  | over {p w q : Str} {t t' : Tree D} : Parses conv .summand p t → Spaces w → Parses conv .signed q t' →
      Parses conv .summand (p ++ w ++ '/' :: q) (.div t t')
  | summand {p : Str} {t : Tree D} : Parses conv .summand p t → Parses conv .expression p t
  | plusSummand {w p : Str} {t : Tree D} : Spaces w → Parses conv .summand p t →
      Parses conv .expression (w ++ '+' :: p) t
  | plus {p w q : Str} {t t' : Tree D} : Parses conv .expression p t → Spaces w → Parses conv .summand q t' →
      Parses conv .expression (p ++ w ++ '+' :: q) (.add t t')
  | minusSummand {p w q : Str} {t t' : Tree D} : Parses conv .expression p t → Spaces w → Parses conv .summand q t' →
      Parses conv .expression (p ++ w ++ '-' :: q) (.sub t t')

/-- A text for a tree, with white space at the end. -/
def IsText (conv : Str → Option D) (s : Str) (t : Tree D) : Prop :=
  ∃ p w, s = p ++ w ∧ Spaces w ∧ Parses conv .expression p t

/-- The functions of the library that belong to the names. -/
def PFct.call [Flt D] (E : Eng D) : PFct → Expr D → M D (Expr D)
  | sin => Api.trig E .sin
  | cos => Api.trig E .cos
  | tan => Api.trig E .tan
  | asin => Api.trig E .asin
  | acos => Api.trig E .acos
  | atan => Api.trig E .atan
  | log => Api.log E
  | sqrt => Api.sqrt E

/-- The value of a tree: what the functions of the library give for the values of the parts.
`read` gives the value of an integer literal. -/
def Tree.eval [Flt D] (E : Eng D) (read : Str → Except Err Nat) : Tree D → M D (Expr D)
  | pi => pure (.cst .pi)
  | e => pure (.cst .e)
  | sym n => pure (.sym ⟨.named n, false⟩)
  | dbl d => pure (.num (Number.ofDouble d))
  | int s => do
    let n ← M.lift (read s)
    pure (.num (.rat n))
  | fn f a => do
    let x ← a.eval E read
    f.call E x
  | atan2 a b => do
    let y ← a.eval E read
    let x ← b.eval E read
    Api.atan2 E y x
  | pow a b => do
    let x ← a.eval E read
    let y ← b.eval E read
    Api.pow E x y
  | neg a => do
    let x ← a.eval E read
    Api.neg E x
  | mul a b => do
    let x ← a.eval E read
    let y ← b.eval E read
    Api.mul E x y
  | div a b => do
    let x ← a.eval E read
    let y ← b.eval E read
    Api.div E x y
  | add a b => do
    let x ← a.eval E read
    let y ← b.eval E read
    Api.add E x y
  | sub a b => do
    let x ← a.eval E read
    let y ← b.eval E read
    Api.sub E x y

/-- All names and integer literals of a tree satisfy the conditions. -/
def Tree.All (P : Name → Prop) (Q : Str → Prop) : Tree D → Prop
  | pi | e | dbl _ => True
  | sym n => P n
  | int s => Q s
  | fn _ a | neg a => a.All P Q
  | atan2 a b | pow a b | mul a b | div a b | add a b | sub a b => a.All P Q ∧ b.All P Q

/-- The name does not begin with one of the reserved words. -/
def Name.Plain (n : Name) : Prop :=
  ∀ p q, n.value = p ++ q → ¬ SameWord p ['p', 'i'] ∧ ¬ SameWord p ['e', 'u', 'l', 'e', 'r']

/-- An integer literal without superfluous zeros. -/
def NoZero (s : Str) : Prop := s.head? = some '0' → s = ['0']

end Tsym
