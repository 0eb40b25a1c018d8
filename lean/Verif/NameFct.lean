import Verif.Parser

set_option autoImplicit false

/-!
# Texts for names (src/namefct.cpp), and variables from strings (src/var.cpp)

The texts are lists of characters here; in the code, a letter of the Greek alphabet is a string of two
bytes (UTF-8).
-/

namespace Tsym

namespace Name

/-- delimCurlyBracesOrPlain (namefct.cpp:79-95). -/
def braces (term : Str) (connection : Char) : Str :=
  (if term = [] then [] else [connection]) ++
    (if term.length = 1 then term else if 1 < term.length then '{' :: term ++ ['}'] else [])

/-- concat (namefct.cpp:117-125). -/
def concat (n : Name) : Str := n.value ++ braces n.sub '_' ++ braces n.sup '^'

/-- The alphabet (namefct.cpp:32-34). -/
def alphabet : List Str :=
  ["alpha", "beta", "gamma", "delta", "epsilon", "zeta", "eta", "theta", "iota", "kappa", "lambda", "my", "ny",
    "xi", "omikron", "pi", "rho", "sigma", "tau", "ypsilon", "phi", "chi", "psi", "omega"].map String.toList

/-- greekAlphabetIndex (namefct.cpp:30-44), for a string that is not empty. -/
def greekIndex (s : Str) : Option Nat :=
  alphabet.findIdx? fun l => (l.head? == s.head? || l.head? == s.head?.map lowerC) && s.drop 1 == l.drop 1

/-- isGreekLetter (namefct.cpp:22-28). -/
def isGreek (s : Str) : Bool := decide (1 < s.length) && (greekIndex s).isSome

/-- The letters (namefct.cpp:51-57): capital letters, then small letters. -/
def greekLetters : List Char :=
  ['Α', 'Β', 'Γ', 'Δ', 'Ε', 'Ζ', 'Η', 'Θ', 'Ι', 'Κ', 'Λ',
    'Μ', 'Ν', 'Ξ', 'Ο', 'Π', 'Ρ', 'Σ', 'Τ', 'Υ', 'Φ', 'Χ',
    'Ψ', 'Ω', 'α', 'β', 'γ', 'δ', 'ε', 'ζ', 'η', 'θ', 'ι',
    'κ', 'λ', 'μ', 'ν', 'ξ', 'ο', 'π', 'ρ', 'σ', 'τ', 'υ',
    'φ', 'χ', 'ψ', 'ω']

/-- startsWithCapitalLetter (namefct.cpp:64-67). -/
def capital (s : Str) : Bool := s.head?.map lowerC != s.head?

/-- unicodeForGreekLetter (namefct.cpp:46-62), without TSYM_ASCII_ONLY. -/
def greekLetter (s : Str) : Str :=
  match greekIndex s with
  | some i => (greekLetters[(if capital s then 0 else 24) + i]?).toList
  | none => []

/-- unicode (namefct.cpp:99-105). -/
def unicode (n : Name) : Str := if isGreek n.value then greekLetter n.value else concat n

/-- getGreekTexLetter (namefct.cpp:69-77). -/
def greekTex (s : Str) : Str :=
  '\\' :: ((if s = "phi".toList ∨ s = "Phi".toList then "var".toList else []) ++ s)

/-- tex (namefct.cpp:107-115). -/
def tex (n : Name) : Str :=
  (if isGreek n.value then greekTex n.value else n.value) ++ braces n.sub '_' ++ braces n.sup '^'

end Name

/-- The constructor of Var from a string, with the sign (var.cpp:92-108). -/
def Api.varPos {D : Type} [Flt D] (E : Eng D) (conv : Str → Option D) (s : Str) : M D (Expr D) := do
  let v ← Api.varOf E conv s
  pure (match v with
    | .sym x => .sym ⟨x.id, true⟩
    | v => v)

end Tsym
