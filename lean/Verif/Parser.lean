import Verif.Api

set_option autoImplicit false

/-!
# The parser (src/parser.cpp)

The code uses Boost Spirit Qi: rules with alternatives that are tried in order, and semantic actions
that work on a stack. An action is executed when its part of the input has matched, and it is not undone
when an enclosing rule fails afterwards. The actions return nothing and do not influence the matching;
therefore the model separates the two: `peg` matches the input and lists the actions in the order in
which they are executed, those of failed alternatives included, and `exec` executes the list.

Assumptions about Boost: terminals skip white space first (ascii::space as skipper), a rule without
skipper skips white space once before it begins, a failed sequence or action does not move the position,
qi::symbols finds a longest match, and phrase_parse skips white space at the end of a match.
-/

namespace Tsym

/-- ascii::space (parser.cpp:55). -/
def isSpaceC (c : Char) : Bool :=
  c = ' ' || c = '\t' || c = '\n' || c = '\x0b' || c = '\x0c' || c = '\r'

/-- qi::ascii::digit (parser.cpp:46). -/
def isDigitC (c : Char) : Bool := 48 ≤ c.toNat && c.toNat ≤ 57

/-- qi::ascii::alpha (parser.cpp:29). -/
def isAlphaC (c : Char) : Bool :=
  (65 ≤ c.toNat && c.toNat ≤ 90) || (97 ≤ c.toNat && c.toNat ≤ 122)

/-- qi::ascii::alnum (parser.cpp:28). -/
def isAlnumC (c : Char) : Bool := isAlphaC c || isDigitC c

/-- Lower case of an ASCII character, for ascii::no_case (parser.cpp:61). -/
def lowerC (c : Char) : Char :=
  if 65 ≤ c.toNat && c.toNat ≤ 90 then Char.ofNat (c.toNat + 32) else c

/-- The skipper. -/
def skipS (s : Str) : Str := s.dropWhile isSpaceC

/-- A literal character, after white space. The result is what remains of the input. -/
def litC (c : Char) (s : Str) : Option Str :=
  match skipS s with
  | x :: r => if x = c then some r else none
  | [] => none

/-- `no_case[qi::lit(w)]` where no white space is skipped. -/
def noCase : Str → Str → Option Str
  | [], s => some s
  | c :: w, x :: s => if lowerC x = c then noCase w s else none
  | _ :: _, [] => none

/-- `enum class Fct` (parser.cpp:54). -/
inductive PFct where
  | sin | cos | tan | asin | acos | atan | log | sqrt
  deriving DecidableEq

/-- The names of the functions (parser.cpp:63-64). -/
def PFct.text : PFct → Str
  | sin => ['s', 'i', 'n'] | cos => ['c', 'o', 's'] | tan => ['t', 'a', 'n']
  | asin => ['a', 's', 'i', 'n'] | acos => ['a', 'c', 'o', 's'] | atan => ['a', 't', 'a', 'n']
  | log => ['l', 'o', 'g'] | sqrt => ['s', 'q', 'r', 't']

/-- `no_case[functions]` (parser.cpp:63-64, 70), after white space. No name is the beginning of another
one, so the longest match is the only one. -/
def fnP (s : Str) : Option (PFct × Str) :=
  [PFct.sin, .cos, .tan, .asin, .acos, .atan, .sqrt, .log].findSome? fun f =>
    (noCase f.text s).map fun r => (f, r)

/-- SymbolParser: `subscript` (parser.cpp:32). -/
def subscriptP : Str → Option (Str × Str)
  | [] => none
  | c :: s =>
    if c = '{' then
      if s.takeWhile isAlnumC = [] then none
      else match s.dropWhile isAlnumC with
        | x :: r => if x = '}' then some (s.takeWhile isAlnumC, r) else none
        | [] => none
    else if isAlnumC c then some ([c], s) else none

/-- SymbolParser: `symbol` (parser.cpp:31, 34), with the name that pushSymbol makes of it
(parser.cpp:125-134). -/
def symbolP : Str → Option (Name × Str)
  | [] => none
  | c :: s =>
    if isAlphaC c then
      match s.dropWhile isAlnumC with
      | x :: r =>
        if x = '_' then
          match subscriptP r with
          | some (u, r') => some (⟨c :: s.takeWhile isAlnumC, u, []⟩, r')
          | none => some (⟨c :: s.takeWhile isAlnumC, [], []⟩, x :: r)
        else some (⟨c :: s.takeWhile isAlnumC, [], []⟩, x :: r)
      | [] => some (⟨c :: s.takeWhile isAlnumC, [], []⟩, [])
    else none

/-- Decimal value of a list of digits. -/
def decVal (s : Str) : Nat := s.foldl (fun n c => 10 * n + (c.toNat - 48)) 0

/-- Whether the exponent of a floating point literal is in the range of `int`. -/
def expFits (sign : Option Char) (digits : Str) : Bool :=
  if sign = some '-' then decVal digits ≤ 2 ^ 31 else decVal digits < 2 ^ 31

/-- The sign of an exponent. -/
def signP : Str → Option Char × Str
  | c :: s => if c = '+' || c = '-' then (some c, s) else (none, c :: s)
  | [] => (none, [])

/-- The exponent of a floating point literal, the empty string if there is none. -/
def expP : Str → Str × Str
  | [] => ([], [])
  | x :: r =>
    if x = 'e' || x = 'E' then
      let d := (signP r).2.takeWhile isDigitC
      if d ≠ [] && expFits (signP r).1 d then
        (x :: ((signP r).1.toList ++ d), (signP r).2.dropWhile isDigitC)
      else ([], x :: r)
    else ([], x :: r)

/-- qi::real_parser with strict_ureal_policies (parser.cpp:244): digits with a decimal point or with the
letter e. `conv` gives the double for the text of the literal, and nothing if it is out of range.
(The policies accept "inf" and "nan" as well, but letters are taken by the symbol parser before.) -/
def realP {D : Type} (conv : Str → Option D) (s : Str) : Option (D × Str) :=
  let i := s.takeWhile isDigitC
  match s.dropWhile isDigitC with
  | [] => none
  | x :: r =>
    if x = '.' then
      let f := r.takeWhile isDigitC
      if i = [] && f = [] then none
      else
        let e := expP (r.dropWhile isDigitC)
        (conv (i ++ x :: f ++ e.1)).map fun d => (d, e.2)
    else if i = [] then none
    else if x = 'e' || x = 'E' then
      let e := expP (x :: r)
      (conv (i ++ e.1)).map fun d => (d, e.2)
    else none

/-- BigIntParser (parser.cpp:46). -/
def integerP (s : Str) : Option (Str × Str) :=
  if s.takeWhile isDigitC = [] then none else some (s.takeWhile isDigitC, s.dropWhile isDigitC)

/-- The semantic actions (parser.cpp:115-231). -/
inductive Act (D : Type) where
  | pushPi | pushEuler | pushSymbol (n : Name) | pushDouble (d : D) | pushInteger (digits : Str)
  | toFunction (f : PFct) | toAtan2 | toPower | flipSign | toProduct | toQuotient | toSum | toDifference

/-- Result of a rule: no fuel, or the executed actions with what remains of the input after a match. -/
abbrev PRes (D : Type) := Option (List (Act D) × Option Str)

namespace PRes

variable {D : Type}

/-- A terminal. -/
def ofOpt (o : Option Str) : PRes D := some ([], o)

/-- Actions before a result. -/
def pre (a : List (Act D)) (p : PRes D) : PRes D := p.map fun x => (a ++ x.1, x.2)

/-- `p >> q`. -/
def seq (p : PRes D) (q : Str → PRes D) : PRes D :=
  match p with
  | none => none
  | some (a, none) => some (a, none)
  | some (a, some r) => pre a (q r)

/-- `p | q`. -/
def alt (p q : PRes D) : PRes D :=
  match p with
  | none => none
  | some (a, some r) => some (a, some r)
  | some (a, none) => pre a q

/-- `p[action]`. -/
def act (p : PRes D) (x : Act D) : PRes D :=
  match p with
  | some (a, some r) => some (a ++ [x], some r)
  | p => p

/-- One round of `*p` at the position `s`: `next` continues after a match. -/
def star (p : PRes D) (next : Str → PRes D) (s : Str) : PRes D :=
  match p with
  | none => none
  | some (a, some r) => pre a (next r)
  | some (a, none) => some (a, some s)

end PRes

open PRes

/-- `scalar` (parser.cpp:66-68). -/
def scalarP {D : Type} (conv : Str → Option D) (s0 : Str) : PRes D :=
  let s := skipS s0
  match noCase ['p', 'i'] s with
  | some r => some ([.pushPi], some r)
  | none =>
    match noCase ['e', 'u', 'l', 'e', 'r'] s with
    | some r => some ([.pushEuler], some r)
    | none =>
      match symbolP s with
      | some (n, r) => some ([.pushSymbol n], some r)
      | none =>
        match realP conv s with
        | some (d, r) => some ([.pushDouble d], some r)
        | none =>
          match integerP s with
          | some (n, r) => some ([.pushInteger n], some r)
          | none => some ([], none)

/-- The rules that refer to each other (parser.cpp:77-87), with the loops for `*`. -/
inductive PRule where
  | expression | expressionLoop | summand | summandLoop | signed | factor | factorLoop | operand

/-- oneArgFunction (parser.cpp:70). -/
def oneArgP {D : Type} (expr : Str → PRes D) (s : Str) : PRes D :=
  match fnP (skipS s) with
  | none => ofOpt none
  | some (f, r) =>
    act (seq (ofOpt (litC '(' r)) fun r => seq (expr r) fun r => ofOpt (litC ')' r)) (.toFunction f)

/-- twoArgFunction (parser.cpp:72-73). -/
def twoArgP {D : Type} (expr : Str → PRes D) (s : Str) : PRes D :=
  match noCase ['a', 't', 'a', 'n', '2'] (skipS s) with
  | none => ofOpt none
  | some r =>
    act (seq (ofOpt (litC '(' r)) fun r => seq (expr r) fun r => seq (ofOpt (litC ',' r)) fun r =>
      seq (expr r) fun r => ofOpt (litC ')' r)) .toAtan2

/-- `'(' >> expression >> ')'` (parser.cpp:77). -/
def parenP {D : Type} (expr : Str → PRes D) (s : Str) : PRes D :=
  seq (ofOpt (litC '(' s)) fun r => seq (expr r) fun r => ofOpt (litC ')' r)

/-- Matching with the rules of parser.cpp:66-87. The first argument bounds the depth of the recursion. -/
def peg {D : Type} (conv : Str → Option D) : Nat → PRule → Str → PRes D
  | 0, _, _ => none
  | n + 1, .expression, s =>
    seq (alt (ofOpt (litC '+' s)) (ofOpt (some s))) fun r =>
      seq (peg conv n .summand r) (peg conv n .expressionLoop)
  | n + 1, .expressionLoop, s =>
    star (alt (act (seq (ofOpt (litC '+' s)) (peg conv n .summand)) .toSum)
      (act (seq (ofOpt (litC '-' s)) (peg conv n .summand)) .toDifference))
      (peg conv n .expressionLoop) s
  | n + 1, .summand, s => seq (peg conv n .signed s) (peg conv n .summandLoop)
  | n + 1, .summandLoop, s =>
    star (alt (act (seq (ofOpt (litC '*' s)) (peg conv n .signed)) .toProduct)
      (act (seq (ofOpt (litC '/' s)) (peg conv n .signed)) .toQuotient))
      (peg conv n .summandLoop) s
  | n + 1, .signed, s =>
    alt (peg conv n .factor s) (seq (ofOpt (litC '-' s)) fun r => act (peg conv n .factor r) .flipSign)
  | n + 1, .factor, s => seq (peg conv n .operand s) (peg conv n .factorLoop)
  | n + 1, .factorLoop, s =>
    star (seq (ofOpt (litC '^' s)) fun r => act (peg conv n .factor r) .toPower)
      (peg conv n .factorLoop) s
  | n + 1, .operand, s =>
    alt (oneArgP (peg conv n .expression) s) (alt (twoArgP (peg conv n .expression) s)
      (alt (scalarP conv s) (parenP (peg conv n .expression) s)))

/-- The value of octal digits, if all are. -/
def octVal? (s : Str) : Option Nat :=
  s.foldl (fun o c => o.bind fun n => if c.toNat ≤ 55 then some (8 * n + (c.toNat - 48)) else none) (some 0)

/-- `Int(digits)` (parser.cpp:143). The constructor of boost::multiprecision::cpp_int reads a string that
begins with 0 as an octal number, and throws for a digit that is not one. -/
def cppInt (s : Str) : Except Err Nat :=
  match s with
  | '0' :: r => match octVal? r with
    | some n => .ok n
    | none => .error .runtime
  | s => .ok (decVal s)

/-- toFunction (parser.cpp:146-179). -/
def PFct.apply {D : Type} [Flt D] (E : Eng D) (f : PFct) (a : Expr D) : M D (Expr D) :=
  match f with
  | sin => E.trigCreate .sin a
  | cos => E.trigCreate .cos a
  | tan => E.trigCreate .tan a
  | asin => E.trigCreate .asin a
  | acos => E.trigCreate .acos a
  | atan => E.trigCreate .atan a
  | log => E.logCreate a
  | sqrt => E.powCreate a Expr.half

/-- Symbol::create with a name of the parser (symbol.cpp:48-61): the name is not empty and does not begin
with the prefix of the temporary symbols, because '#' is not in it. -/
def mkSymbol {D : Type} (n : Name) : Expr D := .sym ⟨.named n, false⟩

section

variable {D : Type} [Flt D] (E : Eng D)

/-- One action (parser.cpp:115-240). `under` is the outcome of taking from an empty stack, which is
undefined behaviour. -/
def Act.run (under : Err) : Act D → List (Expr D) → M D (List (Expr D))
  | pushPi, st => pure (.cst .pi :: st)
  | pushEuler, st => pure (.cst .e :: st)
  | pushSymbol n, st => pure (mkSymbol n :: st)
  | pushDouble d, st => pure (.num (Number.ofDouble d) :: st)
  | pushInteger s, st => do
    let n ← M.lift (cppInt s)
    pure (Expr.int n :: st)
  | toFunction f, a :: st => do
    let r ← f.apply E a
    pure (r :: st)
  | toAtan2, x :: y :: st => do
    let r ← E.atan2Create y x
    pure (r :: st)
  | toPower, e :: b :: st => do
    let r ← E.powCreate b e
    pure (r :: st)
  | flipSign, a :: st => do
    let r ← E.minus a
    pure (r :: st)
  | toProduct, b :: a :: st => do
    let r ← E.prodCreate [a, b]
    pure (r :: st)
  | toQuotient, b :: a :: st => do
    let q ← E.oneOver b
    let r ← E.prodCreate [a, q]
    pure (r :: st)
  | toSum, b :: a :: st => do
    let r ← E.sumCreate [a, b]
    pure (r :: st)
  | toDifference, b :: a :: st => do
    let m ← E.minus b
    let r ← E.sumCreate [a, m]
    pure (r :: st)
  | _, _ => M.err under

/-- The actions in order. -/
def exec (under : Err) : List (Act D) → List (Expr D) → M D (List (Expr D))
  | [], st => pure st
  | a :: l, st => do
    let st' ← a.run E under st
    exec under l st'

/-- struct ParseResult (parser.h:8-12). -/
structure ParseResult (D : Type) where
  value : Expr D
  success : Bool
  matchedWholeString : Bool

/-- Depth that is always enough (`peg_some`). -/
def parseFuel (s : Str) : Nat := 8 * s.length + 8

/-- parseFrom (parser.cpp:90-102, 258-278). A char is negative if the byte is not ASCII. -/
def parseFrom (under : Err) (conv : Str → Option D) (s : Str) : M D (ParseResult D) :=
  if s.all fun c => decide (c.toNat < 128) then
    match peg conv (parseFuel s) .expression s with
    | none => M.err .fuel
    | some (acts, o) => do
      let st ← exec E under acts []
      pure ⟨st.headD .undef, o.isSome, match o with
        | some r => skipS r = []
        | none => s = []⟩
  else pure ⟨.undef, false, false⟩

/-- parse (functions.cpp:215-225). -/
def Api.parse (conv : Str → Option D) (s : Str) : M D (Option (Expr D)) := do
  let r ← parseFrom E .ub conv s
  pure (if r.success && r.matchedWholeString then some r.value else none)

/-- The constructor of Var from a string (var.cpp:31-41, 76-90). -/
def Api.varOf (conv : Str → Option D) (s : Str) : M D (Expr D) := do
  let r ← parseFrom E .ub conv s
  pure (if r.success && r.matchedWholeString then
    match r.value with
    | .sym x => .sym x
    | .num n => if n.isInt then .num n else .undef
    | _ => .undef
  else .undef)

end

end Tsym
