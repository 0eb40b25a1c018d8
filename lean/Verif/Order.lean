import Verif.Expr

set_option autoImplicit false

/-!
# The order of operands (src/order.cpp) and hashing (src/baseptr.cpp, hash methods)
-/

namespace Tsym

/-- The prefix "tmp#" (symbol.h:46). -/
def tmpPrefix : Str := ['t', 'm', 'p', '#']

/-- A decimal digit. -/
def digit (n : Nat) : Char := Char.ofNat (48 + n)

/-- Decimal digits of a natural number, with fuel. -/
def natStrAux : Nat → Nat → Str
  | 0, n => [digit n]
  | k + 1, n => if n < 10 then [digit n] else natStrAux k (n / 10) ++ [digit (n % 10)]

/-- `std::to_string` (symbol.cpp:26). -/
def natStr (n : Nat) : Str := natStrAux n n

/-- Symbol::name (symbol.cpp:24-30, 148-151). -/
def SymId.name : SymId → Name
  | .named n => n
  | .tmp k => ⟨tmpPrefix ++ natStr k, [], []⟩

/-- Constant names (constant.cpp:18-30). -/
def Cst.name : Cst → Name
  | .pi => ⟨['p', 'i'], [], []⟩
  | .e => ⟨['e'], [], []⟩

/-- Function names (logarithm.cpp:16, trigonometric.cpp:38-60). -/
def Fn.name : Fn → Name
  | .log => ⟨['l', 'o', 'g'], [], []⟩
  | .sin => ⟨['s', 'i', 'n'], [], []⟩
  | .cos => ⟨['c', 'o', 's'], [], []⟩
  | .tan => ⟨['t', 'a', 'n'], [], []⟩
  | .asin => ⟨['a', 's', 'i', 'n'], [], []⟩
  | .acos => ⟨['a', 'c', 'o', 's'], [], []⟩
  | .atan => ⟨['a', 't', 'a', 'n'], [], []⟩

/-- The name of the function with two arguments (trigonometric.cpp). -/
def atan2Name : Name := ⟨['a', 't', 'a', 'n', '2'], [], []⟩

namespace Expr

variable {D : Type} [Flt D]

/-- The name method of functions; the empty name otherwise (base.cpp:127-132). -/
def name : Expr D → Name
  | sym s => s.id.name
  | cst c => c.name
  | fn f _ => f.name
  | atan2 _ _ => atan2Name
  | _ => ⟨[], [], []⟩

/-- `boost::lexicographical_compare` with a given comparison (order.cpp:123). -/
def lexCmp (cmp : Expr D → Expr D → Bool) : List (Expr D) → List (Expr D) → Bool
  | _, [] => false
  | [], _ :: _ => true
  | a :: l, b :: m => if cmp a b then true else if cmp b a then false else lexCmp cmp l m

/-- doPermuteBothSymbol (order.cpp:69-80). -/
def permSym (s t : Sym) : Bool :=
  if s.id.name = t.id.name ∧ s.positive ≠ t.positive then t.positive
  else Name.lt t.id.name s.id.name

/-- doPermuteListReverse (order.cpp:118-125), with the order `p` of the elements. -/
def permLists (p : Expr D → Expr D → Bool) (l m : List (Expr D)) : Bool :=
  lexCmp (fun x y => !isEqual x y && !p x y) m.reverse l.reverse

/-- doPermuteLastElement (order.cpp:197-205). There is no last element in an empty list; sums and
products have operands, so that the default value does not matter. -/
def permLast (p : Expr D → Expr D → Bool) (l : List (Expr D)) (r : Expr D) : Bool :=
  match l.getLast? with
  | some x => if isEqual x r then true else p x r
  | none => false

/-- doPermuteSameType (order.cpp:47-67) and the functions for two expressions of the same type
(order.cpp:69-158), with the order `p` for sub-expressions. `none` if the types differ. -/
def permSame (p : Expr D → Expr D → Bool) : Expr D → Expr D → Option Bool
  | sym s, sym t => some (permSym s t)
  | num a, num b => some (b.lt a)
  | pow b e, pow c f => some (if !isEqual b c then p b c else p e f)
  | prod l, prod m => some (permLists p l m)
  | sum l, sum m => some (permLists p l m)
  | cst c, cst d => some (Name.lt d.name c.name)
  | fn f a, fn g b => some (if f.name ≠ g.name then Name.lt g.name f.name else p a b)
  | fn f _, atan2 _ _ => some (Name.lt atan2Name f.name)
  | atan2 _ _, fn g _ => some (Name.lt g.name atan2Name)
  | atan2 y _, atan2 z _ => some (p y z)
  | undef, undef => some false
  | _, _ => none

/-- The part of doPermuteDifferentType (order.cpp:160-181) and the functions it calls
(order.cpp:185-244) that does not swap the arguments; `none` if the arguments are swapped. -/
def permDiff (p : Expr D → Expr D → Bool) : Expr D → Expr D → Option Bool
  | num _, _ => some false
  | cst _, num _ => none
  | cst _, _ => some false
  | prod l, r@(pow _ _) => some (permLast p l r)
  | prod l, r@(sum _) => some (permLast p l r)
  | prod l, r@(sym _) => some (permLast p l r)
  | prod l, r@(fn _ _) => some (permLast p l r)
  | prod l, r@(atan2 _ _) => some (permLast p l r)
  | pow b e, r@(sum _) => some (if !isEqual b r then p b r else p e one)
  | pow b e, r@(sym _) => some (if !isEqual b r then p b r else p e one)
  | pow b e, r@(fn _ _) => some (if !isEqual b r then p b r else p e one)
  | pow b e, r@(atan2 _ _) => some (if !isEqual b r then p b r else p e one)
  | sum l, r@(sym _) => some (permLast p l r)
  | sum l, r@(fn _ _) => some (permLast p l r)
  | sum l, r@(atan2 _ _) => some (permLast p l r)
  | fn f a, sym s => some (if (fn f a : Expr D).name = s.id.name then false
      else Name.lt s.id.name f.name)
  | atan2 _ _, sym s => some (if atan2Name = s.id.name then false
      else Name.lt s.id.name atan2Name)
  | undef, _ => some false
  | _, undef => some false
  | _, _ => none

/-- doPermute (order.cpp:39-45) with the order `p` for sub-expressions. If doPermuteDifferentType
swaps the arguments (order.cpp:182), the result is negated. -/
def permStep (p : Expr D → Expr D → Bool) (l r : Expr D) : Bool :=
  match permSame p l r with
  | some b => b
  | none =>
    match permDiff p l r with
    | some b => b
    | none =>
      match permDiff p r l with
      | some b => !b
      | none => false

/-- doPermute (order.cpp:39-45), with fuel for the recursion. -/
def permFuel : Nat → Expr D → Expr D → Bool
  | 0, _, _ => false
  | k + 1, l, r => permStep (permFuel k) l r

/-- doPermute (order.cpp:39-45). The fuel is always sufficient, see `doPermute_eq`. -/
def doPermute (l r : Expr D) : Bool := permFuel (size l + size r) l r

/-- isCorrect (order.cpp:246-249). -/
def isCorrect (l r : Expr D) : Bool := !doPermute l r

/-- What the hash methods use from outside: hashes of strings, numbers and types, and the
combination (boost::hash_combine, std::hash). -/
structure Hasher (D : Type) where
  combine : Nat → Nat → Nat
  str : Str → Nat
  bool : Bool → Nat
  dbl : D → Nat
  int : ℤ → Nat
  enm : Nat → Nat

namespace Hasher

variable (H : Hasher D)

/-- Hash of a list of hashes (boost::hash for ranges: combination in order, from seed 0). -/
def list (l : List Nat) : Nat := l.foldl H.combine 0

/-- hash_value of a Name (name.cpp:48-57). -/
def name (n : Name) : Nat := H.list [H.str n.value, H.str n.sub, H.str n.sup]

/-- std::hash of a Number (number.cpp:339-348). -/
def number (n : Number D) : Nat :=
  H.list [H.dbl n.toDouble, H.int n.denominator, H.int n.numerator]

end Hasher

/-- The type strings (basetypestr.cpp:4-11). -/
def typeStr : Expr D → Str
  | num _ => ['N', 'u', 'm', 'e', 'r', 'i', 'c']
  | sym _ => ['S', 'y', 'm', 'b', 'o', 'l']
  | cst _ => ['C', 'o', 'n', 's', 't', 'a', 'n', 't']
  | undef => ['U', 'n', 'd', 'e', 'f', 'i', 'n', 'e', 'd']
  | sum _ => ['S', 'u', 'm']
  | prod _ => ['P', 'r', 'o', 'd', 'u', 'c', 't']
  | pow _ _ => ['P', 'o', 'w', 'e', 'r']
  | fn _ _ => ['F', 'u', 'n', 'c', 't', 'i', 'o', 'n']
  | atan2 _ _ => ['F', 'u', 'n', 'c', 't', 'i', 'o', 'n']

/-- Hash of a Constant (constant.cpp:79-84): the number of the enumerator (constant.h:16). -/
def cstIndex : Cst → Nat
  | .pi => 0
  | .e => 1

mutual
/-- The hash methods (numeric.cpp:113-116, symbol.cpp:133-141, constant.cpp:79-84,
undefined.cpp:61-64, sum.cpp:129-132, product.cpp:133-136, power.cpp:130-133,
function.cpp:22-30). -/
def hash (H : Hasher D) : Expr D → Nat
  | num n => H.number n
  | sym s => H.list [H.name s.id.name, H.bool s.positive]
  | cst c => H.enm (cstIndex c)
  | undef => 1
  | sum l => H.list (hashes H l)
  | prod l => H.list (hashes H l)
  | pow b e => H.list [hashPtr H b, hashPtr H e]
  | fn f a => H.list [H.name f.name, H.list [hashPtr H a]]
  | atan2 y x => H.list [H.name atan2Name, H.list [hashPtr H y, hashPtr H x]]
/-- hash_value of a BasePtr (baseptr.cpp:17-25): type string and hash of the object. -/
def hashPtr (H : Hasher D) : Expr D → Nat
  | num n => H.list [H.str (typeStr (num n : Expr D)), H.number n]
  | sym s => H.list [H.str (typeStr (sym s : Expr D)), H.list [H.name s.id.name, H.bool s.positive]]
  | cst c => H.list [H.str (typeStr (cst c : Expr D)), H.enm (cstIndex c)]
  | undef => H.list [H.str (typeStr (undef : Expr D)), 1]
  | sum l => H.list [H.str (typeStr (sum l)), H.list (hashes H l)]
  | prod l => H.list [H.str (typeStr (prod l)), H.list (hashes H l)]
  | pow b e => H.list [H.str (typeStr (pow b e)), H.list [hashPtr H b, hashPtr H e]]
  | fn f a => H.list [H.str (typeStr (fn f a)), H.list [H.name f.name, H.list [hashPtr H a]]]
  | atan2 y x => H.list [H.str (typeStr (atan2 y x)),
      H.list [H.name atan2Name, H.list [hashPtr H y, hashPtr H x]]]
/-- The hashes of a list. -/
def hashes (H : Hasher D) : List (Expr D) → List Nat
  | [] => []
  | a :: l => hashPtr H a :: hashes H l
end

end Expr

end Tsym
