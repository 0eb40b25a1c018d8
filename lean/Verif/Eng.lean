import Verif.Order
import Verif.NumPowerSimpl

set_option autoImplicit false

/-!
# The framework for the simplification code

The creation functions of the library (Sum::create, Product::create, Power::create, ...) call each
other in circles, and nothing in the code bounds the depth of these calls. The model uses open
recursion: every function takes a record `Eng` with the functions it may call, and Verif/Engine.lean
builds the records `eng n`, where `n` bounds the depth. `eng 0` answers `Err.fuel` to every call, so
a result of `eng n` is the result the C++ functions return when they return.

Besides its result, a function of the model records a list of conditions (`Cond`). They have no
counterpart in the code and no influence on the result. Some rules of the library hold only if, say,
an expression is not zero; when such a rule is applied, the model records the condition. The value
theorems say that the result is right where all recorded conditions hold.
-/

namespace Tsym

variable {D : Type}

/-- A recorded condition. -/
inductive Cond (D : Type) where
  /-- the value of the expression is not zero -/
  | nz (e : Expr D)
  /-- the value is greater than zero -/
  | pos (e : Expr D)
  /-- the value is not negative -/
  | nn (e : Expr D)
  /-- the value is not an integer -/
  | nint (e : Expr D)
  /-- never holds: the rule that has been applied is wrong -/
  | fail
  | or (a b : Cond D)
  /-- the condition holds when the temporary symbols have the values of these expressions -/
  | within (m : List (Sym × Expr D)) (c : Cond D)

/-- A computation: an error, or a result with the recorded conditions. -/
def M (D α : Type) : Type := Except Err (α × List (Cond D))

namespace M

/-- A computation that records nothing. -/
def pure {α : Type} (a : α) : M D α := Except.ok (a, [])

/-- One computation after the other; the conditions of both are recorded. -/
def bind {α β : Type} (m : M D α) (f : α → M D β) : M D β :=
  match m with
  | Except.error e => Except.error e
  | Except.ok (a, cs) =>
    match f a with
    | Except.error e => Except.error e
    | Except.ok (b, ds) => Except.ok (b, cs ++ ds)

instance : Monad (M D) where
  pure := M.pure
  bind := M.bind

/-- An error. -/
def err {α : Type} (e : Err) : M D α := Except.error e

/-- A computation that records no conditions. -/
def lift {α : Type} (x : Except Err α) : M D α :=
  match x with
  | Except.error e => Except.error e
  | Except.ok a => Except.ok (a, [])

/-- Record conditions. -/
def emit (cs : List (Cond D)) : M D Unit := Except.ok ((), cs)

/-- Record a condition. -/
def log (c : Cond D) : M D Unit := emit [c]

/-- Record a condition if the flag is set. -/
def logIf (b : Bool) (c : Cond D) : M D Unit := emit (if b then [c] else [])

/-- Run a computation and return the conditions instead of recording them. -/
def capture {α : Type} (m : M D α) : M D (α × List (Cond D)) :=
  match m with
  | Except.error e => Except.error e
  | Except.ok p => Except.ok (p, [])

/-- Run a computation whose value does not matter. -/
def silent {α : Type} (m : M D α) : M D α := do
  let p ← capture m
  Pure.pure p.1

/-- Run a test whose conditions only matter if the answer is yes. -/
def whenTrue (m : M D Bool) : M D Bool := do
  let p ← capture m
  if p.1 then do
    emit p.2
    Pure.pure true
  else Pure.pure false

/-- Run a computation with temporary symbols that stand for expressions. -/
def withinM {α : Type} (mp : List (Sym × Expr D)) (m : M D α) : M D α := do
  let p ← capture m
  emit (p.2.map (Cond.within mp))
  Pure.pure p.1

/-- A loop, with a bound on the number of rounds. -/
def loop {S R : Type} : Nat → (S → M D (S ⊕ R)) → S → M D R
  | 0, _, _ => err .fuel
  | n + 1, f, s => do
    let r ← f s
    match r with
    | .inl s' => loop n f s'
    | .inr x => Pure.pure x

/-- Apply a function to all elements of a list, in order. -/
def mapL {α β : Type} (f : α → M D β) : List α → M D (List β)
  | [] => Pure.pure []
  | a :: l => do
    let b ← f a
    let r ← mapL f l
    Pure.pure (b :: r)

/-- A loop over a list with an accumulator. -/
def foldL {α β : Type} (f : β → α → M D β) : β → List α → M D β
  | b, [] => Pure.pure b
  | b, a :: l => do
    let b' ← f b a
    foldL f b' l

end M

/-- Fraction (fraction.h:8-14). -/
structure Frac (D : Type) where
  num : Expr D
  denom : Expr D := Expr.one

/-- SymbolMap (symbolmap.h:26): the expressions that have been replaced, with their symbols, the
latest first. `avoid` lists the numbers of the temporary symbols that are in use elsewhere. -/
structure SMap (D : Type) where
  entries : List (Expr D × Sym) := []
  avoid : List Nat := []

/-- What the code leaves open. -/
structure Cfg (D : Type) where
  /-- options::getMaxPrimeResolution -/
  maxPrime : ℤ
  /-- Symbol::createTmpSymbol (symbol.cpp:85-90) takes the next value of a counter that is
  decremented whenever a temporary symbol is destroyed. The model takes any number that is not the
  number of a temporary symbol in use, given in the list. -/
  fresh : List Nat → Nat
  /-- The order in which std::unordered_map is traversed (symbolmap.cpp:16-17). -/
  mapOrder : List (Expr D × Sym) → List (Expr D × Sym)
  /-- std::list::sort with a comparison, which is not always an order. -/
  sort : (Expr D → Expr D → Bool) → List (Expr D) → List (Expr D)
  /-- `++it` for the end iterator of a std::list (productsimpl.cpp:546) is undefined behaviour:
  report it (true), or go on as libstdc++ does, with the first element (false). -/
  strictUb : Bool

/-- What the model assumes of a configuration. -/
structure Cfg.Ok (cfg : Cfg D) : Prop where
  fresh : ∀ l, cfg.fresh l ∉ l
  mapOrder : ∀ l, (cfg.mapOrder l).Perm l
  sort : ∀ c l, (cfg.sort c l).Perm l

/-- Stable insertion sort. -/
def insertBy {α : Type} (c : α → α → Bool) (x : α) : List α → List α
  | [] => [x]
  | y :: l => if c y x then y :: insertBy c x l else if c x y then x :: y :: l
    else y :: insertBy c x l

/-- Stable insertion sort of a list, an instance of what std::sort may give. -/
def sortBy {α : Type} (c : α → α → Bool) (l : List α) : List α :=
  l.foldl (fun acc x => insertBy c x acc) []

theorem insertBy_perm {α : Type} (c : α → α → Bool) (x : α) (l : List α) :
    (insertBy c x l).Perm (x :: l) := by
  induction l with
  | nil => exact .refl _
  | cons y l ih =>
    unfold insertBy
    split
    · exact (ih.cons y).trans (.swap x y l)
    · split
      · exact .refl _
      · exact (ih.cons y).trans (.swap x y l)

theorem sortBy_perm {α : Type} (c : α → α → Bool) (l : List α) : (sortBy c l).Perm l := by
  unfold sortBy
  suffices h : ∀ acc, (l.foldl (fun acc x => insertBy c x acc) acc).Perm (acc ++ l) by
    simpa using h []
  induction l with
  | nil => intro acc; simp
  | cons y l ih =>
    intro acc
    simp only [List.foldl_cons]
    refine (ih _).trans ?_
    refine ((insertBy_perm c y acc).append_right l).trans ?_
    exact (List.perm_middle (a := y) (l₁ := acc) (l₂ := l)).symm

/-- The configuration closest to the code: numbers count up, maps are traversed from the latest
entry to the first. -/
def Cfg.std (maxPrime : ℤ) : Cfg D where
  maxPrime := maxPrime
  fresh l := l.foldl max 0 + 1
  mapOrder l := l
  sort := sortBy
  strictUb := false

theorem foldl_max_le (l : List Nat) : ∀ b, b ≤ l.foldl max b ∧ ∀ x ∈ l, x ≤ l.foldl max b := by
  induction l with
  | nil => intro b; simp
  | cons y l ih =>
    intro b
    obtain ⟨h1, h2⟩ := ih (max b y)
    refine ⟨le_trans (le_max_left _ _) h1, ?_⟩
    intro x hx
    rcases List.mem_cons.1 hx with rfl | hx
    · exact le_trans (le_max_right _ _) h1
    · exact h2 x hx

theorem Cfg.std_ok (maxPrime : ℤ) : (Cfg.std (D := D) maxPrime).Ok where
  fresh l h := by
    have := (foldl_max_le l 0).2 _ h
    simp only [Cfg.std] at this
    omega
  mapOrder _ := .refl _
  sort c l := sortBy_perm c l

/-- The functions of the library that call each other. The comments name the C++ functions, the
definitions are in the files below. -/
structure Eng (D : Type) where
  /-- bound for loops -/
  steps : Nat
  cfg : Cfg D
  /-- Sum::create -/
  sumCreate : List (Expr D) → M D (Expr D)
  /-- Product::create -/
  prodCreate : List (Expr D) → M D (Expr D)
  /-- Power::create -/
  powCreate : Expr D → Expr D → M D (Expr D)
  /-- Logarithm::create -/
  logCreate : Expr D → M D (Expr D)
  /-- Trigonometric::create -/
  trigCreate : Fn → Expr D → M D (Expr D)
  /-- Trigonometric::createAtan2, with the arguments y and x -/
  atan2Create : Expr D → Expr D → M D (Expr D)
  /-- Base::isPositive -/
  isPos : Expr D → M D Bool
  /-- Base::isNegative -/
  isNeg : Expr D → M D Bool
  /-- Base::expand -/
  expand : Expr D → M D (Expr D)
  /-- expandAsProduct -/
  expandAsProduct : List (Expr D) → M D (Expr D)
  /-- Base::subst, with the arguments from, to, and the expression -/
  subst : Expr D → Expr D → Expr D → M D (Expr D)
  /-- Base::normal() -/
  normal : Expr D → M D (Expr D)
  /-- Base::normal(SymbolMap&) -/
  normalFrac : Expr D → SMap D → M D (Frac D × SMap D)
  /-- Base::coeff, with the arguments variable, exponent, and the expression -/
  coeff : Expr D → ℤ → Expr D → M D (Expr D)
  /-- simplWithoutCache of sumsimpl.cpp -/
  simplSum : List (Expr D) → M D (List (Expr D))
  /-- simplifySum -/
  sumSimplify : List (Expr D) → M D (List (Expr D))
  /-- merge of sumsimpl.cpp -/
  mergeSum : List (Expr D) → List (Expr D) → M D (List (Expr D))
  /-- simplifyWithoutCache of productsimpl.cpp -/
  simplProd : List (Expr D) → M D (List (Expr D))
  /-- simplifyProduct -/
  prodSimplify : List (Expr D) → M D (List (Expr D))
  /-- merge of productsimpl.cpp -/
  mergeProd : List (Expr D) → List (Expr D) → M D (List (Expr D))
  /-- simplifyPower -/
  simplPow : Expr D → Expr D → M D (Expr D × Expr D)
  /-- poly::divide with a list of symbols -/
  divideL : Expr D → Expr D → List (Expr D) → M D (Expr D × Expr D)
  /-- poly::divide with two arguments -/
  divide : Expr D → Expr D → M D (Expr D × Expr D)
  /-- Gcd::compute with a list of symbols -/
  gcdL : Expr D → Expr D → List (Expr D) → M D (Expr D)
  /-- poly::gcd with two arguments -/
  gcd : Expr D → Expr D → M D (Expr D)
  /-- Base::diffWrtSymbol, with the arguments symbol and expression -/
  diff : Expr D → Expr D → M D (Expr D)

namespace Eng

variable [Flt D] (E : Eng D)

/-- Product::minus with one argument (product.h:16-19). -/
def minus (e : Expr D) : M D (Expr D) := E.prodCreate [Expr.mOne, e]

/-- Power::oneOver (power.cpp:37-40). -/
def oneOver (e : Expr D) : M D (Expr D) := E.powCreate e Expr.mOne

/-- Power::sqrt (power.cpp:42-45). -/
def sqrt (e : Expr D) : M D (Expr D) := E.powCreate e Expr.half

end Eng

mutual
/-- The numbers of the temporary symbols in an expression. -/
def Expr.tmpIds : Expr D → List Nat
  | .sym s => match s.id with
    | .tmp k => [k]
    | .named _ => []
  | .sum l => Expr.tmpIdsList l
  | .prod l => Expr.tmpIdsList l
  | .pow b e => b.tmpIds ++ e.tmpIds
  | .fn _ a => a.tmpIds
  | .atan2 y x => y.tmpIds ++ x.tmpIds
  | _ => []
/-- The numbers of the temporary symbols in a list. -/
def Expr.tmpIdsList : List (Expr D) → List Nat
  | [] => []
  | a :: l => a.tmpIds ++ Expr.tmpIdsList l
end

end Tsym
