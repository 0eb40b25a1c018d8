import Verif.Poly

set_option autoImplicit false

/-!
# Normalisation (src/base.cpp, fraction.cpp, symbolmap.cpp, powernormal.cpp and the normal methods)
-/

namespace Tsym

open Expr

variable {D : Type} [Flt D] (E : Eng D)

/-- The number of a temporary symbol. -/
def Sym.tmpId (s : Sym) : List Nat :=
  match s.id with
  | .tmp k => [k]
  | .named _ => []

/-- The numbers of all temporary symbols in use: those of the map, and those to avoid. -/
def SMap.used (m : SMap D) : List Nat := m.avoid ++ m.entries.flatMap fun p => p.2.tmpId

/-- The entry for an expression. -/
def SMap.lookup (m : SMap D) (e : Expr D) : Option (Expr D × Sym) :=
  m.entries.find? fun p => isEqual p.1 e

/-- SymbolMap::getTmpSymbolAndStore (symbolmap.cpp:7-13). -/
def getTmp (e : Expr D) (m : SMap D) : M D (Expr D × SMap D) :=
  match m.lookup e with
  | some p => pure (.sym p.2, m)
  | none => do
    let pos ← M.whenTrue (E.isPos e)
    let s : Sym := ⟨.tmp (E.cfg.fresh (m.used ++ e.tmpIds)), pos⟩
    pure (.sym s, { m with entries := (e, s) :: m.entries })

/-- One pass of replaceTmpSymbolsBackFrom (symbolmap.cpp:17-18). -/
def replacePass (entries : List (Expr D × Sym)) (e : Expr D) : M D (Expr D) :=
  M.foldL (fun b p => E.subst (.sym p.2) p.1 b) e (E.cfg.mapOrder entries)

/-- SymbolMap::replaceTmpSymbolsBackFrom (symbolmap.cpp:15-28). -/
def replaceBack (entries : List (Expr D × Sym)) (e : Expr D) : M D (Expr D) :=
  M.loop E.steps (fun orig => do
    let r ← replacePass E entries orig
    if r.isUndefined then pure (.inr r)
    else if !isEqual r orig then pure (.inl r)
    else pure (.inr r)) e

/-- Is the expanded expression zero? The conditions of the expansion only matter if it is. -/
def expandsToZero (e : Expr D) : M D Bool :=
  M.whenTrue (do
    let x ← E.expand e
    pure x.isZero)

/-- cancelNonTrivial (fraction.cpp:24-31). The result has the same value if the divisor is not zero and
no remainder is left. -/
def cancelNonTrivial (f : Frac D) : M D (Frac D) := do
  let g ← M.silent (E.gcd f.num f.denom)
  let d ← E.divide f.denom g
  let n ← E.divide f.num g
  M.log (.nz g)
  M.logIf (!(d.2.isZero && n.2.isZero)) .fail
  pure ⟨n.1, d.1⟩

/-- cancel (fraction.cpp:35-46). -/
def cancel (f : Frac D) : M D (Frac D) :=
  if f.denom.isOne then pure ⟨f.num, one⟩
  else if f.num.isZero then pure ⟨f.num, one⟩
  else do
    let z ← expandsToZero E f.denom
    if z then pure ⟨.undef, one⟩ else cancelNonTrivial E f

/-- One round of the loop in Sum::toCommonDenom (sum.cpp:83-98). -/
def addFrac (f g : Frac D) : M D (Frac D) :=
  if isEqual f.denom g.denom then do
    let n ← E.sumCreate [f.num, g.num]
    pure ⟨n, f.denom⟩
  else do
    let d ← M.silent (E.gcd f.denom g.denom)
    M.log (.nz d)
    let o ← E.oneOver d
    let l ← E.prodCreate [g.denom, o]
    let lcm ← E.expand l
    let p ← E.prodCreate [f.denom, o]
    let factor ← E.normal p
    let a ← E.prodCreate [f.num, lcm]
    let a ← E.expand a
    let b ← E.prodCreate [g.num, factor]
    let b ← E.expand b
    let s ← E.sumCreate [a, b]
    let num ← E.normal s
    let q ← E.prodCreate [f.denom, lcm]
    let denom ← E.normal q
    pure ⟨num, denom⟩

/-- Sum::toCommonDenom (sum.cpp:77-101). -/
def toCommonDenom : List (Frac D) → M D (Frac D)
  | [] => M.err .ub
  | f :: l => do
    let r ← M.foldL (addFrac E) f l
    cancel E r

/-- The loops over the operands in Sum::normal and Product::normalAndSplitIntoFraction
(sum.cpp:71-72, product.cpp:95-99). -/
def normalOperands : List (Expr D) → SMap D → M D (List (Frac D) × SMap D)
  | [], m => pure ([], m)
  | a :: l, m => do
    let f ← E.normalFrac a m
    let r ← normalOperands l f.2
    pure (f.1 :: r.1, r.2)

/-- PowerNormal::evaluatePow (powernormal.cpp:84-89). -/
def evaluatePow (b e : Expr D) (m : SMap D) : M D (Expr D × SMap D) := do
  let p ← E.powCreate b e
  if p.isOne then pure (p, m) else getTmp E p m

/-- PowerNormal::isBaseOrExpUndefined (powernormal.cpp:26-30). -/
def isBaseOrExpUndefined (f : Frac D) (e : Expr D) : M D Bool :=
  if f.num.isUndefined || f.denom.isUndefined || f.denom.isZero then pure true
  else do
    let z ← expandsToZero E f.denom
    pure (z || e.isUndefined)

/-- PowerNormal::normalIntegerExp (powernormal.cpp:40-55). -/
def normalIntegerExp (f : Frac D) (n : Number D) : M D (Frac D) := do
  let a ← E.powCreate f.num (.num n.abs)
  let b ← E.powCreate f.denom (.num n.abs)
  pure (if Number.lt 0 n then ⟨a, b⟩ else if n.lt 0 then ⟨b, a⟩ else ⟨one, one⟩)

/-- PowerNormal::normalNumEvalExp, normalNumEvalPosExp and normalNumEvalNegExp
(powernormal.cpp:65-98). A power of a quotient becomes a quotient of powers, which needs a positive
denominator. In the second case, the numerator must not be zero unless the exponent is negative. -/
def normalNumEvalExp (f : Frac D) (e : Expr D) (n : Number D) (m : SMap D) :
    M D (Frac D × SMap D) :=
  if n.eqv 0 then M.err .assert
  else do
    M.logIf (!f.denom.isOne) (.pos f.denom)
    let p ← M.silent (E.isPos e)
    if p then do
      let a ← evaluatePow E f.num e m
      let b ← evaluatePow E f.denom e a.2
      pure (⟨a.1, b.1⟩, b.2)
    else do
      let e' ← E.minus e
      let a ← evaluatePow E f.denom e' m
      let b ← evaluatePow E f.num e' a.2
      M.logIf (!n.lt 0) .fail
      pure (⟨a.1, b.1⟩, b.2)

/-- PowerNormal (powernormal.cpp:10-24, 57-63, 100-106). -/
def normalPow (b e : Expr D) (m : SMap D) : M D (Frac D × SMap D) := do
  let f ← E.normalFrac b m
  let re ← E.normal e
  let u ← isBaseOrExpUndefined E f.1 re
  if u then pure (⟨.undef, one⟩, f.2)
  else do
    let n ← M.lift (numEval re)
    match n with
    | some x =>
      if x.isInt then do
        let r ← normalIntegerExp E f.1 x
        pure (r, f.2)
      else normalNumEvalExp E f.1 re x f.2
    | none => do
      let q ← evalFrac E f.1
      let p ← E.powCreate q re
      let t ← getTmp E p f.2
      pure (⟨t.1, one⟩, t.2)

/-- The normal methods with a map (numeric.cpp:90-96, symbol.cpp:113-116, constant.cpp:57-62,
undefined.cpp:41-44, sum.cpp:64-75, product.cpp:82-102, power.cpp:98-103, logarithm.cpp:99-105,
trigonometric.cpp:422-445). -/
def normalFrac : Expr D → SMap D → M D (Frac D × SMap D)
  | .num (.rat q), m => pure (⟨.int q.num, .int q.den⟩, m)
  | .num (.dbl d), m => do
    let t ← getTmp E (.num (.dbl d)) m
    pure (⟨t.1, one⟩, t.2)
  | .sym s, m => pure (⟨.sym s, one⟩, m)
  | .cst c, m => do
    let t ← getTmp E (.cst c) m
    pure (⟨t.1, one⟩, t.2)
  | .undef, m => pure (⟨.undef, one⟩, m)
  | .sum l, m => do
    let z ← expandsToZero E (.sum l)
    if z then pure (⟨zero, one⟩, m)
    else do
      let r ← normalOperands E l m
      let f ← toCommonDenom E r.1
      pure (f, r.2)
  | .prod l, m => do
    let z ← expandsToZero E (.prod l)
    if z then pure (⟨zero, one⟩, m)
    else do
      let r ← normalOperands E l m
      let n ← E.prodCreate (r.1.map Frac.num)
      let d ← E.prodCreate (r.1.map Frac.denom)
      let f ← cancel E ⟨n, d⟩
      pure (f, r.2)
  | .pow b e, m => normalPow E b e m
  | .fn .log a, m => do
    let a' ← E.normal a
    let x ← E.logCreate a'
    let t ← getTmp E x m
    pure (⟨t.1, one⟩, t.2)
  | .fn f a, m => do
    let a' ← E.normal a
    let x ← E.trigCreate f a'
    let t ← getTmp E x m
    pure (⟨t.1, one⟩, t.2)
  | .atan2 y x, m => do
    let y' ← E.normal y
    let x' ← E.normal x
    let r ← E.atan2Create y' x'
    let t ← getTmp E r m
    pure (⟨t.1, one⟩, t.2)

/-- The entries of the map as conditions need them. -/
def SMap.bindings (m : SMap D) : List (Sym × Expr D) := m.entries.map fun p => (p.2, p.1)

/-- Base::normalWithoutCache (base.cpp:159-168); Base::normal (base.cpp:139-157) without the cache. -/
def normal (e : Expr D) : M D (Expr D) := do
  let p ← M.capture (E.normalFrac e ⟨[], e.tmpIds⟩)
  let n ← M.capture (replaceBack E p.1.2.entries p.1.1.num)
  let d ← M.capture (replaceBack E p.1.2.entries p.1.1.denom)
  M.emit ((p.2 ++ n.2 ++ d.2).map (Cond.within p.1.2.bindings))
  evalFrac E ⟨n.1, d.1⟩

end Tsym
