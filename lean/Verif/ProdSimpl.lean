import Verif.SumSimpl

set_option autoImplicit false

/-!
# Products (src/productsimpl.cpp, Product::create of src/product.cpp)

The cache of simplifyProduct (productsimpl.cpp:618-629) is not modelled here, see Verif/Cache.lean.
-/

namespace Tsym

open Expr

variable {D : Type} [Flt D] (E : Eng D)

/-- simplTwoNumerics (productsimpl.cpp:321-331). -/
def mulNumerics (a b : Number D) : List (Expr D) :=
  if (a.mul b).eqv 1 then [] else [.num (a.mul b)]

/-- simplNumAndNumPow with numbers (productsimpl.cpp:362-374). If the flag of the model of
NumPowerSimpl says that the collection of primes went wrong, the value is wrong. Nothing is claimed
if one of the numbers is zero (Product::create and Power::create exclude this). -/
def simplNumAndNumPowN (preFactor base exp : Number D) : M D (List (Expr D)) := do
  let r ← M.lift (NumPowerSimpl.compute E.cfg.maxPrime ⟨base, exp, preFactor⟩)
  M.logIf (!r.2 || preFactor.eqv 0 || base.eqv 0 || exp.eqv 0) .fail
  let p ← E.powCreate (.num r.1.base) (.num r.1.exp)
  pure (if (Expr.num r.1.preFactor).isOne then [p] else [.num r.1.preFactor, p])

/-- simplNumAndConst (productsimpl.cpp:333-351). The assertion excludes a Constant, for which isConst
is false. -/
def simplNumAndConst (n : Number D) : Expr D → M D (List (Expr D))
  | .pow (.num b) (.num e) => simplNumAndNumPowN E n b e
  | .cst _ => M.err .assert
  | c => pure [.num n, c]

/-- haveEqualBases (productsimpl.cpp:376-379). -/
def haveEqualBases (f1 f2 : Expr D) : Bool := isEqual f1.base f2.base

/-- simplTwoEqualBases (productsimpl.cpp:381-397). -/
def simplTwoEqualBases (f1 f2 : Expr D) : M D (List (Expr D)) := do
  let newExp ← E.sumCreate [f1.exp, f2.exp]
  let pos ← M.silent (E.isPos f1.base)
  let signed ← (if pos then pure true else M.silent (E.isNeg f1.base))
  let hide ← (if signed then pure false else do
    let b1 ← M.lift (isFractionNumeric f1.exp)
    let b2 ← (if b1 then M.lift (isFractionNumeric f2.exp) else pure false)
    if b2 then M.lift (isInteger newExp) else pure false)
  if hide then pure [f1, f2]
  else do
    let p ← E.powCreate f1.base newExp
    pure [p]

/-- areNumPowersWithEqualExp (productsimpl.cpp:409-420). -/
def areNumPowersWithEqualExp (f1 f2 : Expr D) : Bool :=
  f1.isNumericPower && f2.isNumericPower && isEqual f1.exp f2.exp

/-- simplTwoEqualExp (productsimpl.cpp:422-429). Called for numeric powers only. -/
def simplTwoEqualExp : Expr D → Expr D → M D (List (Expr D))
  | .pow (.num b1) (.num e), .pow (.num b2) _ => simplNumAndNumPowN E 1 (b1.mul b2) e
  | _, _ => M.err .ub

/-- areNumPowersWithZeroSumExp (productsimpl.cpp:431-440). -/
def areNumPowersWithZeroSumExp (f1 f2 : Expr D) : M D Bool :=
  if f1.isNumericPower && f2.isNumericPower then do
    let s ← E.sumCreate [f1.exp, f2.exp]
    pure s.isZero
  else pure false

/-- simplTwoZeroSumExp (productsimpl.cpp:442-454). Called for numeric powers only. -/
def simplTwoZeroSumExp : Expr D → Expr D → M D (List (Expr D))
  | .pow (.num b1) e, .pow (.num b2) _ => do
    let i ← M.lift (b2.toThe (Number.neg 1))
    let p ← E.powCreate (.num (b1.mul i)) e
    pure [p]
  | _, _ => M.err .ub

/-- areNumPowersWithEqualExpDenom (productsimpl.cpp:456-462). -/
def areNumPowersWithEqualExpDenom : Expr D → Expr D → Bool
  | .pow (.num _) (.num e1), .pow (.num _) (.num e2) => e1.denominator == e2.denominator
  | _, _ => false

/-- evalExpNumerator (productsimpl.cpp:491-498). -/
def evalExpNumerator (base : Number D) (exp : ℤ) : Except Err ℤ :=
  if Number.unsignedMax < (exp.natAbs : ℤ) then .error .assert
  else .ok ((if 0 < exp then base.numerator else base.denominator) ^ exp.natAbs)

/-- evalNumExpNumerator (productsimpl.cpp:483-489). -/
def evalNumExpNumerator (base exp : Number D) : Except Err ℤ := evalExpNumerator base exp.numerator

/-- evalDenomExpNumerator (productsimpl.cpp:500-506). -/
def evalDenomExpNumerator (base exp : Number D) : Except Err ℤ := do
  let b ← base.toThe (Number.neg 1)
  evalExpNumerator b exp.numerator

/-- Is this number a rational that is not negative? (Not in the code, used for a condition.) -/
def isNnRat : Number D → Bool
  | .rat q => decide (0 ≤ q)
  | .dbl _ => false

/-- simplTwoEqualExpDenom (productsimpl.cpp:464-481). Called for numeric powers only. Doubles have
the numerator 0 and the denominator 1, and signs are lost, so the rule is wrong for bases that are
not positive rationals and for double exponents. -/
def simplTwoEqualExpDenom (f1 f2 : Expr D) : M D (List (Expr D)) :=
  match f1, f2 with
  | .pow (.num b1) (.num e1), .pow (.num b2) (.num e2) => do
    let newExp ← M.lift (Number.ofInts 1 e1.denominator)
    let d1 ← M.lift (evalDenomExpNumerator b1 e1)
    let d2 ← M.lift (evalDenomExpNumerator b2 e2)
    let n1 ← M.lift (evalNumExpNumerator b1 e1)
    let n2 ← M.lift (evalNumExpNumerator b2 e2)
    let newBase ← M.lift (Number.ofInts (D := D) (n1 * n2) (d1 * d2))
    if E.cfg.maxPrime < newBase.numerator ∨ E.cfg.maxPrime < newBase.denominator then pure [f1, f2]
    else do
      M.logIf (!(isNnRat b1 && isNnRat b2 && e1.isRational && e2.isRational)) .fail
      let p ← E.powCreate (.num newBase) (.num newExp)
      pure [p]
  | _, _ => M.err .ub

/-- simplTwoConst (productsimpl.cpp:291-319). -/
def simplTwoConst (f1 f2 : Expr D) : M D (List (Expr D)) :=
  match f1, f2 with
  | .num a, .num b => pure (mulNumerics a b)
  | .num a, c => simplNumAndConst E a c
  | c, .num b => simplNumAndConst E b c
  | f1, f2 =>
    if haveEqualBases f1 f2 then simplTwoEqualBases E f1 f2
    else if areNumPowersWithEqualExp f1 f2 then simplTwoEqualExp E f1 f2
    else do
      let z ← M.whenTrue (areNumPowersWithZeroSumExp E f1 f2)
      if z then simplTwoZeroSumExp E f1 f2
      else if areNumPowersWithEqualExpDenom f1 f2 then simplTwoEqualExpDenom E f1 f2
      else pure (ordered f1 f2)

/-- simplTwoFactorsWithoutProduct (productsimpl.cpp:273-289). -/
def simplTwoFactorsWithoutProduct (f1 f2 : Expr D) : M D (List (Expr D)) :=
  if f1.isOne then pure [f2]
  else if f2.isOne then pure [f1]
  else if f1.isConst && f2.isConst then simplTwoConst E f1 f2
  else if haveEqualBases f1 f2 then simplTwoEqualBases E f1 f2
  else pure (ordered f1 f2)

/-- `isProduct(*f) ? f->operands() : BasePtrList{f}` (productsimpl.cpp:231-232). -/
def factors : Expr D → List (Expr D)
  | .prod l => l
  | e => [e]

/-- simplTwoFactors (productsimpl.cpp:221-235). -/
def simplTwoFactors (f1 f2 : Expr D) : M D (List (Expr D)) :=
  if f1.isProduct || f2.isProduct then E.mergeProd (factors f1) (factors f2)
  else simplTwoFactorsWithoutProduct E f1 f2

/-- merge and mergeNonEmpty (productsimpl.cpp:237-271). The last case is the error exit, which
loses the operands. -/
def mergeProd : List (Expr D) → List (Expr D) → M D (List (Expr D))
  | [], l2 => pure l2
  | p1 :: pRest, [] => pure (p1 :: pRest)
  | p1 :: pRest, q1 :: qRest => do
    let res ← simplTwoFactors E p1 q1
    match res with
    | [] => E.mergeProd pRest qRest
    | [r] => if r.isOne then E.mergeProd pRest qRest else do
      let m ← E.mergeProd pRest qRest
      pure (r :: m)
    | r1 :: r2 :: rs =>
      if areEqual (r1 :: r2 :: rs) [p1, q1] then do
        let m ← E.mergeProd pRest (q1 :: qRest)
        pure (p1 :: m)
      else if areEqual (r1 :: r2 :: rs) [q1, p1] then do
        let m ← E.mergeProd (p1 :: pRest) qRest
        pure (q1 :: m)
      else do
        M.log .fail
        pure []

/-- One round of extractProducts (productsimpl.cpp:92-99): the first product is replaced by its
operands. -/
def extractFirst : List (Expr D) → Option (List (Expr D))
  | [] => none
  | .prod ops :: l => some (ops ++ l)
  | x :: l => (extractFirst l).map (x :: ·)

/-- extractProducts (productsimpl.cpp:88-102). -/
def extractProducts (u : List (Expr D)) : M D (List (Expr D)) :=
  M.loop E.steps (fun u => pure (match extractFirst u with
    | none => .inr u
    | some u' => .inl u')) u

/-- isContractableTrigFctPower (productsimpl.cpp:148-156). -/
def isContractableTrigFctPower (p : Expr D) : M D Bool :=
  if p.base.isFunction then do
    let n ← M.lift (numEval p.exp)
    match n, p.base with
    | some _, .fn .sin _ => pure true
    | some _, .fn .cos _ => pure true
    | some _, .fn .tan _ => pure true
    | _, _ => pure false
  else pure false

/-- areContractableTrigFctPowers (productsimpl.cpp:399-407). -/
def areContractableTrigFctPowers (f1 f2 : Expr D) : M D Bool := do
  let b1 ← isContractableTrigFctPower f1
  if b1 then do
    let b2 ← isContractableTrigFctPower f2
    if b2 then
      match f1.base.operands, f2.base.operands with
      | a1 :: _, a2 :: _ => pure (isEqual a1 a2)
      | _, _ => M.err .ub
    else pure false
  else pure false

/-- trigSymbReplacement (productsimpl.cpp:191-200): the sign of the temporary symbol. -/
def trigSign (f : Fn) (arg : Expr D) : M D Bool :=
  M.whenTrue (do
    let t ← E.trigCreate f arg
    E.isPos t)

/-- trigFunctionPowerReplacement (productsimpl.cpp:202-212). -/
def trigFunctionPowerReplacement (p sin cos : Expr D) : M D (Expr D) :=
  match p.base with
  | .fn .sin _ => E.powCreate sin p.exp
  | .fn .cos _ => E.powCreate cos p.exp
  | .fn .tan _ => do
    let o ← E.oneOver cos
    let q ← E.prodCreate [sin, o]
    E.powCreate q p.exp
  | _ => M.err .assert

/-- The first argument of the function of two powers of functions (productsimpl.cpp:162). -/
def trigArg (f1 : Expr D) : M D (Expr D) :=
  match f1.base.operands with
  | a :: _ => pure a
  | [] => M.err .ub

/-- subst for lists (baseptrlistfct.cpp:181-195). -/
def substList (x r : Expr D) (l : List (Expr D)) : M D (List (Expr D)) :=
  M.mapL (E.subst x r) l

/-- The branch of contractTrigFctPowers for opposite exponents (productsimpl.cpp:172-180): sine and
cosine become a tangent. The code tests one of the bases only; the conditions say that the rule
is wrong if the bases are not the two temporary symbols, and that cos x must not be zero if the
tangent has a negative exponent. -/
def contractToTan (r1 r2 sin cos arg : Expr D) : M D (List (Expr D)) := do
  let newExp ← (if isEqual r1.base cos then E.minus r1.exp else pure r1.exp)
  M.logIf (!((isEqual r1.base cos && isEqual r2.base sin)
    || (isEqual r1.base sin && isEqual r2.base cos))) .fail
  M.log (.or (.pos newExp) (.nz (.fn .cos arg)))
  let t ← E.trigCreate .tan arg
  let p ← E.powCreate t newExp
  pure [p]

/-- contractTrigFctPowers (productsimpl.cpp:158-189). The two temporary symbols stand for the sine
and the cosine. `front()` of an empty list is undefined behaviour. -/
def contractTrigFctPowers (f1 f2 : Expr D) : M D (List (Expr D)) := do
  let arg ← trigArg f1
  let ps ← trigSign E .sin arg
  let pc ← trigSign E .cos arg
  let used := f1.tmpIds ++ f2.tmpIds
  let ks := E.cfg.fresh used
  let kc := E.cfg.fresh (ks :: used)
  let ss : Sym := ⟨.tmp ks, ps⟩
  let sc : Sym := ⟨.tmp kc, pc⟩
  let mp := [(ss, Expr.fn .sin arg), (sc, Expr.fn .cos arg)]
  let res ← M.withinM mp (do
    let r1 ← trigFunctionPowerReplacement E f1 (.sym ss) (.sym sc)
    let r2 ← trigFunctionPowerReplacement E f2 (.sym ss) (.sym sc)
    simplTwoFactors E r1 r2)
  match res with
  | [] => M.err .ub
  | r :: rs => do
    let last := (r :: rs).getLast (by simp)
    let b ← (if rs.length = 1 then M.whenTrue (M.withinM mp (do
      let m ← E.minus last.exp
      pure (isEqual r.exp m))) else pure false)
    if b then contractToTan E r last (.sym ss) (.sym sc) arg
    else do
      let l1 ← M.withinM [(sc, Expr.fn .cos arg)] (do
        let s ← E.trigCreate .sin arg
        substList E (.sym ss) s (r :: rs))
      let c ← E.trigCreate .cos arg
      let l2 ← substList E (.sym sc) c l1
      match l2 with
      | [] => M.err .ub
      | a :: l =>
        let b := (a :: l).getLast (by simp)
        if doPermute a b then do
          M.logIf (l.length != 1) .fail
          pure [b, a]
        else pure (a :: l)

/-- The state of the loops in `contract`: the list before `it1`, `*it1`, the elements between
`it1` and `it2`, the elements from `it2`, and the flags found and hasChanged. -/
structure ContractState (D : Type) where
  pre : List (Expr D)
  x : Expr D
  mid : List (Expr D)
  rest : List (Expr D)
  found : Bool
  changed : Bool

/-- The start of `contract` (productsimpl.cpp:118-124); an empty list is left as it is. -/
def contractStart : List (Expr D) → ContractState D ⊕ List (Expr D)
  | [] => .inr []
  | x :: l => .inl ⟨[], x, [], l, false, false⟩

/-- One step of the loops in `contract` (productsimpl.cpp:121-145). The lists that the functions
`simpl` return are not empty. -/
def contractStep (check : Expr D → Expr D → M D Bool) (simpl : Expr D → Expr D → M D (List (Expr D)))
    (s : ContractState D) : M D (ContractState D ⊕ List (Expr D)) :=
  match s.rest with
  | y :: rest => do
    let b ← check s.x y
    if b then do
      let p ← M.capture (simpl s.x y)
      match p.1 with
      | [] => M.err .ub
      | r :: rs =>
        if areEqual (r :: rs) [s.x, y] then pure (.inl { s with mid := s.mid ++ [y], rest := rest })
        else do
          M.emit p.2
          pure (.inl { s with x := r, mid := [], rest := rs ++ s.mid ++ rest, found := true, changed := true })
    else pure (.inl { s with mid := s.mid ++ [y], rest := rest })
  | [] =>
    if s.found then pure (.inl { s with mid := [], rest := s.mid, found := false })
    else match s.mid with
      | m :: ms => pure (.inl { s with pre := s.pre ++ [s.x], x := m, mid := [], rest := ms })
      | [] =>
        if s.changed then pure (contractStart (s.pre ++ [s.x])) else pure (.inr (s.pre ++ [s.x]))

/-- contract (productsimpl.cpp:109-146). -/
def contract (check : Expr D → Expr D → M D Bool) (simpl : Expr D → Expr D → M D (List (Expr D)))
    (u : List (Expr D)) : M D (List (Expr D)) :=
  match contractStart u with
  | .inr r => pure r
  | .inl s => M.loop E.steps (contractStep check simpl) s

/-- contractTrigonometrics (productsimpl.cpp:104-107). -/
def contractTrigonometrics (u : List (Expr D)) : M D (List (Expr D)) :=
  contract E areContractableTrigFctPowers (contractTrigFctPowers E) u

/-- contractNumerics (productsimpl.cpp:532-541): the product of the numbers. -/
def productOfNumerics : Number D → List (Expr D) → Number D
  | acc, [] => acc
  | acc, .num n :: l => productOfNumerics (acc.mul n) l
  | acc, _ :: l => productOfNumerics acc l

/-- contractNumerics (productsimpl.cpp:532-541). -/
def contractNumerics (u : List (Expr D)) : List (Expr D) :=
  if !(productOfNumerics 1 u).eqv 1 || (u.filter fun e => !e.isNumeric).isEmpty then
    .num (productOfNumerics 1 u) :: u.filter fun e => !e.isNumeric
  else u.filter fun e => !e.isNumeric

/-- isContractableConst (productsimpl.cpp:558-566). -/
def isContractableConst (e : Expr D) : Bool := e.isConst && (e.isNumeric || e.isNumericPower)

/-- One step of the loops in contractConst and contractTwoConst (productsimpl.cpp:543-580). The state
is the list with the positions of `it1` and `it2`. After `it2 = u.erase(it2)` the loop increments
`it2` once more; if the erased element was the last one, it increments the end iterator. -/
def contractConstStep (s : List (Expr D) × Nat × Nat) :
    M D ((List (Expr D) × Nat × Nat) ⊕ List (Expr D)) :=
  match s with
  | (u, i, j) =>
    match u[i]? with
    | none => pure (.inr u)
    | some x =>
      match u[j]? with
      | none => pure (.inl (u, i + 1, i + 1))
      | some y =>
        if i = j then pure (.inl (u, i, j + 1))
        else if isContractableConst x && isContractableConst y then do
          let res ← simplTwoConst E x y
          match res with
          | [a] =>
            if j + 1 < u.length then
              pure (.inl ((u.set i a).eraseIdx j, if j < i then i - 1 else i, j + 1))
            else if E.cfg.strictUb then M.err .ub
            else pure (.inl ((u.set i a).eraseIdx j, i, 0))
          | [a, b] => pure (.inl ((u.set i a).set j b, i, j + 1))
          | _ => pure (.inl (u, i, j + 1))
        else pure (.inl (u, i, j + 1))

/-- contractConst (productsimpl.cpp:543-551). -/
def contractConst (u : List (Expr D)) : M D (List (Expr D)) :=
  M.loop E.steps (contractConstStep E) (u, 0, 0)

/-- prepareConst (productsimpl.cpp:515-530). -/
def prepareConst (u : List (Expr D)) : M D (List (Expr D)) := do
  let u ← contractConst E (contractNumerics (E.cfg.sort doPermute u))
  let u ← contract E (fun a b => pure (areNumPowersWithEqualExp a b)) (simplTwoEqualExp E) u
  contract E (fun a b => pure (areNumPowersWithEqualExpDenom a b)) (simplTwoEqualExpDenom E) u

/-- simplPreparedFactors and simplNPreparedFactors (productsimpl.cpp:582-603). -/
def simplPreparedFactors : List (Expr D) → M D (List (Expr D))
  | [] => M.err .ub
  | [x] => pure [x]
  | [x, y] => simplTwoFactors E x y
  | u1 :: uRest => do
    let r ← E.simplProd uRest
    E.mergeProd [u1] r

/-- simplifyWithoutCache (productsimpl.cpp:68-86, 508-513). -/
def simplProd (orig : List (Expr D)) : M D (List (Expr D)) := do
  let u ← extractProducts E orig
  let u ← contractTrigonometrics E u
  match u with
  | [f1, f2] => simplTwoFactors E f1 f2
  | u => do
    let v ← prepareConst E u
    simplPreparedFactors E v

/-- needsExpansion (product.cpp:48-62). -/
def needsExpansion (l : List (Expr D)) : Bool :=
  if (constElements l).isEmpty then false
  else if (nonConstElements l).any isSum then (nonConstElements l).length == 1
  else (constElements l).any isSum

/-- Product::create and createSimplifiedProduct (product.cpp:22-46). -/
def prodCreate (l : List (Expr D)) : M D (Expr D) :=
  if l.any isUndefined then pure .undef
  else if l.any isZero then pure zero
  else match l with
    | [f] => pure f
    | l => do
      let res ← E.prodSimplify l
      match res with
      | [] => pure one
      | [r] => pure r
      | r => if needsExpansion r then E.expandAsProduct r else pure (.prod r)

end Tsym
