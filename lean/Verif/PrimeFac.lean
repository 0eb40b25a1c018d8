import Mathlib.Data.List.Sort
import Verif.Number

/-!
# Prime factorisation (src/simpleprimepolicy.h, src/primefac.h, src/primefac.cpp)
-/

namespace Tsym

/-- `while (n % p == 0) { primes.push_back(p); n /= p; }` (simpleprimepolicy.h:16-19 and 24-27).
The first argument bounds the number of rounds; `n` rounds are enough for `0 < n`, `2 ≤ p`. -/
def strip (p : ℕ) : ℕ → ℕ → List ℕ × ℕ
  | 0, n => ([], n)
  | k + 1, n =>
    if n % p = 0 then
      let r := strip p k (n / p)
      (p :: r.1, r.2)
    else ([], n)

/-- The loop over odd candidates (simpleprimepolicy.h:23-27). `n0` is the number that the limit was
computed from. `i < sqrt(n0) + 0.5` is written as `(2*i - 1)^2 < 4*n0`; the rounding of
`std::sqrt` is not modelled. The first argument bounds the number of rounds. -/
def trial (n0 : ℕ) : ℕ → ℕ → ℕ → List ℕ × ℕ
  | 0, _, n => ([], n)
  | k + 1, i, n =>
    if (2 * i - 1) ^ 2 < 4 * n0 then
      let s := strip i n n
      let r := trial n0 k (i + 2) s.2
      (s.1 ++ r.1, r.2)
    else ([], n)

/-- SimplePrimePolicy::computeAndStore (simpleprimepolicy.h:9-32) for a number that is not
negative. For zero the first loop does not end. -/
def computeAndStore (n : ℕ) : Except Err (List ℕ) :=
  if n = 0 then .error .loop
  else
    let t := strip 2 n n
    let r := trial t.2 t.2 3 t.2
    .ok (t.1 ++ r.1 ++ (if 2 < r.2 then [r.2] else []))

/-- The same for any integer. For a negative one only the factors two are found: the square root is
NaN, the second loop is not entered, and the rest is not greater than two. -/
def computeAndStoreInt (n : ℤ) : Except Err (List ℕ) :=
  if n < 0 then .ok (strip 2 n.natAbs n.natAbs).1 else computeAndStore n.natAbs

/-- PrimeFac (primefac.h:61-62). -/
structure PrimeFac where
  num : List ℕ
  den : List ℕ
  deriving DecidableEq, Repr

namespace PrimeFac

/-- PrimeFac::PrimeFac() (primefac.h:22). -/
def one : PrimeFac := ⟨[], []⟩

/-- PrimeFac::PrimeFac(const Number&) (primefac.h:23-29 and 51-55). -/
def ofNumber {D : Type} [Flt D] (n : Number D) : Except Err PrimeFac :=
  if n.isDouble || n.lt 0 then .ok one
  else do
    let a ← computeAndStoreInt n.numerator
    let b ← computeAndStoreInt n.denominator
    pure ⟨a, b⟩

/-- The loop of `duplicate` (primefac.cpp:13-32); the second argument is `insCount`. -/
def dup (n : ℕ) : ℕ → List ℕ → List ℕ
  | _, [] => []
  | ins, [x] => List.replicate ins x
  | ins, x :: y :: ys =>
    if y = x then dup n (ins + n) (y :: ys)
    else List.replicate ins x ++ dup n n (y :: ys)

/-- `duplicate(std::vector<Int>&, const Int&)` (primefac.cpp:34-45). -/
def duplicate (l : List ℕ) (n : ℤ) : Except Err (List ℕ) :=
  if 0 < n ∧ n < Number.unsignedMax then .ok (dup n.toNat n.toNat l) else .error .assert

/-- PrimeFac::toThe (primefac.cpp:49-61). -/
def toThe (p : PrimeFac) (ex : ℤ) : Except Err PrimeFac := do
  let r ←
    if ex = 0 then pure one
    else do
      let a ← duplicate p.num ex.natAbs
      let b ← duplicate p.den ex.natAbs
      pure (⟨a, b⟩ : PrimeFac)
  if ex < 0 then pure ⟨r.den, r.num⟩ else pure r

/-- PrimeFac::cancelPrimes (primefac.cpp:84-98). -/
def cancel : List ℕ → List ℕ → List ℕ × List ℕ
  | [], q => ([], q)
  | p, [] => (p, [])
  | x :: xs, y :: ys =>
    if x < y then
      let r := cancel xs (y :: ys)
      (x :: r.1, r.2)
    else if y < x then
      let r := cancel (x :: xs) ys
      (r.1, y :: r.2)
    else cancel xs ys
  termination_by p q => p.length + q.length

/-- PrimeFac::merge (primefac.cpp:100-105). The sorting algorithm does not matter for numbers. -/
def merge (target source : List ℕ) : List ℕ := (target ++ source).insertionSort (· ≤ ·)

/-- PrimeFac::multiply(const PrimeFac&) (primefac.cpp:70-82). -/
def multiply (p o : PrimeFac) : PrimeFac :=
  if o.num = [] ∧ o.den = [] then p
  else
    let c1 := cancel p.num o.den
    let c2 := cancel p.den o.num
    ⟨merge c1.1 c2.2, merge c2.1 c1.2⟩

/-- The loop of `extractPrimes` (primefac.cpp:109-125). `pre` are the elements before the iterator
in reverse, followed by the variables `prime` and `nPrime`. The result is the remaining source and
the target. When the erased range is at the beginning the code computes `std::prev(begin)` and
increments it again; formally that is undefined, here it is taken as harmless. -/
def extractLoop (d : ℕ) : List ℕ → ℕ → ℕ → List ℕ → List ℕ × List ℕ
  | pre, _, _, [] => (pre.reverse, [])
  | pre, prime, n, x :: xs =>
    if prime ≠ x then extractLoop d (x :: pre) x 1 xs
    else if n + 1 = d then
      let r := extractLoop d (pre.drop (d - 1)) prime 0 xs
      (r.1, prime :: r.2)
    else extractLoop d (x :: pre) prime (n + 1) xs

/-- PrimeFac::extract (primefac.cpp:129-139): the extracted part and the remaining one. -/
def extract {D : Type} [Flt D] (p : PrimeFac) (ex : Number D) : Except Err (PrimeFac × PrimeFac) := do
  let a := extractLoop ex.denominator.toNat [] 0 0 p.num
  let b := extractLoop ex.denominator.toNat [] 0 0 p.den
  let e ← toThe ⟨a.2, b.2⟩ ex.numerator
  pure (e, ⟨a.1, b.1⟩)

/-- The loop of equalCountOrZero (primefac.cpp:156-163) on the elements from the iterator on. Only
the first and the last element of each block are compared. Called with a list whose length is a
multiple of `g`; an access beyond the end is not possible then. -/
def blocksOk (g : ℕ) : ℕ → List ℕ → Bool
  | 0, _ => true
  | _, [] => true
  | k + 1, x :: xs => decide ((x :: xs)[g - 1]? = some x) && blocksOk g k ((x :: xs).drop g)

/-- getEqualCountOf (primefac.cpp:165-179); for an empty list `front()` is undefined behaviour. -/
def equalCountOf : List ℕ → Except Err ℕ
  | [] => .error .ub
  | x :: xs =>
    let l := x :: xs
    let firstSize := (l.takeWhile (· == x)).length
    if l.length % firstSize ≠ 0 then .ok 0
    else if firstSize = 1 then .ok 1
    else .ok (if blocksOk firstSize l.length (l.drop firstSize) then firstSize else 0)

/-- PrimeFac::getEqualCount (primefac.cpp:183-196). -/
def equalCount (p : PrimeFac) : Except Err ℕ :=
  if p.num = [] ∧ p.den = [] then .ok 0
  else if p.num = [] then equalCountOf p.den
  else if p.den = [] then equalCountOf p.num
  else do
    let a ← equalCountOf p.num
    let b ← equalCountOf p.den
    pure (if a = b then a else 0)

/-- boost::unique and erase (primefac.cpp:200-203). -/
def unique : List ℕ → List ℕ
  | [] => []
  | [x] => [x]
  | x :: y :: ys => if x = y then unique (y :: ys) else x :: unique (y :: ys)

/-- PrimeFac::collectToNewExp (primefac.cpp:141-152): the new object and the new exponent. -/
def collectToNewExp {D : Type} [Flt D] (p : PrimeFac) (ex : Number D) :
    Except Err (PrimeFac × Number D) := do
  let count ← p.equalCount
  if 1 < count then pure (⟨unique p.num, unique p.den⟩, Number.mul (.rat count) ex)
  else if p.num = [] ∧ p.den = [] then pure (p, 1)
  else pure (p, ex)

/-- PrimeFac::eval (primefac.cpp:223-229). -/
def eval {D : Type} (p : PrimeFac) : Except Err (Number D) :=
  Number.ofInts (p.num.prod : ℕ) (p.den.prod : ℕ)

end PrimeFac

end Tsym
