/-!
# Outcomes of C++ calls

A call of a C++ function ends with a value or with one of the outcomes below.
-/

namespace Tsym

/-- Ways in which a call can fail to return a value. -/
inductive Err where
  /-- the model ran out of fuel (says nothing about the C++ program) -/
  | fuel
  /-- the C++ recursion or loop does not end -/
  | loop
  /-- undefined behaviour of the C++ abstract machine -/
  | ub
  /-- a failed `assert` -/
  | assert
  /-- `std::overflow_error` -/
  | overflow
  /-- `std::domain_error` -/
  | domain
  /-- `std::invalid_argument` -/
  | invalidArgument
  /-- `boost::bad_rational`, thrown for a zero denominator -/
  | badRational
  /-- `std::runtime_error` -/
  | runtime
  deriving DecidableEq, Repr

end Tsym
