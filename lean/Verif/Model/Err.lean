/-!
# Abnormal outcomes of the C++ code
-/

namespace Verif

/-- How a C++ call can fail to return: undefined behaviour, or a thrown exception. -/
inductive Err where
  /-- undefined behaviour (out-of-bounds access without check, conversion of an infinite or NaN
  `double` to `int`, ...). -/
  | ub
  /-- `std::out_of_range` -/
  | outOfRange
  /-- `std::length_error` -/
  | lengthError
  /-- `throw "..."` -/
  | message
  /-- `exit(n)` was called -/
  | exit (code : Nat)
  /-- the loop did not finish within the fuel given to the model (no C++ counterpart; theorems state
  for which fuel this cannot happen). -/
  | fuel
  /-- a part of the code is entered which is not modelled (no C++ counterpart; theorems state that this does not happen). -/
  | notModelled
  deriving DecidableEq, Repr

end Verif
