import Mathlib.Algebra.Order.Field.Basic

/-!
# Model of `Bounds` (libmonaa/zone.hh:18-28)

`Bounds = std::pair<double, bool>`: a value and a flag telling whether the
bound is non-strict.  `double` is a linearly ordered field `K` extended by
`+∞`.  Simplifications: no rounding, no NaN, no `-∞` (the code only creates
`-∞` in `Zone::makeUnsat`, which is not part of this model).
-/

namespace Verif

/-- `Bounds` (libmonaa/zone.hh:18).  `fin c s` is the pair `(c, s)` with a finite
`c`; `inf s` is `(+∞, s)`. -/
inductive Bnd (K : Type*) where
  | fin (c : K) (s : Bool)
  | inf (s : Bool)
  deriving DecidableEq, Repr

namespace Bnd

variable {K : Type*}

/-- `operator+` (libmonaa/zone.hh:19-21): values are added, flags are and-ed;
`∞ + c = ∞`. -/
def add [Add K] : Bnd K → Bnd K → Bnd K
  | fin a s, fin b t => fin (a + b) (s && t)
  | fin _ s, inf t => inf (s && t)
  | inf s, fin _ t => inf (s && t)
  | inf s, inf t => inf (s && t)

instance [Add K] : Add (Bnd K) := ⟨add⟩

/-- `std::pair`'s lexicographic `operator<` on `Bounds` (used through `std::min`,
`>=`, `<` in libmonaa/zone.hh and libmonaa/monaa.hh); `false < true`. -/
def blt [LinearOrder K] : Bnd K → Bnd K → Bool
  | fin a s, fin b t => decide (a < b) || (decide (a = b) && (!s && t))
  | fin _ _, inf _ => true
  | inf _, fin _ _ => false
  | inf s, inf t => !s && t

/-- `std::min(a, b)`, i.e. `(b < a) ? b : a`. -/
def min [LinearOrder K] (a b : Bnd K) : Bnd K := if blt b a then b else a

/-- `std::max(a, b)`, i.e. `(a < b) ? b : a`. -/
def max [LinearOrder K] (a b : Bnd K) : Bnd K := if blt a b then b else a

/-- `Bounds(0, true)`, the bound `≤ 0`. -/
def zeroLe [Zero K] : Bnd K := fin 0 true

/-- `a >= b`, i.e. `!(a < b)`. -/
def bge [LinearOrder K] (a b : Bnd K) : Bool := !blt a b

end Bnd
end Verif
