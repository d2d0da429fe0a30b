import Verif.Model.Bounds

/-!
# Meaning of a bound

The specification reads a bound as a set of reals: `(c, true)` is `· ≤ c`,
`(c, false)` is `· < c`, and an infinite bound is no restriction.
-/

namespace Verif

/-- `d` respects the bound. -/
def Bnd.sat {K : Type*} [LinearOrder K] : Bnd K → K → Prop
  | .fin c true, d => d ≤ c
  | .fin c false, d => d < c
  | .inf _, _ => True

end Verif
