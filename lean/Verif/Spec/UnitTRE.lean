import Verif.Spec.Unit
import Verif.Spec.DNF

/-!
# Expressions in another unit of time
-/

namespace Verif

variable {K : Type}

/-- The interval with both ends multiplied. -/
def Interval.inUnit [Mul K] [IntCast K] (k : Int) (I : Interval K) : Interval K := ⟨I.lower.scale k, I.upper.scale k⟩

/-- The expression with the ends of all time restrictions multiplied. -/
def TRE.scale [Mul K] [IntCast K] (k : Int) : TRE K → TRE K
  | .atom c => .atom c
  | .epsilon => .epsilon
  | .plus e => .plus (e.scale k)
  | .concat e f => .concat (e.scale k) (f.scale k)
  | .disj e f => .disj (e.scale k) (f.scale k)
  | .conj e f => .conj (e.scale k) (f.scale k)
  | .within e I => .within (e.scale k) (I.inUnit k)

end Verif
