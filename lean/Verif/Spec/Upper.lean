import Verif.Spec.TRE

/-!
# Time restrictions without upper ends
-/

namespace Verif

/-- The interval has no upper end. -/
def Interval.NoUpper {K : Type} (I : Interval K) : Prop := ∃ s, I.upper = .inf s

/-- No time restriction has an upper end. -/
def TRE.NoUpper {K : Type} : TRE K → Prop
  | .atom _ => True
  | .epsilon => True
  | .plus e => NoUpper e
  | .concat e f => NoUpper e ∧ NoUpper f
  | .disj e f => NoUpper e ∧ NoUpper f
  | .conj e f => NoUpper e ∧ NoUpper f
  | .within e I => NoUpper e ∧ I.NoUpper

end Verif
