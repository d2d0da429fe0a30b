import Verif.Spec.TA
import Verif.Spec.TRE

/-!
# Maximal constants
-/

namespace Verif

/-- The maximal constant of a clock is at least every constant to which a guard compares it. -/
def TA.ConstsCovered {S : Type} (A : TA S) : Prop :=
  ∀ s ∈ A.states, ∀ a, ∀ e ∈ A.edges s a, ∀ g ∈ e.guard, g.c ≤ A.maxC.getD g.x 0

/-- The lower end of every time restriction is at most its upper end. -/
def TRE.EndsInOrder {K : Type} [LinearOrder K] : TRE K → Prop
  | .atom _ => True
  | .epsilon => True
  | .plus e => EndsInOrder e
  | .concat e f => EndsInOrder e ∧ EndsInOrder f
  | .disj e f => EndsInOrder e ∧ EndsInOrder f
  | .conj e f => EndsInOrder e ∧ EndsInOrder f
  | .within e I => EndsInOrder e ∧ ∀ l ls u us, I.lower = .fin l ls → I.upper = .fin u us → l ≤ u

end Verif
