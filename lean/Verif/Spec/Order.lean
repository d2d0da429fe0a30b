import Verif.Spec.Match

/-!
# The order of the results
-/

namespace Verif

variable {K : Type} [Field K] [LinearOrder K]

/-- What begins in `z` does not come after what begins in `z'`: every event of the log at or before a begin of `z` is at or
before every begin of `z'`. -/
def Zone.BeginsBefore (w : TWord K) (z z' : Zone K) : Prop :=
  ∀ t t' u u', z.Has t t' → z'.Has u u' → ∀ e ∈ w, e.2 ≤ t → e.2 ≤ u

/-- The same for the ends, if the begins are between the same events: every event of the log before an end of `z` is before
every such end of `z'`. -/
def Zone.EndsBefore (w : TWord K) (z z' : Zone K) : Prop :=
  ∀ t t' u u', z.Has t t' → z'.Has u u' → (∀ e ∈ w, e.2 ≤ t ↔ e.2 ≤ u) → ∀ e ∈ w, e.2 < t' → e.2 < u'

end Verif
