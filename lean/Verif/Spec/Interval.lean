import Verif.Model.Interval
import Verif.Spec.Bounds

/-!
# Meaning of intervals
-/

namespace Verif.Interval

variable {K : Type*} [Field K] [LinearOrder K]

/-- `v` is above the lower end `b` (which is attained exactly if the flag is set). -/
def Above (b : Bnd K) (v : K) : Prop :=
  match b with
  | .fin c true => c ≤ v
  | .fin c false => c < v
  | .inf _ => False

/-- `v` belongs to the interval. -/
def Mem (I : Interval K) (v : K) : Prop := Above I.lower v ∧ I.upper.sat v

/-- `v` belongs to one of the intervals. -/
def MemAny (S : List (Interval K)) (v : K) : Prop := ∃ I ∈ S, I.Mem v

/-- `v` is a sum of one or more values satisfying `P`. -/
def SumOf (P : K → Prop) (v : K) : Prop := ∃ l : List K, l ≠ [] ∧ (∀ x ∈ l, P x) ∧ v = l.sum

/-- Ends for which `plus` is used by the translation: `0 ≤ l`, and either unbounded or `l < u`. -/
def Good (I : Interval K) : Prop :=
  ∃ l s, I.lower = .fin l s ∧ 0 ≤ l ∧ ∀ u t, I.upper = .fin u t → l < u

/-- The one value wrongly added by `plus`: both ends open, `l = k (u - l)`, and the value is the
common end `(k + 1) l = k u` of two consecutive multiples. -/
def Gap (I : Interval K) (v : K) : Prop :=
  ∃ l u : K, I = ⟨.fin l false, .fin u false⟩ ∧ ∃ k : ℕ, 1 ≤ k ∧ l = k * (u - l) ∧ v = (k + 1) * l

end Verif.Interval
