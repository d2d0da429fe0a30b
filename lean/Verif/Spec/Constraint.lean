import Verif.Model.Constraint

/-!
# Meaning of guards
-/

namespace Verif

/-- The comparison expressed by a constraint. -/
def Constraint.Holds {K : Type*} [Field K] [LinearOrder K] (g : Constraint) (d : K) : Prop :=
  (g.odr = .lt → d < (g.c : K)) ∧ (g.odr = .le → d ≤ (g.c : K)) ∧
  (g.odr = .ge → (g.c : K) ≤ d) ∧ (g.odr = .gt → (g.c : K) < d)

/-- A guard (conjunction of constraints) holds for a clock valuation. -/
def GuardHolds {K : Type*} [Field K] [LinearOrder K] (g : List Constraint) (v : Nat → K) : Prop :=
  ∀ c ∈ g, c.Holds (v c.x)

/-- The constraint is an upper bound (`<` or `≤`). -/
def Constraint.IsUpper (g : Constraint) : Prop := g.odr = .lt ∨ g.odr = .le

end Verif
