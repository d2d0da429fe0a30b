import Mathlib.Algebra.Order.Field.Basic

/-!
# Model of guards (libmonaa/constraint.hh)
-/

namespace Verif

/-- `Constraint::Order` (libmonaa/constraint.hh:17). -/
inductive Ord where
  | lt | le | ge | gt
  deriving DecidableEq, Repr

/-- `struct Constraint` (libmonaa/constraint.hh:16-21); `int` is ℤ, the clock number
(`uint8_t`) is a natural number. -/
structure Constraint where
  x : Nat
  odr : Ord
  c : Int
  deriving DecidableEq, Repr

/-- The global `enum class Order` (libmonaa/constraint.hh:11). -/
inductive Cmp where
  | LT | EQ | GT
  deriving DecidableEq, Repr

namespace Constraint

variable {K : Type*} [Field K] [LinearOrder K]

/-- `Constraint::satisfy` (libmonaa/constraint.hh:23-35). -/
def satisfy (g : Constraint) (d : K) : Bool :=
  match g.odr with
  | .lt => decide (d < (g.c : K))
  | .le => decide (d ≤ (g.c : K))
  | .gt => decide (d > (g.c : K))
  | .ge => decide (d ≥ (g.c : K))

/-- `Constraint::operator()` (libmonaa/constraint.hh:37-45); `none` is the
`out_of_range` exception of `val.at(x)`. -/
def compare (g : Constraint) (val : List K) : Option Cmp :=
  match val[g.x]? with
  | none => none
  | some d =>
    if g.satisfy d then some .EQ
    else if g.odr = .lt ∨ g.odr = .le then some .GT
    else some .LT

end Constraint

/-- `widen` (libmonaa/constraint.hh:95-102): removes the constraints `x > c`, `x >= c`. -/
def widen (guard : List Constraint) : List Constraint :=
  guard.filter fun g => !(decide (g.odr = .ge) || decide (g.odr = .gt))

end Verif
