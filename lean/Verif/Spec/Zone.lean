import Verif.Spec.Bounds
import Verif.Model.Zone

/-!
# Meaning of a zone

A zone denotes the set of clock valuations satisfying all the difference
constraints `xᵢ - xⱼ ≺ value(i,j)`, where `x₀` is the constant 0.
-/

namespace Verif
namespace Zone

variable {K : Type*} [Field K] [LinearOrder K]

/-- Value of the internal variable `i` under the clock valuation `v`: variable 0 is
the constant 0, variable `i+1` is clock `i`. -/
def ext (v : Nat → K) : Nat → K
  | 0 => 0
  | i + 1 => v i

/-- `v` is a solution of the zone. -/
def Sat (z : Zone K) (v : Nat → K) : Prop :=
  ∀ i j, i < z.n → j < z.n → (z.get i j).sat (ext v i - ext v j)

/-- The zone has a solution. -/
def Nonempty (z : Zone K) : Prop := ∃ v, z.Sat v

/-- `b` bounds `xᵢ - xⱼ` on the whole zone. -/
def Entails (z : Zone K) (i j : Nat) (b : Bnd K) : Prop :=
  ∀ v, z.Sat v → b.sat (ext v i - ext v j)

/-- Every off-diagonal bound of the zone is the strongest one valid on the zone. -/
def Tight (z : Zone K) : Prop :=
  ∀ i j, i < z.n → j < z.n → i ≠ j → ∀ b : Bnd K, z.Entails i j b →
    ∀ d, (z.get i j).sat d → b.sat d

end Zone
end Verif
