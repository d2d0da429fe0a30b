import Verif.Model.IntermediateZone
import Verif.Spec.Zone

/-!
# Meaning of an intermediate zone

An intermediate zone denotes a set of assignments of instants to its variables: variable 0 is the constant 0, variable
`i + 1` has the value `v i`.
-/

namespace Verif
namespace IZone

variable {K : Type} [Field K] [LinearOrder K]

/-- `v` is a solution of the intermediate zone. -/
def Sat : IZone K → (Nat → K) → Prop
  | one lo up, v => up.sat (v 0) ∧ lo.sat (-v 0)
  | three b, v => b.ub.sat (v 0) ∧ b.lb.sat (-v 0) ∧ b.ue.sat (v 1) ∧ b.le.sat (-v 1) ∧
      b.ud.sat (v 1 - v 0) ∧ b.ld.sat (v 0 - v 1)
  | zone z _ _, v => z.Sat v
  | dead, _ => False

/-- The intermediate zone has a solution. -/
def Nonempty (z : IZone K) : Prop := ∃ v, z.Sat v

/-- `x` is a variable of the intermediate zone in use. -/
def InUse : IZone K → Nat → Prop
  | one _ _, x => x ≤ 1
  | three _, x => x ≤ 2
  | zone _ l _, x => l.getD x false = true
  | dead, _ => False

/-- The solutions bound the variable `x` from above by `b`. -/
def AtMost (z : IZone K) (x : Nat) (b : Bnd K) : Prop := ∀ v, z.Sat v → b.sat (Zone.ext v x)

/-- The intermediate zones which come up when a match is followed: instants are added in their order (not before a
possible beginning), and constraints are added between different variables in use; nothing but constraints is added to an
empty zone. -/
inductive Built : IZone K → Prop
  | start (c : K) (s : Bool) (up : Bnd K) : Built (ofInterval (.fin c s) up)
  | alloc {z : IZone K} (h : Built z) (upper lower : Bnd K) (hne : z.Nonempty)
      (hup : z.AtMost z.newestClock upper)
      (hlo : z.newestClock = 1 → ∀ t, lower.sat (-t) → ∃ v, z.Sat v ∧ v 0 ≤ t) :
      Built (z.alloc upper lower)
  | tighten {z z' : IZone K} (h : Built z) {x y : Nat} (hxy : x ≠ y) (hx : z.InUse x) (hy : z.InUse y) (c : Bnd K)
      (he : z.tighten x y c = .ok z') : Built z'
  | update {z z' : IZone K} (h : Built z) (hne : z.Nonempty) (rt : List (RTime K))
      (hrt : ∀ x, RTime.var x ∈ rt → z.InUse x) (he : z.update rt = .ok z') : Built z'

end IZone
end Verif
