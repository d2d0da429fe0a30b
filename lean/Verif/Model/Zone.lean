import Verif.Model.Bounds
import Verif.Model.Constraint
import Mathlib.Algebra.Order.Floor.Defs

/-!
# Model of `Zone` (libmonaa/zone.hh:43-211)

A zone is a square matrix of bounds (a difference bound matrix).  Row/column 0
stands for the constant 0, row/column `i+1` for clock `i`
(libmonaa/zone.hh:39-42).  The Eigen matrix is a list of rows; cells outside
of the matrix, which would be an assertion failure or undefined behaviour in
C++, read as `(∞,false)` here, and all theorems require the indices to be inside.
-/

namespace Verif

/-- `struct Zone` (libmonaa/zone.hh:43-46); `n` is `value.rows() = value.cols()`. -/
structure Zone (K : Type*) where
  n : Nat
  cells : List (List (Bnd K))
  M : Bnd K
  deriving DecidableEq

namespace Zone

variable {K : Type*}

/-- `value(i, j)`. -/
def get (z : Zone K) (i j : Nat) : Bnd K := ((z.cells.getD i []).getD j (.inf false))

/-- The `n × n` matrix with cells `f i j` (no C++ counterpart: used to write down
the result of an in-place update). -/
def build (n : Nat) (M : Bnd K) (f : Nat → Nat → Bnd K) : Zone K :=
  { n := n, cells := (List.range n).map fun i => (List.range n).map fun j => f i j, M := M }

/-- `getNumOfVar` (libmonaa/zone.hh:52). -/
def getNumOfVar (z : Zone K) : Nat := z.n - 1

/-- `Zone::cutVars` (libmonaa/zone.hh:54-66): the clocks `lo..hi` (both included). -/
def cutVars [Zero K] (z : Zone K) (lo hi : Nat) : Zone K :=
  build (hi - lo + 2) z.M fun i j =>
    if i = 0 ∧ j = 0 then .fin 0 true
    else if i = 0 then z.get 0 (lo + j)
    else if j = 0 then z.get (lo + i) 0
    else z.get (lo + i) (lo + j)

/-- `Zone::zero` (libmonaa/zone.hh:68-76).  The field `M` is left indeterminate by
the code (it is always overwritten by the callers); the model takes it as argument. -/
def zero [Zero K] (size : Nat) (M : Bnd K) : Zone K := build size M fun _ _ => .fin 0 true

/-- `Zone::universal` (libmonaa/zone.hh:78-89). -/
def universal [Zero K] (size : Nat) (M : Bnd K) : Zone K :=
  build (size + 1) M fun i j => if i = 0 ∧ j = 0 then .fin 0 true else .inf false

/-- One coefficient assignment `value(x, y) = b`. -/
def set (z : Zone K) (x y : Nat) (b : Bnd K) : Zone K :=
  build z.n z.M fun i j => if i = x ∧ j = y then b else z.get i j

/-- `Zone::close1` (libmonaa/zone.hh:106-114).  Rows are updated in place from row 0
upwards: row `i` becomes the minimum of row `i` and row `x` plus the old `value(i, x)`;
rows below `x` therefore already see the updated row `x`. -/
def close1 [Add K] [LinearOrder K] (z : Zone K) (x : Nat) : Zone K :=
  build z.n z.M fun i j =>
    let rowx := if i ≤ x then z.get x j else Bnd.min (z.get x j) (z.get x j + z.get x x)
    Bnd.min (z.get i j) (rowx + z.get i x)

/-- `Zone::tighten` (libmonaa/zone.hh:98-104).  `x` and `y` are the indices after
`x++; y++` (the callers pass `-1`, which wraps to 0, for the constant). -/
def tighten [Add K] [LinearOrder K] (z : Zone K) (x y : Nat) (c : Bnd K) : Zone K :=
  close1 (close1 (z.set x y (Bnd.min (z.get x y) c)) x) y

/-- `Zone::reset` (libmonaa/zone.hh:117-124).  `x` is the clock number, i.e. row `x+1`. -/
def reset [Zero K] (z : Zone K) (x : Nat) : Zone K :=
  let x := x + 1
  -- value(0, x) = value(x, 0) = (0, true)
  let z1 := z.set 0 x (.fin 0 true)
  let z2 := z1.set x 0 (.fin 0 true)
  -- value.col(x).tail(rows - 1) = value.col(0).tail(rows - 1)
  let z3 := build z2.n z2.M fun i j => if 1 ≤ i ∧ j = x then z2.get i 0 else z2.get i j
  -- value.row(x).tail(cols - 1) = value.row(0).tail(cols - 1)
  build z3.n z3.M fun i j => if i = x ∧ 1 ≤ j then z3.get 0 j else z3.get i j

/-- Clearing the flag: `b.second = false`. -/
def strict : Bnd K → Bnd K
  | .fin c _ => .fin c false
  | .inf _ => .inf false

/-- `Zone::elapse` (libmonaa/zone.hh:126-133): column 0 becomes `(∞,false)`, then the
flags of row 0 are cleared. -/
def elapse (z : Zone K) : Zone K :=
  let z1 := build z.n z.M fun i j => if j = 0 then .inf false else z.get i j
  build z1.n z1.M fun i j => if i = 0 then strict (z1.get i j) else z1.get i j

/-- `Zone::canonize` (libmonaa/zone.hh:138-142). -/
def canonize [Add K] [LinearOrder K] (z : Zone K) : Zone K :=
  (List.range z.n).foldl close1 z

/-- The boolean computed by the last line of `Zone::isSatisfiable`
(libmonaa/zone.hh:149): the least entry of `value + valueᵀ` is `≥ (0,true)`. -/
def noNegativePair [Add K] [Zero K] [LinearOrder K] (z : Zone K) : Bool :=
  (List.range z.n).all fun i => (List.range z.n).all fun j =>
    Bnd.bge (z.get i j + z.get j i) Bnd.zeroLe

/-- `Zone::isSatisfiable` (libmonaa/zone.hh:147-150); also returns the zone, which is
canonized in place. -/
def isSatisfiable [Add K] [Zero K] [LinearOrder K] (z : Zone K) : Bool × Zone K :=
  let z' := z.canonize
  (z'.noNegativePair, z')

/-- `Zone::abstractize` (libmonaa/zone.hh:156-164). -/
def abstractize [LinearOrder K] (z : Zone K) : Zone K :=
  build z.n z.M fun i j => if Bnd.bge (z.get i j) z.M then .inf false else z.get i j

/-- `Zone::operator==` (libmonaa/zone.hh:202-205): cell (0,0) and `M` are ignored.
(Eigen requires the sizes to agree.) -/
def beq [DecidableEq K] (a b : Zone K) : Bool :=
  decide (a.n = b.n) && (List.range a.n).all fun i => (List.range a.n).all fun j =>
    (decide (i = 0) && decide (j = 0)) || decide (a.get i j = b.get i j)

/-- `Zone::intersectionAssign` (libmonaa/zone.hh:207-210).  `value.cwiseMin(z.value);`
is an expression statement whose result is discarded: the zone does not change. -/
def intersectionAssign [LinearOrder K] (z w : Zone K) : Zone K :=
  let _discarded := build z.n z.M fun i j => Bnd.min (z.get i j) (w.get i j)
  z

/-- Conversion of a finite `double` to `int` (truncation towards zero). -/
def truncInt [Field K] [LinearOrder K] [FloorRing K] (c : K) : Int :=
  if 0 ≤ c then ⌊c⌋ else ⌈c⌉

/-- The lower-bound part of the loop body of `Zone::makeGuard` (libmonaa/zone.hh:181-189). -/
def guardLower [Field K] [LinearOrder K] [FloorRing K] (i : Nat) (lowerBound : Bnd K) :
    List Constraint :=
  match lowerBound with
  | .fin c s =>
    if 0 < c ∨ (c = 0 ∧ s = false) then
      [⟨i, if s then .ge else .gt, truncInt c⟩]
    else []
  | .inf s => -- the conversion of ∞ to `int` is undefined; the constant is arbitrary here
    [⟨i, if s then .ge else .gt, 0⟩]

/-- The upper-bound part of the loop body of `Zone::makeGuard` (libmonaa/zone.hh:190-197). -/
def guardUpper [Field K] [LinearOrder K] [FloorRing K] (i : Nat) (M upperBound : Bnd K) :
    List Constraint :=
  if Bnd.blt upperBound M then
    match upperBound with
    | .fin c s => [⟨i, if s then .le else .lt, truncInt c⟩]
    | .inf s => [⟨i, if s then .le else .lt, 0⟩]
  else []

/-- `Zone::makeGuard` (libmonaa/zone.hh:174-200). -/
def makeGuard [Field K] [LinearOrder K] [FloorRing K] (z : Zone K) : List Constraint :=
  let z' := z.canonize.abstractize
  (List.range z'.getNumOfVar).flatMap fun i =>
    guardLower i (z'.get 0 (i + 1)) ++ guardUpper i z'.M (z'.get (i + 1) 0)

end Zone
end Verif
