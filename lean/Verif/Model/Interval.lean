import Verif.Model.Bounds
import Verif.Model.Err
import Mathlib.Algebra.Order.Floor.Ring

/-!
# Model of intervals (libmonaa/interval.hh)

`std::shared_ptr<Interval>` is modelled by the interval itself: the in-place updates in `land` and
`+=` are modelled as value updates (no aliasing between different sets of intervals).
-/

namespace Verif

/-- `struct Interval` (libmonaa/interval.hh:15-19). -/
structure Interval (K : Type*) where
  lower : Bnd K
  upper : Bnd K
  deriving DecidableEq, Repr

namespace Interval

variable {K : Type*} [Field K] [LinearOrder K]

/-- `Interval()` (libmonaa/interval.hh:26-29), i.e. `[0, ∞)`. -/
def default : Interval K := ⟨.fin 0 true, .inf false⟩

/-- `Interval(int lower)` (libmonaa/interval.hh:36-39), i.e. `(lower, ∞)`. -/
def above (l : Int) : Interval K := ⟨.fin (l : K) false, .inf false⟩

/-- `Interval(int lower, int upper)` (libmonaa/interval.hh:47-50), i.e. `(lower, upper)`. -/
def openI (l u : Int) : Interval K := ⟨.fin (l : K) false, .fin (u : K) false⟩

/-- `Interval::contain` (libmonaa/interval.hh:89-94). -/
def contain (I : Interval K) (v : K) : Bool :=
  (match I.lower with
    | .fin c s => if s then decide (c ≤ v) else decide (c < v)
    | .inf _ => false) &&
  (match I.upper with
    | .fin c s => if s then decide (v ≤ c) else decide (v < c)
    | .inf _ => true)

/-- `operator&&` (libmonaa/interval.hh:98-102). -/
def inter (I J : Interval K) : Interval K := ⟨Bnd.max I.lower J.lower, Bnd.min I.upper J.upper⟩

/-- `land(vector, Interval)` (libmonaa/interval.hh:118-129). -/
def land1 (left : List (Interval K)) (right : Interval K) : List (Interval K) :=
  (left.map fun I => inter I right).filter fun I => !Bnd.blt I.upper I.lower

/-- `land(vector, vector)` (libmonaa/interval.hh:145-161). -/
def land (left right : List (Interval K)) : List (Interval K) :=
  right.flatMap fun J => land1 left J

/-- `operator+` (libmonaa/interval.hh:168-172). -/
def add (I J : Interval K) : Interval K := ⟨I.lower + J.lower, I.upper + J.upper⟩

/-- `operator+=` on sets of intervals (libmonaa/interval.hh:188-200). -/
def addAll (left right : List (Interval K)) : List (Interval K) :=
  left.flatMap fun I => right.map fun J => add I J

/-- Multiplying the value of a bound by an `int` (`Bounds{lowerBound.first * i, lowerBound.second}`,
libmonaa/interval.hh:81-85); only used on finite bounds. -/
def scale (b : Bnd K) (i : Int) : Bnd K :=
  match b with
  | .fin c s => .fin (c * (i : K)) s
  | .inf s => .inf s

/-- `Interval::plus` (libmonaa/interval.hh:70-87).  The conversion of `ceil(x / 0)` (infinite or NaN)
to `int`, and of `ceil(-∞)` for an infinite lower bound, is undefined behaviour; `reserve` of a negative number throws `length_error`. -/
def plus [FloorRing K] (I : Interval K) : Except Err (List (Interval K)) :=
  match I.upper, I.lower with
  | .inf _, _ => .ok [I]
  | .fin _ _, .inf _ => .error .ub
  | .fin u _, .fin l _ =>
    if u - l = 0 then .error .ub
    else
      let m : Int := ⌈l / (u - l)⌉
      if m + 1 < 0 then .error .lengthError
      else .ok (((List.range (m.toNat - 1)).map fun i : Nat =>
          ⟨scale I.lower ((i : Int) + 1), scale I.upper ((i : Int) + 1)⟩) ++
        [⟨scale I.lower m, .inf false⟩])

/-- The sub-vector selected by the bits of `i` (libmonaa/interval.hh:224-230). -/
def select {α : Type*} (i : Nat) : List α → List α
  | [] => []
  | a :: l => if i % 2 = 1 then a :: select (i / 2) l else select (i / 2) l

/-- One member of the vector (libmonaa/interval.hh:209-215). -/
def plusMember [FloorRing K] (I : Interval K) : Except Err (List (Interval K)) :=
  match I.upper with
  | .inf _ => .ok [I]
  | .fin _ _ => I.plus

/-- `plus(vector)` (libmonaa/interval.hh:203-240). -/
def plusAll [FloorRing K] (S : List (Interval K)) : Except Err (List (Interval K)) :=
  if 32 ≤ S.length then .error .message
  else do
    let P ← S.mapM plusMember
    match P with
    | [p] => .ok p
    | _ =>
      .ok (((List.range (2 ^ S.length)).drop 1).flatMap fun i =>
        (select i P).foldl addAll [⟨.fin 0 true, .fin 0 true⟩])

end Interval
end Verif
