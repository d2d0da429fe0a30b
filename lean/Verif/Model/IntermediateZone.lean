import Verif.Model.Matcher

/-!
# Model of `IntermediateZone` (libmonaa/intermediate_zone.hh)

The variables stand for instants: variable 0 is the constant 0, variable 1 the beginning of the match, the others are the
instants of silent transitions and the end of the match.
-/

namespace Verif

variable {K : Type}

/-- `class IntermediateZone` (libmonaa/intermediate_zone.hh:9-21).  `one` and `three` are the interval representation
(`useInterval`) with one and with three elements in `intervals` (no other number occurs); `newestClock` is 1 and 2 there.
The intervals hold cells of the matrix: `three` has the six bounds of `Six`.  `dead` is the state after
`-∞` has been written into a cell to mark the zone as empty. -/
inductive IZone (K : Type) where
  | one (lo up : Bnd K)
  | three (b : Six K)
  | zone (value : Zone K) (isAllocated : List Bool) (newest : Nat)
  | dead

/-- `boost::variant<double, ClockVariables>`: when a clock was reset. -/
inductive RTime (K : Type) where
  | at (t : K)
  | var (x : Nat)
  deriving DecidableEq

namespace IZone

/-- `newestClock` (libmonaa/intermediate_zone.hh:15). -/
def newestClock : IZone K → Nat
  | one _ _ => 1
  | three _ => 2
  | zone _ _ n => n
  | dead => 0

section
variable [Field K] [LinearOrder K]

/-- `deallocate` (libmonaa/intermediate_zone.hh:372-379). -/
def deallocate (z : Zone K) (x : Nat) : Zone K :=
  Zone.build z.n z.M fun i j =>
    if i = x ∧ j = x then .fin 0 true else if i = x ∨ j = x then .inf false else z.get i j

/-- The least of `row(i) + col(k)` (libmonaa/intermediate_zone.hh:141), and `value(i, k)`. -/
def throughAll (z : Zone K) (i k : Nat) : Bnd K :=
  (List.range z.n).foldl (fun b x => Bnd.min b (z.get i x + z.get x k)) (z.get i k)

/-- The loop over the column of the new variable (libmonaa/intermediate_zone.hh:134-142). -/
def closeColumn (z : Zone K) (k : Nat) : Zone K :=
  (List.range z.n).foldl (fun z i => z.set i k (throughAll z i k)) z

/-- The loop over the row of the new variable (libmonaa/intermediate_zone.hh:143-148). -/
def closeRow (z : Zone K) (k : Nat) : Zone K :=
  (List.range z.n).foldl (fun z x => (List.range z.n).foldl (fun z j =>
    z.set k j (Bnd.min (z.get k j) (z.get k x + z.get x j))) z) z

/-- The conversion of the intervals to a zone with a new variable 3 (libmonaa/intermediate_zone.hh:85-102). -/
def convert (b : Six K) (upper lower : Bnd K) : Zone K :=
  Zone.build 4 (.fin 0 true) fun i j =>
    if i = j then .fin 0 true
    else if i = 1 ∧ j = 0 then b.ub else if i = 0 ∧ j = 1 then b.lb
    else if i = 2 ∧ j = 0 then b.ue else if i = 0 ∧ j = 2 then b.le
    else if i = 2 ∧ j = 1 then b.ud else if i = 1 ∧ j = 2 then b.ld
    else if i = 2 ∧ j = 3 then .fin 0 true
    else if i = 3 ∧ j = 0 then upper else if i = 0 ∧ j = 3 then lower
    else .inf false

/-- One more row and column (libmonaa/intermediate_zone.hh:118-123). -/
def grow (z : Zone K) : Zone K :=
  Zone.build (z.n + 1) z.M fun i j =>
    if i = z.n ∧ j = z.n then .fin 0 true else if i = z.n ∨ j = z.n then .inf false else z.get i j

/-- The cells of the new variable `k` (libmonaa/intermediate_zone.hh:126-129), in the order of the assignments. -/
def enter (z : Zone K) (k newest : Nat) (upper lower : Bnd K) : Zone K :=
  (((z.set k 0 upper).set 0 k lower).set k newest (.inf false)).set newest k (.fin 0 true)

/-- `alloc` (libmonaa/intermediate_zone.hh:62-150): the new zone; its result is `newestClock` of it. -/
def alloc (upper lower : Bnd K) : IZone K → IZone K
  | one lo up =>
    three { ub := up, lb := lo, ue := upper, le := lower
            ld := Bnd.min (up + lower) (.fin 0 true)
            ud := upper + lo }
  | three b => zone (closeRow (closeColumn (convert b upper lower) 3) 3) (List.replicate 4 true) 3
  | zone z isAllocated newest =>
    match isAllocated.findIdx? (fun b => !b) with
    | some k => zone (closeRow (closeColumn (enter z k newest upper lower) k) k) (isAllocated.set k true) k
    | none => zone (closeRow (closeColumn (enter (grow z) z.n newest upper lower) z.n) z.n) (isAllocated ++ [true]) z.n
  | dead => dead

/-- The `isAllocated` computed by `update` (libmonaa/intermediate_zone.hh:160-169); a variable out of range is undefined
behaviour. -/
def keepOf (n newest : Nat) (rt : List (RTime K)) : Except Err (List Bool) :=
  rt.foldlM (fun l r => match r with
    | .at _ => .ok l
    | .var x => if x < n then .ok (l.set x true) else .error .ub)
    ((((List.replicate n false).set 0 true).set 1 true).set newest true)

/-- `update` (libmonaa/intermediate_zone.hh:152-175). -/
def update (rt : List (RTime K)) : IZone K → Except Err (IZone K)
  | zone z _ newest => do
    let l ← keepOf z.n newest rt
    .ok (zone ((List.range z.n).foldl (fun z x =>
      if 1 ≤ x ∧ l.getD x false = false then deallocate z x else z) z) l newest)
  | z => .ok z

/-- `toAns` (libmonaa/intermediate_zone.hh:177-197). -/
def toAns : IZone K → Zone K
  | one _ _ => Zone.zero 3 (.fin 0 true)
  | three b => sixZone b
  | zone z _ newest =>
    sixZone { lb := z.get 0 1, ub := z.get 1 0, le := z.get 0 newest, ue := z.get newest 0,
              ld := z.get 1 newest, ud := z.get newest 1 }
  | dead => Zone.zero 3 (.fin 0 true)

/-- `tighten(x, y, c)` (libmonaa/intermediate_zone.hh:204-270).  With one interval the variable 2 does not exist: out of
bounds of the vector.  In the interval representation other pairs, e.g. `x = y`, are ignored. -/
def tighten (x y : Nat) (c : Bnd K) : IZone K → Except Err (IZone K)
  | one lo up =>
    if x = 0 ∧ y = 1 then .ok (one (Bnd.min lo c) up)
    else if x = 1 ∧ y = 0 then .ok (one lo (Bnd.min up c))
    else if (x = 0 ∨ x = 1) ∧ y = 2 ∨ x = 2 ∧ (y = 0 ∨ y = 1) then .error .ub
    else .ok (one lo up)
  | three b =>
    if x = 0 ∧ y = 1 then
      let lb := Bnd.min b.lb c
      .ok (three { b with lb := lb, le := Bnd.min b.le (lb + b.ld), ud := Bnd.min b.ud (b.ue + lb) })
    else if x = 1 ∧ y = 0 then
      let ub := Bnd.min b.ub c
      .ok (three { b with ub := ub, ue := Bnd.min b.ue (b.ud + ub), ld := Bnd.min b.ld (ub + b.le) })
    else if x = 0 ∧ y = 2 then
      let le := Bnd.min b.le c
      .ok (three { b with le := le, lb := Bnd.min b.lb (le + b.ud), ld := Bnd.min b.ld (le + b.ub) })
    else if x = 2 ∧ y = 0 then
      let ue := Bnd.min b.ue c
      .ok (three { b with ue := ue, ub := Bnd.min b.ub (ue + b.ld), ud := Bnd.min b.ud (ue + b.lb) })
    else if x = 1 ∧ y = 2 then
      let ld := Bnd.min b.ld c
      .ok (three { b with ld := ld, ub := Bnd.min b.ub (b.ue + ld), le := Bnd.min b.le (ld + b.lb) })
    else if x = 2 ∧ y = 1 then
      let ud := Bnd.min b.ud c
      .ok (three { b with ud := ud, ue := Bnd.min b.ue (ud + b.ub), lb := Bnd.min b.lb (b.le + ud) })
    else .ok (three b)
  | zone z l newest =>
    if x < z.n ∧ y < z.n then
      let z := z.set x y (Bnd.min (z.get x y) c)
      .ok (zone (if z.get x y = c ∧ newest ≠ 1 then (z.close1 x).close1 y else z) l newest)
    else .error .ub
  | dead => .ok dead

/-- `tighten(x, c, reset)` (libmonaa/intermediate_zone.hh:272-288). -/
def tightenVar (x : Nat) (g : Constraint) (reset : Nat) (z : IZone K) : Except Err (IZone K) :=
  match g.odr with
  | .lt => z.tighten x reset (.fin (g.c : K) false)
  | .le => z.tighten x reset (.fin (g.c : K) true)
  | .gt => z.tighten reset x (.fin (-(g.c : K)) false)
  | .ge => z.tighten reset x (.fin (-(g.c : K)) true)

/-- `tighten(x, c, t)` (libmonaa/intermediate_zone.hh:290-305). -/
def tightenAt (x : Nat) (g : Constraint) (t : K) (z : IZone K) : Except Err (IZone K) :=
  match g.odr with
  | .lt => z.tighten x 0 (.fin ((g.c : K) + t) false)
  | .le => z.tighten x 0 (.fin ((g.c : K) + t) true)
  | .gt => z.tighten 0 x (.fin (-(g.c : K) - t) false)
  | .ge => z.tighten 0 x (.fin (-(g.c : K) - t) true)

/-- `tighten(constraints, resetTime)` (libmonaa/intermediate_zone.hh:307-320): the guard holds at the newest variable. A
clock without entry in `resetTime` is undefined behaviour. -/
def tightenNewest (rt : List (RTime K)) : List Constraint → IZone K → Except Err (IZone K)
  | [], z => .ok z
  | g :: gs, z => match rt[g.x]? with
    | none => .error .ub
    | some (.at t) => match z.tightenAt z.newestClock g t with
      | .error e => .error e
      | .ok z => tightenNewest rt gs z
    | some (.var x) => match z.tightenVar z.newestClock g x with
      | .error e => .error e
      | .ok z => tightenNewest rt gs z

/-- The switch of `tighten(constraints, resetTime, t)` for a clock reset at the variable `x`
(libmonaa/intermediate_zone.hh:342-355). -/
def tightenAgo (x : Nat) (g : Constraint) (t : K) (z : IZone K) : Except Err (IZone K) :=
  match g.odr with
  | .lt => z.tighten 0 x (.fin ((g.c : K) - t) false)
  | .le => z.tighten 0 x (.fin ((g.c : K) - t) true)
  | .gt => z.tighten x 0 (.fin (t - (g.c : K)) false)
  | .ge => z.tighten x 0 (.fin (t - (g.c : K)) true)

/-- `tighten(constraints, resetTime, t)` (libmonaa/intermediate_zone.hh:322-358): the guard holds at the instant `t`. -/
def tightenInstant (rt : List (RTime K)) (t : K) : List Constraint → IZone K → Except Err (IZone K)
  | [], z => .ok z
  | g :: gs, z => match rt[g.x]? with
    | none => .error .ub
    | some (.at r) => tightenInstant rt t gs (if g.satisfy (t - r) then z else dead)
    | some (.var x) => match z.tightenAgo x g t with
      | .error e => .error e
      | .ok z => tightenInstant rt t gs z

/-- `isSatisfiableCanonized` (libmonaa/intermediate_zone.hh:360-370). -/
def isSat : IZone K → Bool
  | one lo up => Bnd.bge (up + lo) Bnd.zeroLe
  | three b => sixValid b
  | zone z _ _ => z.noNegativePair
  | dead => false

/-- The constructor from an interval (libmonaa/intermediate_zone.hh:26-31), which negates the lower bound. -/
def ofInterval (lower upper : Bnd K) : IZone K :=
  match lower with
  | .fin c s => one (.fin (-c) s) upper
  | .inf _ => dead

end
end IZone
end Verif
