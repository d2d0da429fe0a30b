import Verif.Model.Container
import Verif.Model.Zone

/-!
# Model of the matching loop of `monaaDollar` (libmonaa/monaa.hh:702-1157)

The part after the construction of the skip tables, for automata without silent transitions.
-/

namespace Verif

variable {S K σ : Type}

/-- `IntervalInternalState` (libmonaa/monaa.hh:85-97). `rt` is `resetTime`; the value 0 means "not reset
since the beginning of the match". -/
structure Conf (S K : Type) where
  s : S
  rt : List K
  up : Bnd K
  lo : Bnd K

/-- The six bounds computed when a configuration goes to an accepting state
(libmonaa/monaa.hh:864-875). -/
structure Six (K : Type) where
  ub : Bnd K
  lb : Bnd K
  ue : Bnd K
  le : Bnd K
  ud : Bnd K
  ld : Bnd K

/-- The skip tables. `delta` is `std::array<unsigned, CHAR_MAX>` (libmonaa/sunday_skip_value.hh:21), `beta` is the
map of libmonaa/kmp_skip_value.hh:19 composed with `ptrConv` (`none`: `at` throws). -/
structure Tables (S : Type) where
  m : Nat
  endChars : List Alphabet
  delta : List Nat
  beta : S → Option Nat

section core
variable [Field K] [LinearOrder K]

/-- `isValidConstraint` (libmonaa/monaa.hh:100-103). -/
def isValidConstraint (upper lower : Bnd K) : Bool := Bnd.bge (upper + lower) Bnd.zeroLe

/-- `resetTime[x]`.  An index out of range is undefined in C++; it is excluded by `monaaDollar`'s entry check
(`clocksOk`), so the default value is never used. -/
def rtAt (rt : List K) (x : Nat) : K := rt.getD x 0

/-- One iteration of `for (const auto &delta : edge.guard)` when going to an accepting state
(libmonaa/monaa.hh:879-945). -/
def sixGuard (rt : List K) (b : Six K) (g : Constraint) : Six K :=
  let r := rtAt rt g.x
  if r ≠ 0 then
    if g.odr = .lt ∨ g.odr = .le then
      let ue := Bnd.min b.ue (.fin ((g.c : K) + r) (g.odr = .le))
      let ud := Bnd.min b.ud (ue + b.lb)
      let ub := Bnd.min b.ub (b.ld + ue)
      { b with ue := ue, ud := ud, ub := ub }
    else
      let le := Bnd.min b.le (.fin (-(g.c : K) - r) (g.odr = .ge))
      let ld := Bnd.min b.ld (b.ub + le)
      let lb := Bnd.min b.lb (le + b.ud)
      { b with le := le, ld := ld, lb := lb }
  else
    if g.odr = .lt ∨ g.odr = .le then
      let ud := Bnd.min b.ud (.fin (g.c : K) (g.odr = .le))
      let ue := Bnd.min b.ue (ud + b.ub)
      let lb := Bnd.min b.lb (b.le + ud)
      { b with ud := ud, ue := ue, lb := lb }
    else
      let ld := Bnd.min b.ld (.fin (-(g.c : K)) (g.odr = .ge))
      let ub := Bnd.min b.ub (ld + b.ue)
      let le := Bnd.min b.le (b.lb + ld)
      { b with ld := ld, ub := ub, le := le }

/-- The bounds before the guard is looked at (libmonaa/monaa.hh:864-875). -/
def sixInit (c : Conf S K) (ue le : Bnd K) : Six K :=
  { ub := c.up, lb := c.lo, ue := ue, le := le
    ud := ue + c.lo
    ld := Bnd.min (le + c.up) Bnd.zeroLe }

/-- `ansZone` (libmonaa/monaa.hh:955-961). (`M` is not set by the code.) -/
def sixZone (b : Six K) : Zone K :=
  Zone.build 3 (.fin 0 true) fun i j =>
    if i = 0 ∧ j = 1 then b.lb else if i = 1 ∧ j = 0 then b.ub
    else if i = 0 ∧ j = 2 then b.le else if i = 2 ∧ j = 0 then b.ue
    else if i = 1 ∧ j = 2 then b.ld else if i = 2 ∧ j = 1 then b.ud
    else .fin 0 true

/-- The check before the zone is reported (libmonaa/monaa.hh:947-953). -/
def sixValid (b : Six K) : Bool :=
  isValidConstraint b.ub b.lb && isValidConstraint b.ue b.le && isValidConstraint b.ud b.ld

/-- "try to go to an accepting state" for one configuration and one edge (libmonaa/monaa.hh:860-963);
`ue`, `le` are the end constraints. -/
def acceptEdge (A : TA S) (ue le : Bnd K) (c : Conf S K) (e : Transition S) : List (Zone K) :=
  match e.target with
  | none => []
  | some q =>
    if !(A.st q).isMatch then []
    else
      let b := e.guard.foldl (sixGuard c.rt) (sixInit c ue le)
      if sixValid b then [sixZone b] else []

/-- "try to go to an accepting state" by a transition labelled `a` (libmonaa/monaa.hh:276-389, 853-965, 1030-1143,
1320-1432, 1533-1647): `a` is `$` in `monaaDollar` and `monaaNotNecessaryDollar`, and `word[j].first` in `monaa`. -/
def acceptOn (A : TA S) (a : Alphabet) (ue le : Bnd K) (cs : List (Conf S K)) : List (Zone K) :=
  cs.flatMap fun c => (A.edges c.s a).flatMap fun e => acceptEdge A ue le c e

/-- The loop over the guard of an observable transition (libmonaa/monaa.hh:985-1009); `none` is
`transitable = false`. -/
def transGuard (t : K) (rt : List K) : Bnd K → Bnd K → List Constraint → Option (Bnd K × Bnd K)
  | up, lo, [] => some (up, lo)
  | up, lo, g :: gs =>
    let r := rtAt rt g.x
    if r ≠ 0 then
      if g.satisfy (t - r) then transGuard t rt up lo gs else none
    else
      if g.odr = .lt ∨ g.odr = .le then
        transGuard t rt up (Bnd.min lo (.fin ((g.c : K) - t) (g.odr = .le))) gs
      else
        transGuard t rt (Bnd.min up (.fin (t - (g.c : K)) (g.odr = .ge))) lo gs

/-- The resets (libmonaa/monaa.hh:1016-1019). -/
def resetTimes (t : K) (rt : List K) (xs : List Nat) : List K := xs.foldl (fun rt x => rt.set x t) rt

/-- One observable edge for one configuration (libmonaa/monaa.hh:975-1024). -/
def stepEdge (t : K) (c : Conf S K) (e : Transition S) : List (Conf S K) :=
  match e.target with
  | none => []
  | some q => match transGuard t c.rt c.up c.lo e.guard with
    | none => []
    | some (up, lo) =>
      if isValidConstraint up lo then [⟨q, resetTimes t c.rt e.resets, up, lo⟩] else []

/-- "try observable transitions" (libmonaa/monaa.hh:968-1025). -/
def stepAll (A : TA S) (a : Alphabet) (t : K) (cs : List (Conf S K)) : List (Conf S K) :=
  cs.flatMap fun c => (A.edges c.s a).flatMap fun e => stepEdge t c e

/-- `lowerEndConstraint` (libmonaa/monaa.hh:867-868): `prev` is `word[j-1].second`, `none` if `j = 0`. -/
def lowerEnd (prev : Option K) : Bnd K :=
  match prev with
  | none => Bnd.zeroLe
  | some p => .fin (-p) false

/-- `lowerConstraint` of a configuration before the first event (libmonaa/monaa.hh:836). -/
def lowerBegin (prev : Option K) : Bnd K :=
  match prev with
  | none => Bnd.zeroLe
  | some p => .fin (-p) true

/-- The configurations for the start position `i` (libmonaa/monaa.hh:830-843); `prev` is `word[i-1].second`. -/
def initConfs (A : TA S) (prev : Option K) (t : K) : List (Conf S K) :=
  A.init.map fun s =>
    { s := s, rt := List.replicate A.clockSize 0, up := .fin t false
      lo := lowerBegin prev }

/-- `word[k-1].second` guarded by `k > 0`. -/
def prevTime (C : Cont K σ) (k : Nat) (w : σ) : Except Err (Option K) :=
  if k = 0 then .ok none else match C.get (k - 1) w with
    | .ok e => .ok (some e.2)
    | .error x => .error x

/-- What is particular to one of the three functions `monaa`, `monaaDollar` and `monaaNotNecessaryDollar`, and to the
two branches of `monaa`: the rest of their code is identical. `Q` is the type of the elements of `CStates`. -/
structure Hooks (S Q K : Type) where
  /-- `istate.s` -/
  state : Q → S
  /-- `CStates` at the start position `i`, from `word[i-1].second` (`none` if `i = 0`) and `word[i].second` -/
  start : Option K → K → List Q
  /-- the body of the loop over the events: the zones pushed to `ans`, `LastStates` and the new `CStates`, from
  `word[j-1].second`, `word[j]` and `CStates` -/
  event : Option K → Alphabet → K → List Q → Except Err (List (Zone K) × List Q × List Q)
  /-- the zones pushed when the end of the log is reached -/
  final : Option K → List Q → List (Zone K)

/-- The matching loop from one start position (libmonaa/monaa.hh:271-454, 569-674, 847-1145, 1315-1649), returning the
zones pushed to `ans`, `LastStates` and the container.  The vector `CStates` is empty after `std::move` (as in all
implementations).  In the code `word[j - 1]` is only read when some edge into an accepting state exists; the model reads
it always if there is a configuration (it is present whenever the loop is entered). -/
def runLoop {Q : Type} (C : Cont K σ) (M : Hooks S Q K) : Nat → Nat → List Q → List Q → σ →
    Except Err (List (Zone K) × List Q × σ)
  | 0, _, _, _, _ => .error .fuel
  | fuel + 1, j, cs, last, w =>
    if cs.isEmpty then
      -- `if (!word.fetch(j))` after the loop: there is no configuration to look at
      let (b, w) := C.fetch j w
      .ok ([], if b then last else cs, w)
    else
      let (b, w) := C.fetch j w
      if b then do
        let e ← C.get j w
        let prev ← prevTime C j w
        let (here, last, cs) ← M.event prev e.1 e.2 cs
        let (rest, l, w) ← runLoop C M fuel (j + 1) cs last w
        .ok (here ++ rest, l, w)
      else do
        let (_, w) := C.fetch j w
        let prev ← prevTime C j w
        .ok (M.final prev cs, cs, w)

/-- The quick-search loop (libmonaa/monaa.hh:234-247, 535-549, 811-823, 1278-1292); `none` is `tooLarge`. -/
def sundayLoop (C : Cont K σ) (T : Tables S) : Nat → Nat → σ → Except Err (Option Nat × σ)
  | 0, _, _ => .error .fuel
  | fuel + 1, i, w => do
    let e ← C.get (i + T.m - 1) w
    if e.1 ∈ T.endChars then .ok (some i, w)
    else
      let (b, w) := C.fetch (i + T.m) w
      if !b then .ok (none, w)
      else do
        let e' ← C.get (i + T.m) w
        match T.delta[e'.1]? with
        | none => .error .ub
        | some d => do
          let i := i + d
          let w ← C.setFront (i - 1) w
          let (b, w) := C.fetch (i + T.m - 1) w
          if !b then .ok (none, w) else sundayLoop C T fuel i w

/-- The KMP skip (libmonaa/monaa.hh:455-459, 675-679, 1146-1150, 1650-1654). -/
def greatestN {Q : Type} (T : Tables S) (state : Q → S) (last : List Q) : Except Err Nat :=
  last.foldlM (fun n c => match T.beta (state c) with
    | none => .error .outOfRange
    | some b => .ok (max b n)) 1

/-- The outer loop (libmonaa/monaa.hh:204-463, 505-683, 780-1154, 1248-1658). -/
def matchLoop {Q : Type} (C : Cont K σ) (M : Hooks S Q K) (T : Tables S) (inner : Nat) : Nat → Nat → σ →
    Except Err (List (Zone K))
  | 0, _, _ => .error .fuel
  | fuel + 1, i, w =>
    let (b, w) := C.fetch (i + T.m - 1) w
    if !b then .ok []
    else do
      let (r, w) ← if T.m > 1 then
          (let (b, w) := C.fetch (i + T.m - 1) w
           if b then sundayLoop C T inner i w else .ok (some i, w))
        else .ok (some i, w)
      match r with
      | none => .ok []
      | some i =>
        let (b, w) := C.fetch i w
        if !b then .ok []
        else do
          let e ← C.get i w
          let prev ← prevTime C i w
          let (zs, last, w) ← runLoop C M inner i (M.start prev e.2) [] w
          let n ← greatestN T M.state last
          let w ← C.setFront (i + n - 1) w
          let rest ← matchLoop C M T inner fuel (i + n) w
          .ok (zs ++ rest)

/-- The particular code of `monaaDollar` (libmonaa/monaa.hh:830-843, 848-1025, 1030-1143). -/
def dollarHooks (A : TA S) : Hooks S (Conf S K) K where
  state := Conf.s
  start := initConfs A
  event := fun prev a t cs => .ok (acceptOn A dollar (.fin t true) (lowerEnd prev) cs, cs, stepAll A a t cs)
  final := fun prev cs => acceptOn A dollar (.inf true) (lowerEnd prev) cs

/-- The particular code of the branch of `monaa` for patterns without silent transitions (libmonaa/monaa.hh:254-449); no
zone is reported at the end of the log (libmonaa/monaa.hh:452-454). -/
def signalHooks (A : TA S) : Hooks S (Conf S K) K where
  state := Conf.s
  start := initConfs A
  event := fun prev a t cs => .ok (acceptOn A a (.fin t true) (lowerEnd prev) cs, cs, stepAll A a t cs)
  final := fun _ _ => []

/-- The bounds of the zone reported when an observable transition of `monaaNotNecessaryDollar` reaches an accepting state
(libmonaa/monaa.hh:1496-1504).  The cell for `0 - t'` is `(t, true)`, as written there. -/
def reachSix (t : K) (up lo : Bnd K) : Six K :=
  { ub := up, lb := lo, ue := .fin t true, le := .fin t true
    ud := Bnd.fin t true + lo
    ld := Bnd.min (Bnd.fin t true + up) Bnd.zeroLe }

/-- One observable edge for one configuration of `monaaNotNecessaryDollar` (libmonaa/monaa.hh:1443-1528): the zone
reported if the target is accepting, and the new configuration, which is dropped as well if the zone is not valid. -/
def reachEdge (A : TA S) (t : K) (c : Conf S K) (e : Transition S) : List (Zone K) × List (Conf S K) :=
  match e.target with
  | none => ([], [])
  | some q => match transGuard t c.rt c.up c.lo e.guard with
    | none => ([], [])
    | some (up, lo) =>
      if isValidConstraint up lo then
        let c' : Conf S K := ⟨q, resetTimes t c.rt e.resets, up, lo⟩
        if (A.st q).isMatch then
          let b := reachSix t up lo
          if sixValid b then ([sixZone b], [c']) else ([], [])
        else ([], [c'])
      else ([], [])

/-- "try observable transitions" of `monaaNotNecessaryDollar` (libmonaa/monaa.hh:1434-1529). -/
def reachAll (A : TA S) (a : Alphabet) (t : K) (cs : List (Conf S K)) : List (Zone K) × List (Conf S K) :=
  let r := cs.flatMap fun c => (A.edges c.s a).map fun e => reachEdge A t c e
  (r.flatMap (·.1), r.flatMap (·.2))

/-- The particular code of `monaaNotNecessaryDollar` (libmonaa/monaa.hh:1298-1314, 1317-1529, 1532-1649). -/
def optionalHooks (A : TA S) : Hooks S (Conf S K) K where
  state := Conf.s
  start := initConfs A
  event := fun prev a t cs =>
    let r := reachAll A a t cs
    .ok (acceptOn A dollar (.fin t true) (lowerEnd prev) cs ++ r.1, cs, r.2)
  final := fun prev cs => acceptOn A dollar (.inf true) (lowerEnd prev) cs

end core
end Verif
