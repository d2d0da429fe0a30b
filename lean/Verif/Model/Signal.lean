import Verif.Model.Monaa
import Verif.Model.IntermediateZone

/-!
# Model of `monaa` (libmonaa/monaa.hh:151-692) and `monaaNotNecessaryDollar` (libmonaa/monaa.hh:1169-1661)
-/

namespace Verif

variable {S K σ : Type}

/-- `InternalState` (libmonaa/monaa.hh:65-83). -/
structure SConf (S K : Type) where
  s : S
  rt : List (RTime K)
  z : IZone K

section
variable [Field K] [LinearOrder K]

/-- `flatMap` with errors: the loops over configurations and edges. -/
def flatMapE {α β : Type} (l : List α) (f : α → Except Err (List β)) : Except Err (List β) :=
  match l with
  | [] => .ok []
  | a :: l => match f a with
    | .error e => .error e
    | .ok x => match flatMapE l f with
      | .error e => .error e
      | .ok y => .ok (x ++ y)

/-- `tmpResetTime[x] = v` for the clocks of the transition (libmonaa/monaa.hh:602-604, 660-662); a clock without entry
is undefined behaviour. -/
def resetSym (v : RTime K) (rt : List (RTime K)) : List Nat → Except Err (List (RTime K))
  | [] => .ok rt
  | x :: xs => if x < rt.length then resetSym v (rt.set x v) xs else .error .ub

/-- One silent edge for one configuration (libmonaa/monaa.hh:590-609); `prev` is `word[j-1].second`, `t` is
`word[j].second`.  The clocks are recorded as reset at the variable `newClock`, which is 0, because the result of `alloc` is
not used. -/
def silentEdge (prev : Option K) (t : K) (c : SConf S K) (e : Transition S) : Except Err (List (SConf S K)) :=
  match e.target with
  | none => .ok []
  | some q => match (c.z.alloc (.fin t true) (lowerEnd prev)).tightenNewest c.rt e.guard with
    | .error x => .error x
    | .ok z =>
      if z.isSat then
        match resetSym (.var 0) c.rt e.resets with
        | .error x => .error x
        | .ok rt => match z.update rt with
          | .error x => .error x
          | .ok z => .ok [⟨q, rt, z⟩]
      else .ok []

/-- `while (!CurrEpsilonConf.empty())` (libmonaa/monaa.hh:582-614): what is added to `CStates`.  `fuel` bounds the number of
iterations: a cycle of silent transitions may be followed forever. -/
def silentLoop (A : TA S) (prev : Option K) (t : K) : Nat → List (SConf S K) → Except Err (List (SConf S K))
  | 0, _ => .error .fuel
  | fuel + 1, cs =>
    if cs.isEmpty then .ok []
    else match flatMapE cs (fun c => flatMapE (A.edges c.s epsilon) (silentEdge prev t c)) with
      | .error x => .error x
      | .ok new => match silentLoop A prev t fuel new with
        | .error x => .error x
        | .ok rest => .ok (new ++ rest)

/-- "try unobservable transitions" (libmonaa/monaa.hh:570-614): the new `CStates`. -/
def silentAll (A : TA S) (prev : Option K) (t : K) (fuel : Nat) (cs : List (SConf S K)) : Except Err (List (SConf S K)) :=
  match silentLoop A prev t fuel (cs.filter fun c => ((A.st c.s).next.find epsilon).isSome) with
  | .error x => .error x
  | .ok new => .ok (cs ++ new)

/-- "try to go to an accepting state" for one edge (libmonaa/monaa.hh:626-640). -/
def acceptSym (A : TA S) (prev : Option K) (t : K) (c : SConf S K) (e : Transition S) : Except Err (List (Zone K)) :=
  match e.target with
  | none => .ok []
  | some q =>
    if !(A.st q).isMatch then .ok []
    else match (c.z.alloc (.fin t true) (lowerEnd prev)).tightenNewest c.rt e.guard with
      | .error x => .error x
      | .ok z => if z.isSat then .ok [z.toAns] else .ok []

/-- One observable edge for one configuration (libmonaa/monaa.hh:651-668). -/
def stepSym (t : K) (c : SConf S K) (e : Transition S) : Except Err (List (SConf S K)) :=
  match e.target with
  | none => .ok []
  | some q => match c.z.tightenInstant c.rt t e.guard with
    | .error x => .error x
    | .ok z =>
      if z.isSat then
        match resetSym (.at t) c.rt e.resets with
        | .error x => .error x
        | .ok rt => match z.update rt with
          | .error x => .error x
          | .ok z => .ok [⟨q, rt, z⟩]
      else .ok []

/-- `CStates` at a start position (libmonaa/monaa.hh:555-565); `n` is the size of `zeroResetTime`. -/
def startSym (A : TA S) (n : Nat) (prev : Option K) (t : K) : List (SConf S K) :=
  A.init.map fun s =>
    ⟨s, List.replicate n (.var 1),
      IZone.ofInterval (match prev with | none => .fin 0 true | some p => .fin p true) (.fin t false)⟩

/-- The body of the loop over the events (libmonaa/monaa.hh:570-670). -/
def eventSym (A : TA S) (efuel : Nat) (prev : Option K) (a : Alphabet) (t : K) (cs : List (SConf S K)) :
    Except Err (List (Zone K) × List (SConf S K) × List (SConf S K)) :=
  match silentAll A prev t efuel cs with
  | .error x => .error x
  | .ok cs => match flatMapE cs (fun c => flatMapE (A.edges c.s a) (acceptSym A prev t c)) with
    | .error x => .error x
    | .ok zs => match flatMapE cs (fun c => flatMapE (A.edges c.s a) (stepSym t c)) with
      | .error x => .error x
      | .ok cs' => .ok (zs, cs, cs')

/-- The particular code of the branch of `monaa` for patterns with silent transitions (libmonaa/monaa.hh:555-674). `n` is
the size of `zeroResetTime`. -/
def silentHooks (A : TA S) (n efuel : Nat) : Hooks S (SConf S K) K where
  state := SConf.s
  start := startSym A n
  event := eventSym A efuel
  final := fun _ _ => []

/-- Whether the first iteration of the outer loop gets to a start position (libmonaa/monaa.hh:505-560); otherwise the loop
ends. -/
def reachesStart (C : Cont K σ) (T : Tables S) (inner : Nat) (w : σ) : Bool :=
  let (b, w) := C.fetch (0 + T.m - 1) w
  if !b then false
  else
    let r := if T.m > 1 then
        (let (b, w) := C.fetch (0 + T.m - 1) w
         if b then sundayLoop C T inner 0 w else .ok (some 0, w))
      else .ok (some 0, w)
    match r with
    | .error _ => false
    | .ok (none, _) => false
    | .ok (some i, w) => (C.fetch i w).1

variable [DecidableEq S]

/-- `monaa` (libmonaa/monaa.hh:151-692): the zones in `ans` at the end and the size of the static variable `zeroResetTime`
of the constructor of `InternalState` (libmonaa/monaa.hh:78-79; `none`: not yet initialised), which only the first
construction in the process determines.  `st` is its size before the call. -/
def monaa (fuel steps efuel : Nat) (C : Cont K σ) (st : Option Nat) (A : TA S) (w : σ) :
    Except Err (List (Zone K)) × Option Nat :=
  match makeTables K fuel A with
  | .error x => (.error x, st)
  | .ok T =>
    if A.states.all fun s => ((A.st s).next.find epsilon).isNone then
      (if clocksOk A then matchLoop C (signalHooks A) T steps steps 0 w else .error .ub, st)
    else
      let n := st.getD A.clockSize
      (matchLoop C (silentHooks A n efuel) T steps steps 0 w,
        if reachesStart C T steps w then some n else st)

/-- `Ap` of `monaaNotNecessaryDollar` (libmonaa/monaa.hh:1172-1198).  A target which is not a state becomes
`nullptr`. -/
def prepareOpt (addr : S → Nat) (A : TA S) : Except Err (TA S) :=
  if A.states.all fun s => partitioned addr A.init s then
    .ok { states := A.states, init := A.states.filter fun s => decide (s ∈ A.init), maxC := A.maxC
          st := fun s =>
            let s' := dropDollar (A.st s)
            { s' with next := s'.next.map fun p => (p.1, p.2.map fun e => match e.target with
                | none => e
                | some q => if q ∈ A.states then e else { e with target := none }) } }
  else .error .ub

/-- `monaaNotNecessaryDollar` (libmonaa/monaa.hh:1169-1661); nothing is done if there are silent transitions
(libmonaa/monaa.hh:1659). -/
def monaaNotNecessaryDollar (addr : S → Nat) (fuel steps : Nat) (C : Cont K σ) (A : TA S) (w : σ) :
    Except Err (List (Zone K)) := do
  let Ap ← prepareOpt addr A
  let T ← makeTables K fuel Ap
  if A.states.all fun s => ((A.st s).next.find epsilon).isNone then
    if clocksOk A then matchLoop C (optionalHooks A) T steps steps 0 w
    else .error .ub
  else .ok []

end
end Verif
