import Verif.Model.ZA
import Verif.Model.Intersection
import Verif.Model.Matcher

/-!
# Model of the skip tables (libmonaa/sunday_skip_value.hh, libmonaa/kmp_skip_value.hh)
-/

namespace Verif

variable {S K : Type}

/-- `for (char c = 1; c < CHAR_MAX; c++)`. -/
def letters : List Alphabet := (List.range 126).map (· + 1)

/-! ### Quick search -/

/-- One pass of the loop (libmonaa/sunday_skip_value.hh:43-60): the pairs (character, next state) in the
order in which they are found.  Dead states cannot be locked. -/
def sundayStep (Z : ZA S K) (alive : List Nat) (cs : List Nat) : List (Alphabet × Nat) :=
  cs.flatMap fun i => (Z.epsilonClosure alive i).flatMap fun j => letters.flatMap fun c =>
    ((Z.succsOf j c).filter fun k => decide (k ∈ alive)).map fun k => (c, k)

/-- `while (!accepted)` (libmonaa/sunday_skip_value.hh:35-62): the list of the character sets. -/
def sundaySets (Z : ZA S K) (alive : List Nat) : Nat → List Nat → Except Err (List (List Alphabet))
  | 0, _ => .error .fuel
  | fuel + 1, cs =>
    if cs.isEmpty then .error (.exit 10)
    else
      let next := sundayStep Z alive cs
      let chars := next.map (·.1)
      if next.any fun p => Z.isMatch p.2 then .ok [chars]
      else do
        let rest ← sundaySets Z alive fuel (next.map (·.2))
        .ok (chars :: rest)

/-- The table `delta` (libmonaa/sunday_skip_value.hh:65-70). -/
def sundayDelta (sets : List (List Alphabet)) : List Nat :=
  let m := sets.length
  (List.range m).foldl (fun d i => (sets.getD i []).foldl (fun d c => d.set c (m - i)) d)
    (List.replicate 127 (m + 1))

section tables
variable [Field K] [LinearOrder K] [DecidableEq S]

/-- The constructor of `SundaySkipValue` (libmonaa/sunday_skip_value.hh:26-72): `m`, `delta`, `endChars`.
The field `K` of the zones is an argument. -/
def sundayTable (K : Type) [Field K] [LinearOrder K] (fuel : Nat) (A : TA S) :
    Except Err (Nat × List Nat × List Alphabet) := do
  let Z ← ta2za fuel A (ZA.none : ZA S K)
  let alive ← Z.liveStates fuel
  let sets ← sundaySets Z alive fuel (Z.init.filter fun i => decide (i ∈ alive))
  .ok (sets.length, sundayDelta sets, sets.getD (sets.length - 1) [])

end tables

/-! ### KMP -/

/-- The states of `A0` (libmonaa/kmp_skip_value.hh:31-81): copies of the original states, `extendedInitialStates`,
`dummyAcceptingState`. -/
inductive KState (S : Type) where
  | orig (s : S)
  | ext (n : Nat)
  | acc
  deriving DecidableEq, Repr

/-- The states of `As` (libmonaa/kmp_skip_value.hh:85-104): copies of the original states and their dummy
states. -/
inductive DState (S : Type) where
  | orig (s : S)
  | dummy (s : S)
  deriving DecidableEq, Repr

/-- `widen` (libmonaa/constraint.hh:95-102) on the guard of a transition. -/
def widenEdge (e : Transition S) : Transition S := { e with guard := widen e.guard }

/-- A transition of the copied automaton. -/
def liftEdge {T : Type} (f : S → T) (e : Transition S) : Transition T :=
  { target := e.target.map f, resets := e.resets, guard := e.guard }

/-- The self loops of the dummy states (libmonaa/kmp_skip_value.hh:61-64, 96-99). -/
def selfLoops {T : Type} (q : T) : Next T := letters.map fun c => (c, [⟨some q, [], []⟩])

/-- `target && target->isMatch` (libmonaa/kmp_skip_value.hh:70). -/
def intoMatch (A : TA S) (e : Transition S) : Bool :=
  match e.target with
  | none => false
  | some q => (A.st q).isMatch

/-- `A0` with the initial state `extendedInitialStates[n]` (libmonaa/kmp_skip_value.hh:31-81, 117).  The loop of
lines 65-77 appends to the vector it iterates over, which is undefined behaviour; the model describes an
iteration over the transitions present at its beginning. -/
def kmpA0 (A : TA S) (m n : Nat) : TA (KState S) :=
  { states := A.states.map .orig ++ .acc :: (List.range (m + 1)).map .ext
    init := [.ext n]
    maxC := A.maxC
    st := fun q => match q with
      | .orig s =>
        { isMatch := (A.st s).isMatch
          zeroDuration := (A.st s).zeroDuration
          next := (A.st s).next.map fun p => (p.1, p.2.map (liftEdge .orig) ++
            ((p.2.filter (intoMatch A)).map fun e =>
                { target := some .acc, resets := e.resets, guard := widen e.guard })) }
      | .ext 0 =>
        { isMatch := false, zeroDuration := false
          next := (A.init.flatMap fun s => (A.st s).next.flatMap fun p => p.2.map fun e =>
            (p.1, widenEdge (liftEdge .orig e))).foldl (fun m q => m.push q.1 q.2) [] }
      | .ext (n + 1) =>
        { isMatch := false, zeroDuration := false
          next := letters.map fun c => (c, [⟨some (.ext n), List.range A.clockSize, []⟩]) }
      | .acc => { isMatch := true, zeroDuration := false, next := selfLoops .acc } }

/-- `As` with the accepting states for the original state `o` (libmonaa/kmp_skip_value.hh:85-113).  The order of the
dummy states is that of an unordered map in the code. -/
def kmpAs [DecidableEq S] (A : TA S) (o : S) : TA (DState S) :=
  { states := A.states.map .orig ++ A.states.map .dummy
    init := A.init.map .orig
    maxC := A.maxC
    st := fun q => match q with
      | .orig s =>
        { isMatch := decide (s = o)
          zeroDuration := (A.st s).zeroDuration
          next := Next.push ((A.st s).next.map fun p => (p.1, p.2.map (liftEdge .orig))) epsilon
            ⟨some (.dummy s), [], []⟩ }
      | .dummy s => { isMatch := decide (s = o), zeroDuration := false, next := selfLoops (.dummy s) } }

section kmp
variable [DecidableEq S]

/-- `A2` after `updateInitAccepting` (libmonaa/kmp_skip_value.hh:106, 118, libmonaa/intersection.cc:133-162): its states and
transitions do not depend on `n` and `o`. -/
def kmpA2 (A : TA S) (m n : Nat) (o : S) : TA (KState S × DState S) :=
  TA.intersection (kmpA0 A m n) (kmpAs A o)

variable [Field K] [LinearOrder K]

/-- `for (int n = 1; n <= m; n++)` (libmonaa/kmp_skip_value.hh:116-126), from `n` on, `k` values left. The zone automaton
`ZA2` is kept. -/
def kmpSearch (fuel : Nat) (A : TA S) (m : Nat) (o : S) : Nat → Nat → ZA (KState S × DState S) K →
    Except Err (Option Nat × ZA (KState S × DState S) K)
  | 0, _, Z => .ok (none, Z)
  | k + 1, n, Z => do
    let A2 := kmpA2 A m n o
    let Z ← ta2za fuel A2 Z
    let Z := Z.updateInitAccepting A2
    if Z.empty then kmpSearch fuel A m o k (n + 1) Z else .ok (some n, Z)

/-- The entry of `beta` for the state `o`. -/
def betaAt (beta : List (S × Nat)) (o : S) : Option Nat := (beta.find? fun p => decide (p.1 = o)).map (·.2)

/-- The loop over the original states (libmonaa/kmp_skip_value.hh:109-129). -/
def kmpLoop (fuel : Nat) (A : TA S) (m : Nat) : List S → List (S × Nat) → ZA (KState S × DState S) K →
    Except Err (List (S × Nat))
  | [], beta, _ => .ok beta
  | o :: os, beta, Z => do
    let (r, Z) ← kmpSearch fuel A m o m 1 Z
    let beta := match r with
      | some n => (o, n) :: beta
      | none => if (betaAt beta o).isSome then beta else (o, m) :: beta
    kmpLoop fuel A m os beta Z

/-- The constructor of `KMPSkipValue` (libmonaa/kmp_skip_value.hh:22-130). -/
def kmpTable (K : Type) [Field K] [LinearOrder K] (fuel : Nat) (A : TA S) (m : Nat) :
    Except Err (List (S × Nat)) :=
  kmpLoop fuel A m A.states [] (ZA.none : ZA (KState S × DState S) K)

end kmp
end Verif
