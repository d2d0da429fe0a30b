import Verif.Model.NormalForm
import Verif.Model.TRE

/-!
# Model of the translation of normal forms to signal automata (monaa/intermediate_tre.cc:486-667, monaa/tre.cc:435-491)

As in `Verif.Model.TRE`, the states live on a heap and `alloc k` is the address of the `k`-th state.  Nested calls are bounded by `fuel`.
-/

namespace Verif

variable {K : Type} [Field K] [LinearOrder K] [FloorRing K]

namespace TA

/-- The constraint for the lower end of an interval (monaa/intermediate_tre.cc:507-518).  The conversion of infinity to `int` is undefined
behaviour. -/
def lowerGuard : Bnd K → Except Err (List Constraint)
  | .fin c s =>
    if c = 0 ∧ s = true then .ok []
    else match (Bnd.fin c s).toInt with
      | .error e => .error e
      | .ok n => .ok [⟨0, if s then .ge else .gt, n⟩]
  | .inf _ => .error .ub

/-- The constraint for the upper end of an interval (monaa/intermediate_tre.cc:519-529). -/
def upperGuard : Bnd K → Except Err (List Constraint)
  | .fin c s =>
    match (Bnd.fin c s).toInt with
    | .error e => .error e
    | .ok n => .ok [⟨0, if s then .le else .lt, n⟩]
  | .inf _ => .ok []

/-- The guard for one interval (monaa/intermediate_tre.cc:504-530). -/
def intervalGuard (I : Interval K) : Except Err (List Constraint) :=
  match lowerGuard I.lower, upperGuard I.upper with
  | .ok l, .ok u => .ok (l ++ u)
  | .error e, _ => .error e
  | _, .error e => .error e

/-- The guards for all intervals (monaa/intermediate_tre.cc:504-532). -/
def guardsOf : List (Interval K) → Except Err (List (List Constraint))
  | [] => .ok []
  | I :: S =>
    match intervalGuard I, guardsOf S with
    | .ok g, .ok gs => .ok (g :: gs)
    | .error e, _ => .error e
    | _, .error e => .error e

/-- `maxConstraint`: the largest of the constants and -1 (monaa/intermediate_tre.cc:503, 516, 526). -/
def maxConst (gs : List (List Constraint)) : Int := gs.flatten.foldl (fun m g => max m g.c) (-1)

/-- The automaton without states (as the caller made it, and monaa/intermediate_tre.cc:489-493). -/
def noneTA (heap : Nat → TAState Nat) : TA Nat := { states := [], init := [], st := heap, maxC := [] }

/-- The automaton made in the case `singleton` (monaa/intermediate_tre.cc:494-539), with one transition for each of the guards. -/
def edgeTA (alloc : Nat → Nat) (heap : Nat → TAState Nat) (k : Nat) (c : Alphabet) (gs : List (List Constraint)) : TA Nat :=
  { states := [alloc k, alloc (k + 1)]
    init := [alloc k]
    st := fun a =>
      if a = alloc k then ⟨false, false, [(c, gs.map fun g => ⟨some (alloc (k + 1)), [], g⟩)]⟩
      else if a = alloc (k + 1) then ⟨true, false, []⟩
      else heap a
    maxC := if maxConst gs = -1 then [] else [maxConst gs] }

/-- The case `singleton` (monaa/intermediate_tre.cc:488-540). -/
def singTA (alloc : Nat → Nat) (heap : Nat → TAState Nat) (k : Nat) (c : Alphabet) (S : List (Interval K)) : Except Err (TA Nat × Nat) :=
  match S with
  | [] => .ok (noneTA heap, k)
  | S =>
    match guardsOf S with
    | .error e => .error e
    | .ok gs => .ok (edgeTA alloc heap k c gs, k + 2)

/-- The case `epsilon` (monaa/intermediate_tre.cc:541-548). -/
def epsTA (alloc : Nat → Nat) (heap : Nat → TAState Nat) (k : Nat) : TA Nat :=
  { states := [alloc k]
    init := [alloc k]
    st := fun a => if a = alloc k then ⟨true, false, []⟩ else heap a
    maxC := [] }

/-- The case `plus` (monaa/intermediate_tre.cc:549-567), after the translation of the operand.  For a transition to an accepting state
the code appends to the vector over which it iterates: undefined behaviour. -/
def plusSignalTA (A : TA Nat) : Except Err (TA Nat) := if A.hasAccEdge ∧ A.init ≠ [] then .error .ub else .ok A

/-- The transitions of the dummy initial state (monaa/intermediate_tre.cc:582-595). -/
def dummyNext (A : TA Nat) : Next Nat :=
  (A.init.flatMap fun i => (A.st i).next.flatMap fun p => p.2.map fun e => (p.1, { e with resets := e.resets ++ [A.clockSize % 256] })).foldl
    (fun m p => m.push p.1 p.2) []

/-- The case `within` (monaa/intermediate_tre.cc:578-636), after the translation of the operand.  For a transition to an accepting state
the code appends to the vector over which it iterates: undefined behaviour. -/
def withinSignalTA (alloc : Nat → Nat) (k : Nat) (A : TA Nat) (I : Interval K) : Except Err (TA Nat × Nat) :=
  if A.hasAccEdge then .error .ub
  else match I.upper.toInt with
    | .error e => .error e
    | .ok u =>
      .ok ({ states := A.states ++ [alloc k, alloc (k + 1)]
             init := [alloc k]
             st := fun a =>
              if a = alloc k then ⟨false, false, A.dummyNext⟩
              else if a = alloc (k + 1) then ⟨true, false, []⟩
              else if a ∈ A.states then { A.st a with isMatch := false }
              else A.st a
             maxC := A.maxC ++ [u] }, k + 2)

end TA

namespace TMem

/-- The loop over the other elements of a concatenation (monaa/intermediate_tre.cc:572-576). -/
def concatSignal (f : (Nat → TAState Nat) → Nat → Nat → Except Err (TA Nat × Nat)) (A : TA Nat) (k : Nat) : List Nat → Except Err (TA Nat × Nat)
  | [] => .ok (A, k)
  | a :: l =>
    match f A.st k a with
    | .error e => .error e
    | .ok (B, k) => concatSignal f (A.concat2 B) k l

/-- The loop over the alternatives (`DNFTRE::toSignalTA`, monaa/intermediate_tre.cc:642-667).  For conjunctions, `intersectionSignalTA`
is not modelled; it is never reached (`signalTA_no_dead_code`). -/
def altSignal (f : (Nat → TAState Nat) → Nat → Nat → Except Err (TA Nat × Nat)) (A : TA Nat) (k : Nat) : List (List Nat) → Except Err (TA Nat × Nat)
  | [] => .ok (A, k)
  | [] :: _ => .error .ub
  | [a] :: l =>
    match f A.st k a with
    | .error e => .error e
    | .ok (B, k) => altSignal f (A.disjTA B) k l
  | (_ :: _ :: _) :: _ => .error .notModelled

/-- `AtomicTRE::toSignalTA` (monaa/intermediate_tre.cc:486-640), called with an empty automaton. -/
def signalAtom (m : TMem K) (alloc : Nat → Nat) : Nat → (Nat → TAState Nat) → Nat → Nat → Except Err (TA Nat × Nat)
  | 0, _, _, _ => .error .fuel
  | fuel + 1, heap, k, a =>
    match m.atom a with
    | .singleton s => TA.singTA alloc heap k (m.sing s).1 (m.sing s).2
    | .epsilon => .ok (TA.epsTA alloc heap k, k + 1)
    | .plus d =>
      match altSignal (m.signalAtom alloc fuel) (TA.noneTA heap) k (m.dnf d) with
      | .error e => .error e
      | .ok (A, k) => (A.plusSignalTA).map fun A => (A, k)
    | .concat [] => .error .ub
    | .concat (b :: l) =>
      match m.signalAtom alloc fuel heap k b with
      | .error e => .error e
      | .ok (A, k) => concatSignal (m.signalAtom alloc fuel) A k l
    | .within b I =>
      match m.signalAtom alloc fuel heap k b with
      | .error e => .error e
      | .ok (A, k) => A.withinSignalTA alloc k I
    | .moved => .error .ub

end TMem

namespace TA

/-- `haveToChangeToEpsilon` (monaa/tre.cc:438-449): the transition `e` with the letter `c` leads to a state which has an entry for `c`.  The static
map `output` only repeats answers, as entries for letters other than 0 are neither added nor removed; it is empty at the first call of
`renameToEpsilonTransitions`, which is the case described. -/
def repeats (A : TA Nat) (c : Alphabet) (e : Transition Nat) : Bool :=
  match e.target with
  | none => false
  | some q => c != 0 && ((A.st q).next.find c).isSome

/-- Some transition to an accepting state is changed to a silent one (the branch monaa/tre.cc:459-464). -/
def repeatsAcc (A : TA Nat) : Bool :=
  A.states.any fun s => (A.st s).next.any fun p => p.2.any fun e => A.repeats p.1 e && A.isAcc e

/-- The map `next` of a state after the loops of `renameToEpsilonTransitions` (monaa/tre.cc:451-474).  Inserting the entry 0 into the unordered
map over which the loop iterates is undefined behaviour if the map is rehashed; the model describes the case that it is not. -/
def epsNext (A : TA Nat) (n : Next Nat) : Next Nat :=
  (n.flatMap fun p => p.2.filter (A.repeats p.1)).foldl (fun m e => m.push epsilon e)
    (n.map fun p => (p.1, p.2.filter fun e => e.target.isSome && !A.repeats p.1 e))

/-- `renameToEpsilonTransitions` (monaa/tre.cc:436-482).  Not modelled: the branch for transitions to accepting states, which is not reached
(`signalTA_no_dead_code`). -/
def renameEps (A : TA Nat) : Except Err (TA Nat) :=
  if A.repeatsAcc then .error .notModelled
  else .ok (A.mapSt A.states fun s => { s with next := A.epsNext s.next })

end TA

/-- `toSignalTA` (monaa/tre.cc:484-491) called with an empty automaton.  Only the states of the result exist after it. -/
def TRE.signalTA (alloc : Nat → Nat) (fuel : Nat) (e : TRE K) : Except Err (TA Nat) :=
  match e.normalForm fuel with
  | .error x => .error x
  | .ok (d, m) =>
    match TMem.altSignal (m.signalAtom alloc fuel) (TA.noneTA fun _ => ⟨false, false, []⟩) 0 (m.dnf d) with
    | .error x => .error x
    | .ok (A, _) => A.renameEps.map TA.owned

end Verif
