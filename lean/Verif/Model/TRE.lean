import Verif.Model.Intersection
import Verif.Model.Interval
import Mathlib.Algebra.Order.Floor.Ring
import Mathlib.Data.List.Sort

/-!
# Model of the translation of timed regular expressions to event automata (monaa/tre.cc)

Addresses of states are natural numbers, `TA.st` is the heap.  `alloc k` is the address of the `k`-th state made by `make_shared`
during the translation; every function takes the number of the next allocation and returns it.  Addresses are not reused
(simplification; the code frees the states which it drops).
-/

namespace Verif

/-- `class TRE` (monaa/tre.hh:14-112).  The constructor for `plus` drops a `plus` below it (tre.hh:36-41): see `TRE.mkPlus`. -/
inductive TRE (K : Type) where
  | atom (c : Alphabet)
  | epsilon
  | plus (e : TRE K)
  | concat (e f : TRE K)
  | disj (e f : TRE K)
  | conj (e f : TRE K)
  | within (e : TRE K) (I : Interval K)
  deriving DecidableEq, Repr

namespace TRE

variable {K : Type}

/-- The constructor for `plus` (monaa/tre.hh:36-41). -/
def mkPlus (e : TRE K) : TRE K :=
  match e with
  | .plus e' => .plus e'
  | e => .plus e

/-- `expr STAR` (monaa/tre_parser.yy:68-70). -/
def star (e : TRE K) : TRE K := .disj .epsilon (mkPlus e)

end TRE

/-- Replace every vector of transitions `l` of a state by `f l`. -/
def TAState.mapEdges {S : Type} (f : List (Transition S) → List (Transition S)) (s : TAState S) : TAState S :=
  { s with next := s.next.map fun p => (p.1, f p.2) }

/-- A loop over the states in `l` replacing each state by `f` of it.  The loops modelled by this read only parts of other states
which they do not change, and `l` has no duplicates. -/
def TA.mapSt {S : Type} [DecidableEq S] (A : TA S) (l : List S) (f : TAState S → TAState S) : TA S :=
  { A with st := fun a => if a ∈ l then f (A.st a) else A.st a }

/-- `std::iota` over a vector of `uint8_t`, and the conversions of `0, ..., n-1` to `uint8_t`. -/
def allClocks (n : Nat) : List Nat := (List.range n).map (· % 256)

/-- `resize` of both vectors to the larger size and pointwise maximum (monaa/tre.cc:86-96, 271-281); new entries are 0. -/
def maxVec : List Int → List Int → List Int
  | [], ys => ys.map (max 0)
  | x :: xs, [] => max x 0 :: maxVec xs []
  | x :: xs, y :: ys => max x y :: maxVec xs ys

namespace TA

/-- `target && target->isMatch`. -/
def isAcc (A : TA Nat) (e : Transition Nat) : Bool :=
  match e.target with
  | none => false
  | some q => (A.st q).isMatch

/-- The vector of transitions after the first loop of `concat2` (monaa/tre.cc:46-66). -/
def concatEdges (A : TA Nat) (rightInit : List Nat) (n : Nat) (es : List (Transition Nat)) : List (Transition Nat) :=
  es ++ es.flatMap fun e =>
    if A.isAcc e then rightInit.map fun i => { e with target := some i, resets := allClocks n } else []

/-- Is there a transition to an accepting state (so that the assignment to `zeroDuration` in monaa/tre.cc:60 is executed)? -/
def hasAccEdge (A : TA Nat) : Bool :=
  A.states.any fun s => (A.st s).next.any fun p => p.2.any A.isAcc

/-- `concat2` (monaa/tre.cc:41-97); both automata live on the heap of the second one. -/
def concat2 (left right : TA Nat) : TA Nat :=
  let left : TA Nat := { left with st := right.st }
  let acc := left.hasAccEdge
  let edges := left.mapSt left.states (TAState.mapEdges (left.concatEdges right.init right.clockSize))
  let flags := if acc then edges.mapSt right.init (fun s => { s with zeroDuration := false }) else edges
  let init := if left.init.any fun s => (left.st s).isMatch then left.init ++ right.init else left.init
  let nonacc := flags.mapSt left.states (fun s => { s with isMatch := false })
  { states := left.states ++ right.states
    init := init
    st := nonacc.st
    maxC := maxVec left.maxC right.maxC }

/-- Not accepting and without an entry in `next` (monaa/tre.cc:101-105). -/
def isStuck (A : TA Nat) (s : Nat) : Bool := !(A.st s).isMatch && (A.st s).next.isEmpty

/-- `stuckStates`; membership models `std::binary_search` in the sorted vector. -/
def stuck (A : TA Nat) : List Nat := A.states.filter A.isStuck

/-- The transitions of one state after the loops in monaa/tre.cc:116-130. -/
def dropStuck (bad : List Nat) (s : TAState Nat) : TAState Nat :=
  { s with next := (s.next.map fun p =>
      (p.1, p.2.filter fun e => match e.target with | none => true | some q => !decide (q ∈ bad))).filter fun p => !p.2.isEmpty }

/-- `removeStuckStates` (monaa/tre.cc:99-136). -/
def removeStuckStates (A : TA Nat) : TA Nat :=
  let bad := A.stuck
  let A' := A.mapSt A.states (dropStuck bad)
  { A' with
    states := A.states.filter fun s => !decide (s ∈ bad)
    init := A.init.filter fun s => !decide (s ∈ bad) }

/-- The loop of `reduceStates` (monaa/tre.cc:187-196), at most `fuel` times. -/
def reduceLoop : Nat → TA Nat → TA Nat
  | 0, A => A
  | fuel + 1, A =>
    if A.removeStuckStates.states.length = A.states.length then A.removeStuckStates else reduceLoop fuel A.removeStuckStates

/-- `reduceStates` (monaa/tre.cc:187-196).  Every round except the last one removes a state. -/
def reduceStates (A : TA Nat) : TA Nat := reduceLoop (A.states.length + 1) A

/-- `terminalAcceptingStates`, sorted by address (monaa/tre.cc:385-391). -/
def terminals (A : TA Nat) : List Nat :=
  (A.states.filter fun s => (A.st s).isMatch && (A.st s).next.isEmpty).insertionSort (· ≤ ·)

/-- `transition.target = terminalAcceptingStates.front().get()` if the target is one of them (monaa/tre.cc:392-404). -/
def redirect (ts : List Nat) (e : Transition Nat) : Transition Nat :=
  match e.target with
  | none => e
  | some q => if q ∈ ts then { e with target := ts.head? } else e

/-- Merging of the accepting states without transitions (monaa/tre.cc:384-431). -/
def mergeAccepting (A : TA Nat) : TA Nat :=
  let ts := A.terminals
  let A' := A.mapSt A.states (TAState.mapEdges fun es => es.map (redirect ts))
  match ts with
  | front :: x :: rest =>
    let others := x :: rest
    let init := A.init.insertionSort (· ≤ ·)
    let init := if front ∉ init ∧ (init.any fun s => decide (s ∈ others)) then init ++ [front] else init
    { A' with
      states := A.states.filter fun s => !decide (s ∈ others)
      init := init.filter fun s => !decide (s ∈ others) }
  | _ => A'

/-- The vector of transitions after the loop of the case `plus` (monaa/tre.cc:228-248). -/
def plusEdges (A : TA Nat) (es : List (Transition Nat)) : List (Transition Nat) :=
  es ++ es.flatMap fun e =>
    match e.target with
    | none => []
    | some q =>
      if (A.st q).isMatch && !(A.st q).zeroDuration then
        (A.init.filter fun i => !(A.st i).zeroDuration).map fun i =>
          { e with target := some i, resets := e.resets ++ allClocks A.clockSize }
      else []

/-- The case `plus` (monaa/tre.cc:225-252). -/
def plusTA (A : TA Nat) : TA Nat := A.mapSt A.states (TAState.mapEdges A.plusEdges)

/-- The case `disjunction` (monaa/tre.cc:261-283). -/
def disjTA (left right : TA Nat) : TA Nat :=
  { states := left.states ++ right.states
    init := left.init ++ right.init
    st := right.st
    maxC := maxVec left.maxC right.maxC }

/-- The address of the state made for the pair `p` by `intersectionTA` (libmonaa/intersection.cc:18-28), where `ps` are the pairs
in the order of their allocation. -/
def placeName {P : Type} [DecidableEq P] (alloc : Nat → Nat) (k : Nat) (ps : List P) (p : P) : Nat := alloc (k + ps.idxOf p)

/-- A state of the product with its targets replaced by addresses. -/
def renameState {P : Type} (name : P → Nat) (s : TAState P) : TAState Nat :=
  { isMatch := s.isMatch
    zeroDuration := s.zeroDuration
    next := s.next.map fun p => (p.1, p.2.map fun e => ⟨e.target.map name, e.resets, e.guard⟩) }

/-- The states of `P` put on the heap. -/
def place {P : Type} [DecidableEq P] (alloc : Nat → Nat) (k : Nat) (heap : Nat → TAState Nat) (A : TA P) : TA Nat :=
  { states := A.states.map (placeName alloc k A.states)
    init := A.init.map (placeName alloc k A.states)
    st := fun a =>
      match A.states.find? fun p => placeName alloc k A.states p == a with
      | some p => renameState (placeName alloc k A.states) (A.st p)
      | none => heap a
    maxC := A.maxC }

/-- The case `conjunction` (monaa/tre.cc:284-294). -/
def conjTA (alloc : Nat → Nat) (k : Nat) (left right : TA Nat) : TA Nat × Nat :=
  let left : TA Nat := { left with st := right.st }
  let P := left.intersection right
  (P.place alloc k right.st, k + P.states.length)

end TA

/-- Conversion of a bound (`double`) to `int`: truncation; infinity is undefined behaviour.  Integers have no size limit
(simplification). -/
def Bnd.toInt {K : Type} [Field K] [LinearOrder K] [FloorRing K] : Bnd K → Except Err Int
  | .fin c _ => .ok (if 0 ≤ c then ⌊c⌋ else ⌈c⌉)
  | .inf _ => .error .ub

/-- The flag of a bound. -/
def Bnd.flag {K : Type} : Bnd K → Bool
  | .fin _ s => s
  | .inf s => s

namespace TA

/-- The guard added by `within` (monaa/tre.cc:324-339). -/
def withinGuard (n : Nat) (u l : Int) (us ls : Bool) : List Constraint :=
  [⟨n % 256, if us then .le else .lt, u⟩, ⟨n % 256, if ls then .ge else .gt, l⟩]

/-- Must the dummy accepting state be used, i.e. is there a transition to an accepting state which has transitions
(monaa/tre.cc:340)?  The code then appends to the vector over which it iterates. -/
def needsDummy (A : TA Nat) : Bool :=
  A.states.any fun s => (A.st s).next.any fun p => p.2.any fun e =>
    match e.target with
    | none => false
    | some q => (A.st q).isMatch && !(A.st q).next.isEmpty

/-- The case `within` (monaa/tre.cc:295-381).  The branch with the dummy state is undefined behaviour (`emplace_back` on the
vector of the enclosing range-based loop); the dummy state is otherwise dropped. -/
def withinTA {K : Type} [Field K] [LinearOrder K] [FloorRing K] (A : TA Nat) (I : Interval K) : Except Err (TA Nat) :=
  let A1 : TA Nat := { A with init := A.init.filter fun s => !(A.st s).zeroDuration }
  let A2 := A1.mapSt A1.states fun s => { s with zeroDuration := false }
  match I.upper.toInt, I.lower.toInt with
  | .ok u, .ok l =>
    if A2.needsDummy then .error .ub
    else
      let g := withinGuard A.clockSize u l I.upper.flag I.lower.flag
      let A3 := A2.mapSt A2.states
        (TAState.mapEdges fun es => es.map fun e => if A2.isAcc e then { e with guard := e.guard ++ g } else e)
      let A4 := A3.mapSt A3.states fun s => if s.next.isEmpty then s else { s with isMatch := false }
      .ok { A4 with maxC := A.maxC ++ [u] }
  | _, _ => .error .ub

/-- The end of `toEventTA` (monaa/tre.cc:383-432). -/
def finish (A : TA Nat) : TA Nat := A.mergeAccepting.reduceStates

/-- The case `atom` (monaa/tre.cc:200-215). -/
def atomTA (alloc : Nat → Nat) (k : Nat) (heap : Nat → TAState Nat) (c : Alphabet) : TA Nat :=
  { states := [alloc k, alloc (k + 1)]
    init := [alloc k]
    st := fun a =>
      if a = alloc k then ⟨false, false, [(c, [⟨some (alloc (k + 1)), [], []⟩])]⟩
      else if a = alloc (k + 1) then ⟨true, false, []⟩
      else heap a
    maxC := [] }

/-- The case `epsilon` (monaa/tre.cc:216-224). -/
def epsilonTA (alloc : Nat → Nat) (k : Nat) (heap : Nat → TAState Nat) : TA Nat :=
  { states := [alloc k]
    init := [alloc k]
    st := fun a => if a = alloc k then ⟨true, true, []⟩ else heap a
    maxC := [] }

end TA

/-- `TRE::toEventTA` (monaa/tre.cc:198-433): the automaton, on the new heap, and the number of the next allocation. -/
def TRE.toEventTA {K : Type} [Field K] [LinearOrder K] [FloorRing K] (alloc : Nat → Nat) (heap : Nat → TAState Nat) (k : Nat) :
    TRE K → Except Err (TA Nat × Nat)
  | .atom c => .ok ((TA.atomTA alloc k heap c).finish, k + 2)
  | .epsilon => .ok ((TA.epsilonTA alloc k heap).finish, k + 1)
  | .plus e => do
    let (A, k) ← toEventTA alloc heap k e
    pure (A.plusTA.finish, k)
  | .concat e f => do
    let (A, k) ← toEventTA alloc heap k e
    let (B, k) ← toEventTA alloc A.st k f
    pure ((A.concat2 B).finish, k)
  | .disj e f => do
    let (A, k) ← toEventTA alloc heap k e
    let (B, k) ← toEventTA alloc A.st k f
    pure ((A.disjTA B).finish, k)
  | .conj e f => do
    let (A, k) ← toEventTA alloc heap k e
    let (B, k) ← toEventTA alloc A.st k f
    let (C, k) := A.conjTA alloc k B
    pure (C.finish, k)
  | .within e I => do
    let (A, k) ← toEventTA alloc heap k e
    let B ← A.withinTA I
    pure (B.finish, k + 1)

/-- Only the states of the automaton exist. -/
def TA.owned (A : TA Nat) : TA Nat := { A with st := fun a => if a ∈ A.states then A.st a else ⟨false, false, []⟩ }

/-- `TRE::toEventTA` called with an empty automaton.  The states which the translation dropped are freed when it returns
(`states` owns them, libmonaa/timed_automaton.hh:14-19). -/
def TRE.eventTA {K : Type} [Field K] [LinearOrder K] [FloorRing K] (alloc : Nat → Nat) (e : TRE K) : Except Err (TA Nat) :=
  (e.toEventTA alloc (fun _ => ⟨false, false, []⟩) 0).map (·.1.owned)

end Verif
