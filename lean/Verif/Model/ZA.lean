import Verif.Model.TA
import Verif.Model.Zone

/-!
# Model of zone automata (libmonaa/ta2za.cc, libmonaa/zone_automaton.hh)

The states of a zone automaton are kept in a list in the order of their creation; a pointer to a state is its index
in this list.
-/

namespace Verif

variable {S K : Type}

/-- `struct ZAState` (libmonaa/zone_automaton.hh:9-26). `next` is the array of vectors as a list of pairs
(label, state). -/
structure ZNode (S K : Type) where
  s : S
  zone : Zone K
  isMatch : Bool
  next : List (Alphabet × Nat)

/-- `struct ZoneAutomaton` (libmonaa/zone_automaton.hh:55). -/
structure ZA (S K : Type) where
  nodes : List (ZNode S K)
  init : List Nat

/-- The initial value of a `ZoneAutomaton` variable. -/
def ZA.none : ZA S K := ⟨[], []⟩

section ta2za
variable [Field K] [LinearOrder K] [DecidableEq S]

/-- The `switch` on the guards (libmonaa/ta2za.cc:82-97).  A clock without row in the matrix is undefined
behaviour. -/
def zoneGuard (n : Nat) (z : Zone K) : List Constraint → Except Err (Zone K)
  | [] => .ok z
  | g :: gs =>
    if g.x < n then
      zoneGuard n (match g.odr with
        | .lt => z.tighten (g.x + 1) 0 (.fin (g.c : K) false)
        | .le => z.tighten (g.x + 1) 0 (.fin (g.c : K) true)
        | .gt => z.tighten 0 (g.x + 1) (.fin (-(g.c : K)) false)
        | .ge => z.tighten 0 (g.x + 1) (.fin (-(g.c : K)) true)) gs
    else .error .ub

/-- The resets (libmonaa/ta2za.cc:100-102). -/
def zoneReset (n : Nat) (z : Zone K) : List Nat → Except Err (Zone K)
  | [] => .ok z
  | x :: xs => if x < n then zoneReset n (z.reset x) xs else .error .ub

/-- The successor zone along one transition, from the zone after `elapse` (libmonaa/ta2za.cc:77-104); `none` if it
is not satisfiable. -/
def zoneSucc (n : Nat) (now : Zone K) (e : Transition S) : Except Err (Option (Zone K)) := do
  let z ← zoneGuard n now e.guard
  let (b, z) := z.isSatisfiable
  if b then do
    let z ← zoneReset n z e.resets
    .ok (some z.abstractize.canonize)
  else .ok none

/-- `find_if` with `operator==` (libmonaa/ta2za.cc:24-28, 106-110, libmonaa/zone_automaton.hh:23-25). -/
def findNode (nodes : List (ZNode S K)) (q : S) (z : Zone K) : Option Nat :=
  nodes.findIdx? fun n => decide (n.s = q) && n.zone.beq z

/-- `conf->next[c].push_back(j)`. -/
def pushEdge (nodes : List (ZNode S K)) (i : Nat) (c : Alphabet) (j : Nat) : List (ZNode S K) :=
  nodes.modify i fun n => { n with next := n.next ++ [(c, j)] }

/-- The body of the loop over the transitions (libmonaa/ta2za.cc:77-128) for the state `i`, with the list of the states
and `nextConf`.  `next` is an array of size `CHAR_MAX`. -/
def expandEdge (A : TA S) (i : Nat) (now : Zone K) (c : Alphabet) (e : Transition S)
    (st : List (ZNode S K) × List Nat) : Except Err (List (ZNode S K) × List Nat) :=
  match e.target with
  | none => .ok st
  | some q => do
    let r ← zoneSucc A.clockSize now e
    match r with
    | none => .ok st
    | some z =>
      if c < 127 then
        match findNode st.1 q z with
        | some j => .ok (pushEdge st.1 i c j, st.2)
        | none =>
          .ok (pushEdge (st.1 ++ [⟨q, z, (A.st q).isMatch, []⟩]) i c st.1.length, st.2 ++ [st.1.length])
      else .error .ub

/-- The transitions of a state with their labels in the order of the loops (libmonaa/ta2za.cc:74-76). -/
def outEdges (A : TA S) (s : S) : List (Alphabet × Transition S) :=
  (A.st s).next.flatMap fun p => p.2.map fun e => (p.1, e)

/-- The loop over the transitions of a state (libmonaa/ta2za.cc:71-130). -/
def expandNode (A : TA S) (i : Nat) (st : List (ZNode S K) × List Nat) :
    Except Err (List (ZNode S K) × List Nat) :=
  match st.1[i]? with
  | none => .ok st   -- not reached: `i` is the index of a state
  | some n =>
    let now := n.zone.elapse
    (outEdges A n.s).foldlM (fun st p => expandEdge A i now p.1 p.2 st) st

/-- The breadth first search (libmonaa/ta2za.cc:67-132). -/
def expandAll (A : TA S) : Nat → List (ZNode S K) → List Nat → Except Err (List (ZNode S K))
  | 0, _, _ => .error .fuel
  | fuel + 1, nodes, conf =>
    if conf.isEmpty then .ok nodes
    else do
      let (nodes, next) ← conf.foldlM (fun st i => expandNode A i st) (nodes, [])
      expandAll A fuel nodes next

/-- The bound `M` (libmonaa/ta2za.cc:40-46). -/
def maxBound (A : TA S) : Bnd K :=
  match A.maxC with
  | [] => .fin 0 true
  | c :: cs => .fin ((cs.foldl max c : Int) : K) true

/-- `ta2za` (libmonaa/ta2za.cc:15-133) with the default value of `initialZone`. -/
def ta2za (fuel : Nat) (A : TA S) (Z : ZA S K) : Except Err (ZA S K) :=
  let z0 : Zone K := Zone.zero (A.clockSize + 1) (maxBound A)
  let init := A.init.filter fun s => (findNode Z.nodes s z0).isNone
  if init.isEmpty then .ok Z
  else do
    let fresh := (List.range init.length).map (Z.nodes.length + ·)
    let nodes := Z.nodes ++ init.map fun s => ⟨s, z0, (A.st s).isMatch, []⟩
    let nodes ← expandAll A fuel nodes fresh
    .ok { nodes := nodes, init := Z.init ++ fresh }

end ta2za

namespace ZA

/-- Insertion before the first pair whose label is not smaller. -/
def insertLabel (p : Alphabet × Nat) : List (Alphabet × Nat) → List (Alphabet × Nat)
  | [] => [p]
  | q :: l => if p.1 ≤ q.1 then p :: q :: l else q :: insertLabel p l

/-- The targets of the edges of a state, over all labels in increasing order
(`for (const auto &edges : conf.first->next)`); those of a label in the order in which they were added. -/
def succs (Z : ZA S K) (i : Nat) : List Nat :=
  match Z.nodes[i]? with
  | .none => []
  | some n => ((n.next.filter fun p => decide (p.1 < 127)).foldr insertLabel []).map (·.2)

/-- `state->next[c]`. -/
def succsOf (Z : ZA S K) (i : Nat) (c : Alphabet) : List Nat :=
  match Z.nodes[i]? with
  | .none => []
  | some n => (n.next.filter fun p => p.1 == c).map (·.2)

/-- `state->isMatch`. -/
def isMatch (Z : ZA S K) (i : Nat) : Bool :=
  match Z.nodes[i]? with
  | .none => false
  | some n => n.isMatch

/-- The loop over the edges of the popped state (libmonaa/zone_automaton.hh:75-92), with `reachable` and the
stack. -/
def deadEdges (i : Nat) (parents : List Nat) : List Nat → List Nat → List (Nat × List Nat) →
    List Nat × List (Nat × List Nat)
  | [], reach, stack => (reach, stack)
  | j :: js, reach, stack =>
    if i ∈ parents then deadEdges i parents js reach stack
    else if j ∈ reach then deadEdges i parents js (reach ++ i :: parents) stack
    else deadEdges i parents js reach ((j, i :: parents) :: stack)

/-- The depth first search of `removeDeadStates` (libmonaa/zone_automaton.hh:68-93). Sets are lists. -/
def deadLoop (Z : ZA S K) : Nat → List (Nat × List Nat) → List Nat → Except Err (List Nat)
  | 0, _, _ => .error .fuel
  | _ + 1, [], reach => .ok reach
  | fuel + 1, (i, parents) :: stack, reach =>
    let reach := if Z.isMatch i then reach ++ i :: parents else reach
    let (reach, stack) := deadEdges i parents (Z.succs i) reach stack
    deadLoop Z fuel stack reach

/-- `removeDeadStates` (libmonaa/zone_automaton.hh:59-110): the set of the states which are kept.  The last initial
state is on top of the stack. -/
def liveStates (Z : ZA S K) (fuel : Nat) : Except Err (List Nat) :=
  deadLoop Z fuel (Z.init.reverse.map fun i => (i, [])) []

/-- `updateInitAccepting` (libmonaa/zone_automaton.hh:116-133). -/
def updateInitAccepting [DecidableEq S] (Z : ZA S K) (A : TA S) : ZA S K :=
  { nodes := Z.nodes.map fun n => { n with isMatch := (A.st n.s).isMatch }
    init := (List.range Z.nodes.length).filter fun i => match Z.nodes[i]? with
      | .none => false
      | some n => decide (n.s ∈ A.init) }

/-- The inner loops of `empty` over the edges (libmonaa/zone_automaton.hh:146-155): `nextStates` and
`visited`. -/
def visitSuccs : List Nat → List Nat → List Nat → List Nat × List Nat
  | [], next, visited => (next, visited)
  | j :: js, next, visited =>
    if j ∈ visited then visitSuccs js next visited
    else visitSuccs js (next ++ [j]) (visited ++ [j])

/-- One round of `empty` (libmonaa/zone_automaton.hh:142-156); `none`: an accepting state was found. -/
def emptyRound (Z : ZA S K) : List Nat → List Nat → List Nat → Option (List Nat × List Nat)
  | [], next, visited => some (next, visited)
  | i :: is, next, visited =>
    if Z.isMatch i then Option.none
    else
      let (next, visited) := visitSuccs (Z.succs i) next visited
      emptyRound Z is next visited

/-- The loop of `empty` (libmonaa/zone_automaton.hh:140-158).  Every round but the last visits a new state,
so one round more than there are states is enough (shown by the theorem on `empty`). -/
def emptyLoop (Z : ZA S K) : Nat → List Nat → List Nat → Bool
  | 0, _, _ => true
  | fuel + 1, cur, visited =>
    if cur.isEmpty then true
    else match emptyRound Z cur [] visited with
      | .none => false
      | some (next, visited) => emptyLoop Z fuel next visited

/-- `empty` (libmonaa/zone_automaton.hh:136-160). -/
def empty (Z : ZA S K) : Bool := emptyLoop Z (Z.nodes.length + 2) Z.init Z.init

/-- The loop of `epsilonClosure` (libmonaa/zone_automaton.hh:43-52) with the queue `waiting`; `alive` tells which
weak pointers can be locked.  At most one round per state is needed. -/
def closureLoop (Z : ZA S K) (alive : List Nat) : Nat → List Nat → List Nat → List Nat
  | 0, _, closure => closure
  | _ + 1, [], closure => closure
  | fuel + 1, i :: waiting, closure =>
    let (new, closure) := visitSuccs ((Z.succsOf i epsilon).filter fun j => decide (j ∈ alive)) [] closure
    closureLoop Z alive fuel (waiting ++ new) closure

/-- `epsilonClosure` (libmonaa/zone_automaton.hh:39-53) of one state. -/
def epsilonClosure (Z : ZA S K) (alive : List Nat) (i : Nat) : List Nat :=
  closureLoop Z alive (Z.nodes.length + 1) [i] [i]

end ZA
end Verif
