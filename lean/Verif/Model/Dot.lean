import Verif.Model.TA
import Mathlib.Data.List.Dedup
import Mathlib.Data.List.Sort

/-!
# Model of printing and loading automata (libmonaa/constraint.hh:48-70, libmonaa/timed_automaton.hh:146-206,
monaa/timed_automaton_parser.hh)

Attributes are lists of characters.  They are read by `boost::lexical_cast`, i.e. from a stream which does not skip white space
and has to be read to its end.  Boost's parser of the DOT language itself is not modelled: a file is the list of its statements.
-/

namespace Verif

/-! ## Printing -/

/-- `os << n` for an `int`. -/
def showInt (n : Int) : List Char :=
  if n < 0 then '-' :: Nat.toDigits 10 n.natAbs else Nat.toDigits 10 n.natAbs

/-- `operator<<` for `Constraint::Order` (libmonaa/constraint.hh:48-66). -/
def Ord.show : Ord → List Char
  | .lt => ['<']
  | .le => ['<', '=']
  | .ge => ['>', '=']
  | .gt => ['>']

/-- `operator<<` for `Constraint` (libmonaa/constraint.hh:68-71). -/
def Constraint.show (g : Constraint) : List Char :=
  'x' :: showInt g.x ++ ' ' :: g.odr.show ++ ' ' :: showInt g.c

/-- The loops which print the elements separated by `", "` (libmonaa/timed_automaton.hh:178-185, 190-197,
monaa/timed_automaton_parser.hh:24-35). -/
def showItems : List (List Char) → List Char
  | [] => []
  | [x] => x
  | x :: y :: l => x ++ ',' :: ' ' :: showItems (y :: l)

/-- The same with the braces. -/
def showList (l : List (List Char)) : List Char := '{' :: showItems l ++ ['}']

/-- `os << g` for a guard (monaa/timed_automaton_parser.hh:22-36; libmonaa/timed_automaton.hh:177-186 prints the same). -/
def showGuard (g : List Constraint) : List Char := showList (g.map Constraint.show)

/-- The resets as printed by the printer of automata (libmonaa/timed_automaton.hh:189-198): `os << int(var)`. -/
def showResets (xs : List Nat) : List Char := showList (xs.map fun x : Nat => showInt x)

/-- `os << resetVars` for `struct ResetVars` (monaa/timed_automaton_parser.hh:233-237): the elements are printed by `os << g` with
`g` a `uint8_t`, i.e. as characters. -/
def showResetVars (xs : List Nat) : List Char := showList (xs.map fun x => [Char.ofNat x])

/-! ## Reading -/

/-- What reading from a stream does: undefined behaviour, `failbit` set (`none`), or a value and the rest of the stream. -/
abbrev Scan (α : Type) := Except Err (Option (α × List Char))

/-- An optional sign; `true` for a minus. -/
def scanSign : List Char → Bool × List Char
  | '-' :: s => (true, s)
  | '+' :: s => (false, s)
  | s => (false, s)

/-- `is >> n` for an `int`, without skipping white space: an optional sign and the longest sequence of digits; fails if there
is no digit or the value does not fit. -/
def scanInt (s : List Char) : Option (Int × List Char) :=
  match (scanSign s).2.takeWhile Char.isDigit with
  | [] => none
  | ds =>
    let v : Int := if (scanSign s).1 then -(Nat.ofDigitChars 10 ds 0 : Int) else Nat.ofDigitChars 10 ds 0
    if -2147483648 ≤ v ∧ v ≤ 2147483647 then some (v, (scanSign s).2.dropWhile Char.isDigit) else none

/-- `is.get() != c` sets `failbit`. -/
def expect (c : Char) (s : List Char) : Option (List Char) :=
  match s with
  | d :: s => if d = c then some s else none
  | [] => none

/-- The order and the blank after it (monaa/timed_automaton_parser.hh:56-90).  If the stream ends, `odr` is read although it is
not initialised. -/
def scanOrd (s : List Char) : Scan Ord :=
  match s with
  | [] => .error .ub
  | ['>'] => .error .ub
  | ['<'] => .error .ub
  | '>' :: '=' :: s => .ok ((expect ' ' s).map fun s => (.ge, s))
  | '>' :: ' ' :: s => .ok (some (.gt, s))
  | '<' :: '=' :: s => .ok ((expect ' ' s).map fun s => (.le, s))
  | '<' :: ' ' :: s => .ok (some (.lt, s))
  | _ => .ok none

/-- `operator>>` for `Constraint` (monaa/timed_automaton_parser.hh:38-95); `p.x = x` converts to `uint8_t`. -/
def scanConstraint (s : List Char) : Scan Constraint :=
  match expect 'x' s with
  | none => .ok none
  | some s => match scanInt s with
    | none => .ok none
    | some (x, s) => match expect ' ' s with
      | none => .ok none
      | some s => match scanOrd s with
        | .error e => .error e
        | .ok none => .ok none
        | .ok (some (o, s)) => match scanInt s with
          | none => .ok none
          | some (c, s) => .ok (some (⟨(x % 256).toNat, o, c⟩, s))

/-- `ClockVariables(x)` for an element of a reset set (monaa/timed_automaton_parser.hh:132-138). -/
def scanClock (s : List Char) : Scan Nat :=
  .ok ((scanInt s).map fun p => ((p.1 % 256).toNat, p.2))

/-- The loop of the readers of vectors (monaa/timed_automaton_parser.hh:131-156, 176-198).  At the end of the stream the
variable `c` is read although it is not initialised. -/
def scanItems {α : Type} (item : List Char → Scan α) : Nat → List Char → Scan (List α)
  | 0, _ => .error .fuel
  | fuel + 1, s => match item s with
    | .error e => .error e
    | .ok none => .ok none
    | .ok (some (x, s)) => match s with
      | [] => .error .ub
      | '}' :: s => .ok (some ([x], s))
      | ',' :: s => match expect ' ' s with
        | none => .ok none
        | some s => match scanItems item fuel s with
          | .error e => .error e
          | .ok none => .ok none
          | .ok (some (l, s)) => .ok (some (x :: l, s))
      | _ => .ok none

/-- The readers of vectors (monaa/timed_automaton_parser.hh:112-158, 160-201).  Every round of the loop reads a character. -/
def scanList {α : Type} (item : List Char → Scan α) (s : List Char) : Scan (List α) :=
  match expect '{' s with
  | none => .ok none
  | some s => scanItems item (s.length + 1) s

/-- `boost::lexical_cast`: everything has to be read; otherwise an exception is thrown.  The empty attribute gives the default
value (`boost::dynamic_property_map`). -/
def readAttr {α : Type} (item : List Char → Scan α) (s : List Char) : Except Err (List α) :=
  match s with
  | [] => .ok []
  | s => match scanList item s with
    | .error e => .error e
    | .ok (some (l, [])) => .ok l
    | .ok _ => .error .message

def readGuard (s : List Char) : Except Err (List Constraint) := readAttr scanConstraint s

def readResets (s : List Char) : Except Err (List Nat) := readAttr scanClock s

/-! ## Graphs -/

/-- An edge of a `BoostTimedAutomaton` (monaa/timed_automaton_parser.hh:244-249). -/
structure DotEdge where
  source : Nat
  target : Nat
  label : Alphabet
  resets : List Nat
  guard : List Constraint
  deriving DecidableEq, Repr

/-- A `BoostTimedAutomaton` (monaa/timed_automaton_parser.hh:239-253): the vertices are `0, 1, ...`, given by `isInit` and
`isMatch`; the edges are in the order in which they were added. -/
structure DotGraph where
  vertices : List (Bool × Bool)
  edges : List DotEdge
  deriving DecidableEq, Repr

/-- `TA.maxConstraints` after the loop over a guard (monaa/timed_automaton_parser.hh:300-304). -/
def addConst (m : List Int) (g : Constraint) : List Int :=
  let m := m ++ List.replicate (g.x + 1 - m.length) 0
  m.set g.x (max (m.getD g.x 0) g.c)

/-- One round of the loop over the edges (monaa/timed_automaton_parser.hh:290-308). -/
def convEdge (alloc : Nat → Nat) (A : TA Nat) (e : DotEdge) : TA Nat :=
  { A with
    st := fun a =>
      if a = alloc e.source then
        { A.st a with next := (A.st a).next.push e.label ⟨some (alloc e.target), e.resets, e.guard⟩ }
      else A.st a
    maxC := e.guard.foldl addConst A.maxC }

/-- The states (monaa/timed_automaton_parser.hh:272-285). -/
def convStates (alloc : Nat → Nat) (G : DotGraph) : TA Nat :=
  { states := (List.range G.vertices.length).map alloc
    init := ((List.range G.vertices.length).filter fun v => (G.vertices.getD v (false, false)).1).map alloc
    st := fun a =>
      match (List.range G.vertices.length).find? fun v => alloc v == a with
      | some v => ⟨(G.vertices.getD v (false, false)).2, false, []⟩
      | none => ⟨false, false, []⟩
    maxC := [] }

/-- `convBoostTA` (monaa/timed_automaton_parser.hh:270-313): `alloc v` is the address of the state of vertex `v`.  The loop visits
the vertices in order, and for each its edges in the order in which they were added. -/
def convBoostTA (alloc : Nat → Nat) (G : DotGraph) : TA Nat :=
  ((List.range G.vertices.length).flatMap fun v => G.edges.filter fun e => e.source == v).foldl (convEdge alloc) (convStates alloc G)

/-! ## Printed automata -/

/-- A statement of the printed file.  Attributes which are not printed are empty. -/
inductive DotStmt where
  /-- `loc<n> [init=<init>, match=<isMatch>, zero_duration=<zeroDuration>]` -/
  | node (n : Nat) (init isMatch zeroDuration : Bool)
  /-- `loc<s>->loc<t> [label="<label>", guard="<guard>", reset="<reset>"]` -/
  | edge (s t : Nat) (label : Alphabet) (guard reset : List Char)
  deriving DecidableEq, Repr

/-- `stateNumber.at(p)` (libmonaa/timed_automaton.hh:151-158): the null pointer and other addresses throw `out_of_range`.  (The
later of two entries for the same state would win; the states are different.) -/
def stateNumber (A : TA Nat) (p : Option Nat) : Except Err Nat :=
  match p with
  | none => .error .outOfRange
  | some a => if a ∈ A.states then .ok (A.states.idxOf a + 1) else .error .outOfRange

/-- One edge of the printed file (libmonaa/timed_automaton.hh:171-199). -/
def showEdge (A : TA Nat) (s : Nat) (c : Alphabet) (e : Transition Nat) : Except Err DotStmt := do
  let n ← stateNumber A (some s)
  let m ← stateNumber A e.target
  pure (.edge n m c (if e.guard.isEmpty then [] else showGuard e.guard) (if e.resets.isEmpty then [] else showResets e.resets))

/-- `operator<<` for automata (libmonaa/timed_automaton.hh:146-206). -/
def showTA (A : TA Nat) : Except Err (List DotStmt) := do
  let nodes := A.states.map fun s =>
    DotStmt.node (A.states.idxOf s + 1) (decide (s ∈ A.init)) (A.st s).isMatch (A.st s).zeroDuration
  let edges ← (A.states.flatMap fun s => (A.st s).next.flatMap fun p => p.2.map fun e => (s, p.1, e)).mapM
    fun x => showEdge A x.1 x.2.1 x.2.2
  pure (nodes ++ edges)

/-- The nodes mentioned in a statement. -/
def DotStmt.names : DotStmt → List Nat
  | .node n _ _ _ => [n]
  | .edge s t _ _ _ => [s, t]

/-- The nodes of a file: `boost::read_graphviz` keeps them in a `std::map`, hence in the order of their names as strings. -/
def fileNames (l : List DotStmt) : List Nat :=
  (l.flatMap DotStmt.names).dedup.insertionSort fun m n => showInt m ≤ showInt n

/-- The attributes which the statement gives to node `n`. -/
def DotStmt.attrs (n : Nat) : DotStmt → Option (Bool × Bool)
  | .node m i f _ => if m = n then some (i, f) else none
  | .edge .. => none

/-- The attributes `init` and `match` of a node: the last declaration counts; the default is `false`.  Other attributes such as
`zero_duration` are ignored. -/
def nodeAttrs (l : List DotStmt) (n : Nat) : Bool × Bool :=
  (l.filterMap (DotStmt.attrs n)).getLast?.getD (false, false)

/-- The edges of a file. -/
def readEdges (names : List Nat) : List DotStmt → Except Err (List DotEdge)
  | [] => .ok []
  | .node .. :: l => readEdges names l
  | .edge s t c g r :: l => do
    let g ← readGuard g
    let r ← readResets r
    let es ← readEdges names l
    pure (⟨names.idxOf s, names.idxOf t, c, r, g⟩ :: es)

/-- `parseBoostTA` (monaa/timed_automaton_parser.hh:255-268) on the statements of a file.  Labels are read by
`lexical_cast<char>`; they are assumed to be single characters which need no quoting. -/
def parseBoostTA (l : List DotStmt) : Except Err DotGraph := do
  let names := fileNames l
  let es ← readEdges names l
  pure ⟨names.map (nodeAttrs l), es⟩

/-- Loading a file (monaa/main.cc:114-120). -/
def loadTA (alloc : Nat → Nat) (l : List DotStmt) : Except Err (TA Nat) := do
  let G ← parseBoostTA l
  pure (convBoostTA alloc G)

end Verif
