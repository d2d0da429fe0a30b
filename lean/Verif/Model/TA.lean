import Verif.Model.Constraint
import Verif.Model.Err

/-!
# Model of timed automata (libmonaa/timed_automaton.hh, libmonaa/automaton.hh)

States are values of a type `S` of state names; a pointer `TAState*` is such a name, the null pointer
is `none`, and the heap is the function `TA.st`.
-/

namespace Verif

/-- `Alphabet = char` (libmonaa/common_types.hh), modelled by its code. -/
abbrev Alphabet := Nat

/-- The label of silent transitions (`'\0'`). -/
def epsilon : Alphabet := 0

/-- The end marker `'$'`. -/
def dollar : Alphabet := 36

/-- `struct TATransition` (libmonaa/timed_automaton.hh:42-49). -/
structure Transition (S : Type) where
  target : Option S
  resets : List Nat
  guard : List Constraint
  deriving DecidableEq, Repr

/-- `std::unordered_map<Alphabet, std::vector<TATransition>>` in some iteration order. -/
abbrev Next (S : Type) := List (Alphabet × List (Transition S))

/-- `struct TAState` (libmonaa/timed_automaton.hh:19-37). -/
structure TAState (S : Type) where
  isMatch : Bool
  zeroDuration : Bool
  next : Next S
  deriving DecidableEq, Repr

/-- `struct TimedAutomaton` (libmonaa/timed_automaton.hh:54-60). -/
structure TA (S : Type) where
  states : List S
  init : List S
  st : S → TAState S
  maxC : List Int

namespace Next

variable {S : Type}

/-- `find(c)`: `none` is `end()`. -/
def find (m : Next S) (c : Alphabet) : Option (List (Transition S)) :=
  (m.find? fun p => p.1 == c).map (·.2)

/-- The vector stored at `c`, empty if there is none. -/
def at' (m : Next S) (c : Alphabet) : List (Transition S) := (m.find c).getD []

/-- `m[c].push_back(e)`. -/
def push (m : Next S) (c : Alphabet) (e : Transition S) : Next S :=
  match m with
  | [] => [(c, [e])]
  | (d, l) :: m' => if d == c then (d, l ++ [e]) :: m' else (d, l) :: push m' c e

/-- The side effect of evaluating `m[c]`: an empty vector is inserted if there is no entry. -/
def touch (m : Next S) (c : Alphabet) : Next S :=
  if (m.find c).isSome then m else m ++ [(c, [])]

end Next

namespace TA

variable {S : Type}

/-- `clockSize` (libmonaa/timed_automaton.hh:95). -/
def clockSize (A : TA S) : Nat := A.maxC.length

/-- `s->next[c]` read through `find`. -/
def edges (A : TA S) (s : S) (c : Alphabet) : List (Transition S) := (A.st s).next.at' c

section isMember

variable {K : Type} [Field K] [LinearOrder K]

/-- `std::all_of` over the guard with `g.satisfy(config.second[g.x])`
(libmonaa/timed_automaton.hh:121-124); `valarray::operator[]` out of range is undefined. -/
def guardAll (g : List Constraint) (val : List K) : Except Err Bool :=
  match g with
  | [] => .ok true
  | c :: g => match val[c.x]? with
    | none => .error .ub
    | some d => if c.satisfy d then guardAll g val else .ok false

/-- The resets of one transition (libmonaa/timed_automaton.hh:128-130). -/
def resetAll (xs : List Nat) (val : List K) : Except Err (List K) :=
  match xs with
  | [] => .ok val
  | x :: xs => if x < val.length then resetAll xs (val.set x 0) else .error .ub

/-- The inner loop of `isMember` over the transitions (libmonaa/timed_automaton.hh:120-134). -/
def memberEdges (es : List (Transition S)) (val : List K) : Except Err (List (S × List K)) :=
  match es with
  | [] => .ok []
  | e :: es => do
    let b ← guardAll e.guard val
    let here ← match b, e.target with
      | true, some q => do
        let val' ← resetAll e.resets val
        pure [(q, val')]
      | _, _ => pure []
    let rest ← memberEdges es val
    pure (here ++ rest)

/-- The body for one configuration (libmonaa/timed_automaton.hh:111-135): the delay is added to all
clocks, then the transitions for the label are tried. -/
def memberConfig (A : TA S) (a : Alphabet) (d : K) (s : S) (val : List K) :
    Except Err (List (S × List K)) :=
  match (A.st s).next.find a with
  | none => .ok []
  | some es => memberEdges es (val.map (· + d))

/-- The loop over the configurations (libmonaa/timed_automaton.hh:110-135); `d` is the time since the
previous event. -/
def memberStep (A : TA S) (a : Alphabet) (d : K) (cs : List (S × List K)) :
    Except Err (List (S × List K)) :=
  match cs with
  | [] => .ok []
  | (s, val) :: cs => do
    let here ← memberConfig A a d s val
    let rest ← memberStep A a d cs
    pure (here ++ rest)

/-- The outer loop (libmonaa/timed_automaton.hh:108-137); `prev` is `w[i-1].second`, 0 at the start
(`config.second += w[0].second`). -/
def memberLoop (A : TA S) (prev : K) (cs : List (S × List K)) (w : List (Alphabet × K)) :
    Except Err Bool :=
  match w with
  | [] => .ok (cs.any fun p => (A.st p.1).isMatch)
  | (a, t) :: w => do
    let cs' ← memberStep A a (t - prev) cs
    memberLoop A t cs' w

/-- `isMember` (libmonaa/timed_automaton.hh:102-142). -/
def isMember (A : TA S) (w : List (Alphabet × K)) : Except Err Bool :=
  memberLoop A 0 (A.init.map fun s => (s, List.replicate A.clockSize 0)) w

end isMember

end TA
end Verif
