import Verif.Model.TA

/-!
# Model of the product construction (libmonaa/intersection.cc)
-/

namespace Verif.TA

variable {S T : Type} [DecidableEq S] [DecidableEq T]

/-- Renaming of a clock of the second automaton, `v += in1.clockSize()` on a `uint8_t`
(libmonaa/intersection.cc:68, 78). -/
def shiftClock (n x : Nat) : Nat := (x + n) % 256

/-- `addProductTransition` without the final `push_back` (libmonaa/intersection.cc:53-79). -/
def productTransition (n : Nat) (target : Option (S × T)) (r1 : List Nat) (g1 : List Constraint)
    (r2 : List Nat) (g2 : List Constraint) : Transition (S × T) :=
  { target := target
    resets := r1 ++ r2.map (shiftClock n)
    guard := g1 ++ g2.map fun g => { g with x := shiftClock n g.x } }

/-- `toIState[(s1, s2)]`: the pairs with equal `zeroDuration` get a state, all others are null
(libmonaa/intersection.cc:18-28). -/
def toIState (A : TA S) (B : TA T) (p : S × T) : Option (S × T) :=
  if p.1 ∈ A.states ∧ p.2 ∈ B.states ∧ (A.st p.1).zeroDuration = (B.st p.2).zeroDuration then some p
  else none

/-- The `push_back`s on the transitions of the pair `(s1, s2)` in program order
(libmonaa/intersection.cc:90-128).  Reading `s1->next[0]` and `s2->next[0]` inserts empty entries in
the arguments (`touch`). -/
def productPushes (A : TA S) (B : TA T) (s1 : S) (s2 : T) : List (Alphabet × Transition (S × T)) :=
  let n := A.clockSize
  ((A.edges s1 epsilon).flatMap fun e1 => match e1.target with
    | none => []
    | some q1 => [(epsilon, productTransition n (toIState A B (q1, s2)) e1.resets e1.guard [] [])]) ++
  ((B.edges s2 epsilon).flatMap fun e2 => match e2.target with
    | none => []
    | some q2 => [(epsilon, productTransition n (toIState A B (s1, q2)) [] [] e2.resets e2.guard)]) ++
  (((A.st s1).next.touch epsilon).flatMap fun p => p.2.flatMap fun e1 => match e1.target with
    | none => []
    | some q1 => match ((B.st s2).next.touch epsilon).find p.1 with
      | none => []
      | some es2 => es2.flatMap fun e2 => match e2.target with
        | none => []
        | some q2 => [(p.1, productTransition n (toIState A B (q1, q2)) e1.resets e1.guard e2.resets e2.guard)])

/-- The pairs for which a state is made (libmonaa/intersection.cc:18-28). -/
def productStates (A : TA S) (B : TA T) (l1 : List S) (l2 : List T) : List (S × T) :=
  l1.flatMap fun s1 => l2.flatMap fun s2 =>
    if (A.st s1).zeroDuration = (B.st s2).zeroDuration then [(s1, s2)] else []

/-- `intersectionTA` (libmonaa/intersection.cc:9-131).  Simplification: `toIState` of a pair of initial
states is the pair itself (the code pushes a null pointer if an initial state is not a state). -/
def intersection (A : TA S) (B : TA T) : TA (S × T) :=
  { states := productStates A B A.states B.states
    init := productStates A B A.init B.init
    st := fun p =>
      { isMatch := (A.st p.1).isMatch && (B.st p.2).isMatch
        zeroDuration := (A.st p.1).zeroDuration
        next := if (toIState A B p).isSome then
            (productPushes A B p.1 p.2).foldl (fun m q => m.push q.1 q.2) []
          else [] }
    maxC := A.maxC ++ B.maxC }

end Verif.TA
