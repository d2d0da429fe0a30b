import Verif.Model.Intersection

/-!
# Model of the product of signal automata (libmonaa/intersection.cc:133-312)
-/

namespace Verif.TA

variable {S T : Type} [DecidableEq S] [DecidableEq T]

/-- The `push_back`s for one entry `(c, transitions)` of `s1->next` (libmonaa/intersection.cc:262-307): both
automata move with the letter `c`; then, if `s2->next` has an entry for `c`, silent transitions in which only one
of them moves. -/
def signalPushes (A : TA S) (B : TA T) (s1 : S) (s2 : T) (p : Alphabet × List (Transition S)) :
    List (Alphabet × Transition (S × T)) :=
  let n := A.clockSize
  match ((B.st s2).next.touch epsilon).find p.1 with
  | none => []
  | some es2 =>
    (p.2.flatMap fun e1 => match e1.target with
      | none => []
      | some q1 => es2.flatMap fun e2 => match e2.target with
        | none => []
        | some q2 => [(p.1, productTransition n (toIState A B (q1, q2)) e1.resets e1.guard e2.resets e2.guard)]) ++
    (p.2.flatMap fun e1 => match e1.target with
      | none => []
      | some q1 => [(epsilon, productTransition n (toIState A B (q1, s2)) e1.resets e1.guard [] [])]) ++
    (es2.flatMap fun e2 => match e2.target with
      | none => []
      | some q2 => [(epsilon, productTransition n (toIState A B (s1, q2)) [] [] e2.resets e2.guard)])

/-- The `push_back`s on the transitions of the pair `(s1, s2)` in program order
(libmonaa/intersection.cc:242-308). -/
def signalProductPushes (A : TA S) (B : TA T) (s1 : S) (s2 : T) : List (Alphabet × Transition (S × T)) :=
  let n := A.clockSize
  ((A.edges s1 epsilon).flatMap fun e1 => match e1.target with
    | none => []
    | some q1 => [(epsilon, productTransition n (toIState A B (q1, s2)) e1.resets e1.guard [] [])]) ++
  ((B.edges s2 epsilon).flatMap fun e2 => match e2.target with
    | none => []
    | some q2 => [(epsilon, productTransition n (toIState A B (s1, q2)) [] [] e2.resets e2.guard)]) ++
  ((A.st s1).next.touch epsilon).flatMap (signalPushes A B s1 s2)

/-- `intersectionSignalTA` (libmonaa/intersection.cc:164-312).  The `zeroDuration` flag of the new states is not
set.  Simplification: as in `intersection`. -/
def intersectionSignal (A : TA S) (B : TA T) : TA (S × T) :=
  { states := productStates A B A.states B.states
    init := productStates A B A.init B.init
    st := fun p =>
      { isMatch := (A.st p.1).isMatch && (B.st p.2).isMatch
        zeroDuration := false
        next := if (toIState A B p).isSome then
            (signalProductPushes A B p.1 p.2).foldl (fun m q => m.push q.1 q.2) []
          else [] }
    maxC := A.maxC ++ B.maxC }

end Verif.TA
