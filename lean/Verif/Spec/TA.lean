import Verif.Model.TA
import Verif.Spec.Constraint

/-!
# Runs of timed automata

The specification keeps, for each clock, the instant of its last reset; the value of a clock at
time `t` is the time passed since then.
-/

namespace Verif

variable {S K : Type} [Field K] [LinearOrder K]

/-- Timed words: labels with absolute times. -/
abbrev TWord (K : Type) := List (Alphabet × K)

/-- The reset instants after resetting `xs` at time `t`. -/
def resetAt (r : Nat → K) (xs : List Nat) (t : K) : Nat → K := fun x => if x ∈ xs then t else r x

namespace TA

/-- From state `s`, with last reset instants `r`, the automaton can read the events `w` one transition
per event and end in `s'`. -/
def Reads (A : TA S) : S → (Nat → K) → TWord K → S → Prop
  | s, _, [], s' => s = s'
  | s, r, (a, t) :: w, s' => ∃ e ∈ A.edges s a, ∃ q, e.target = some q ∧
      GuardHolds e.guard (fun x => t - r x) ∧ Reads A q (resetAt r e.resets t) w s'

/-- The automaton accepts `w`, started with all clocks 0 at time `t0`. -/
def AcceptsFrom (A : TA S) (t0 : K) (w : TWord K) : Prop :=
  ∃ s ∈ A.init, ∃ s', A.Reads s (fun _ => t0) w s' ∧ (A.st s').isMatch = true

/-- The automaton accepts the timed word `w`. -/
def Accepts (A : TA S) (w : TWord K) : Prop := A.AcceptsFrom 0 w

/-- Runs with silent moves: `now` is the current time. -/
inductive SReads (A : TA S) : S → (Nat → K) → K → TWord K → S → Prop
  | done (s r now) : SReads A s r now [] s
  | event {s r now a t w s'} (e : Transition S) (q : S) (he : e ∈ A.edges s a) (hq : e.target = some q)
      (ha : a ≠ epsilon) (ht : now ≤ t) (hg : GuardHolds e.guard (fun x => t - r x))
      (h : SReads A q (resetAt r e.resets t) t w s') : SReads A s r now ((a, t) :: w) s'
  | silent {s r now w s'} (t : K) (e : Transition S) (q : S) (he : e ∈ A.edges s epsilon)
      (hq : e.target = some q) (ht : now ≤ t) (hg : GuardHolds e.guard (fun x => t - r x))
      (h : SReads A q (resetAt r e.resets t) t w s') : SReads A s r now w s'

/-- Acceptance with silent moves. -/
def SAccepts (A : TA S) (w : TWord K) : Prop :=
  ∃ s ∈ A.init, ∃ s', A.SReads s (fun _ => 0) 0 w s' ∧ (A.st s').isMatch = true

/-- Every clock used in a guard or a reset of a transition is declared. -/
def ClocksDeclared (A : TA S) : Prop :=
  ∀ s a, ∀ e ∈ A.edges s a, (∀ g ∈ e.guard, g.x < A.clockSize) ∧ ∀ x ∈ e.resets, x < A.clockSize

/-- Initial states and targets of transitions of states are states of the automaton. -/
def Closed (A : TA S) : Prop :=
  (∀ s ∈ A.init, s ∈ A.states) ∧
  ∀ s ∈ A.states, ∀ a, ∀ e ∈ A.edges s a, ∀ q, e.target = some q → q ∈ A.states

end TA
end Verif

namespace Verif.TA

variable {S : Type}

/-- The transition map of every state has at most one entry per label (an invariant of
`std::unordered_map`). -/
def MapOk (A : TA S) : Prop := ∀ s, ((A.st s).next.map (·.1)).Nodup

/-- Both automata use the `zeroDuration` flag in the same constant way. -/
def SameFlag {T : Type} (A : TA S) (B : TA T) : Prop :=
  ∃ b, (∀ s ∈ A.states, (A.st s).zeroDuration = b) ∧ ∀ s ∈ B.states, (B.st s).zeroDuration = b

end Verif.TA
