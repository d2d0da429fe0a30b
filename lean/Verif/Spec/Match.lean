import Verif.Spec.TA
import Verif.Spec.Zone

/-!
# Timed pattern matching

The answer to the problem "find the pattern `A` in the log `w`": the pairs of instants `(t, t')` such that the
events strictly between `t` and `t'`, followed by the end marker `$` at `t'`, are accepted by `A`
when its clocks start at `t`.
-/

namespace Verif

variable {S K : Type} [Field K] [LinearOrder K]

/-- A log: instants are not negative and do not decrease, and the end marker does not occur. -/
structure LogOk (w : TWord K) : Prop where
  nonneg : ∀ e ∈ w, 0 ≤ e.2
  sorted : w.Pairwise fun a b => a.2 ≤ b.2
  noMarker : ∀ e ∈ w, e.1 ≠ dollar

/-- Moreover no two events happen at the same instant, and none at instant 0. -/
def LogStrict (w : TWord K) : Prop := (∀ e ∈ w, 0 < e.2) ∧ w.Pairwise fun a b => a.2 < b.2

/-- The events strictly between `t` and `t'`. -/
def between (w : TWord K) (t t' : K) : TWord K := w.filter fun e => decide (t < e.2 ∧ e.2 < t')

/-- `(t, t')` is a match of the pattern `A` in the log `w`. -/
def TA.Match (A : TA S) (w : TWord K) (t t' : K) : Prop :=
  0 ≤ t ∧ t ≤ t' ∧ A.AcceptsFrom t (between w t t' ++ [(dollar, t')])

/-- The letter of the first event at or after `t'`: the value at `t'` of the signal whose segments end at the events. -/
def letterAt (w : TWord K) (t' : K) : Option Alphabet := ((w.filter fun e => decide (t' ≤ e.2)).head?).map (·.1)

/-- `(t, t')` is a match of the pattern `A` in the log `w` read as a signal: the segments which end strictly between `t` and
`t'`, and the segment cut off at `t'`. -/
def TA.SignalMatch (A : TA S) (w : TWord K) (t t' : K) : Prop :=
  0 ≤ t ∧ t ≤ t' ∧ ∃ a, letterAt w t' = some a ∧ A.AcceptsFrom t (between w t t' ++ [(a, t')])

/-- `(t, t')` is a match of the pattern `A` in the log `w` which ends at an event: the automaton, started at `t`, is in an
accepting state when it has read the events after `t` up to some event at `t'`. -/
def TA.ReachMatch (A : TA S) (w : TWord K) (t t' : K) : Prop :=
  0 ≤ t ∧ t < t' ∧ ∃ pre a post, w = pre ++ (a, t') :: post ∧
    A.AcceptsFrom t (pre.filter (fun e => decide (t < e.2)) ++ [(a, t')])

/-- As `SignalMatch`, and the pattern may take silent transitions at any instants before, between and after the segments
which it reads, up to `t'`. -/
def TA.SilentMatch (A : TA S) (w : TWord K) (t t' : K) : Prop :=
  0 ≤ t ∧ t ≤ t' ∧ ∃ a, letterAt w t' = some a ∧ ∃ s ∈ A.init, ∃ s',
    A.SReads s (fun _ => t) t (between w t t' ++ [(a, t')]) s' ∧ (A.st s').isMatch = true

/-- No silent transition resets a clock. -/
def TA.SilentKeep (A : TA S) : Prop := ∀ s, ∀ e ∈ A.edges s epsilon, e.resets = []

/-- States which do not belong to the automaton have no transitions. -/
def TA.Tidy (A : TA S) : Prop := ∀ s, s ∉ A.states → (A.st s).next = []

/-- No state has an entry for the silent label. -/
def TA.NoSilent (A : TA S) : Prop := ∀ s ∈ A.states, (A.st s).next.find epsilon = none

/-- The zone, over the two variables (begin, end), contains the pair `(t, t')`. -/
def Zone.Has (z : Zone K) (t t' : K) : Prop := z.Sat fun i => if i = 0 then t else t'

end Verif
