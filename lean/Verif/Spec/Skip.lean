import Verif.Spec.Match
import Verif.Model.Matcher

/-!
# When skip tables are right

The conditions under which moving the start position of the match by the amount in a table never jumps over the
start of a match.
-/

namespace Verif

variable {S K : Type} [Field K] [LinearOrder K]

/-- The letters handled by the tables: characters with code 1 to 126. -/
def LettersOk (w : TWord K) : Prop := ∀ e ∈ w, 1 ≤ e.1 ∧ e.1 < 127

/-- The pattern `A` matches exactly the events `u` (at least one), starting its clocks at `t` and ending at
`t'`. -/
structure TA.Fits (A : TA S) (t : K) (u : TWord K) (t' : K) : Prop where
  nonempty : u ≠ []
  letters : LettersOk u
  noMarker : ∀ e ∈ u, e.1 ≠ dollar
  start : 0 ≤ t ∧ ∀ e ∈ u, t < e.2
  sorted : u.Pairwise fun a b => a.2 < b.2
  stop : ∀ e ∈ u, e.2 < t'
  accepts : A.AcceptsFrom t (u ++ [(dollar, t')])

/-- `t` lies between the events before position `i` and the events from `i` on. -/
structure StartsAt (w : TWord K) (i : Nat) (t : K) : Prop where
  lt : i < w.length
  nonneg : 0 ≤ t
  before : ∀ e ∈ w.take i, e.2 ≤ t
  after : ∀ e ∈ w.drop i, t < e.2

/-- Every match has at least `m` events; its `m`-th event has a letter of `endChars`; a letter at position `p < m`
of a match is not skipped by more than `m - p`, and no letter by more than `m + 1`. -/
structure SundaySound (K : Type) [Field K] [LinearOrder K] (A : TA S) (T : Tables S) : Prop where
  m : 1 ≤ T.m
  size : T.delta.length = 127
  range : ∀ d ∈ T.delta, 1 ≤ d ∧ d ≤ T.m + 1
  length : ∀ (t : K) u t', A.Fits t u t' → T.m ≤ u.length
  last : ∀ (t : K) u t', A.Fits t u t' → ∀ e, u[T.m - 1]? = some e → e.1 ∈ T.endChars
  skip : ∀ (t : K) u t', A.Fits t u t' → ∀ p e d, p < T.m → u[p]? = some e → T.delta[e.1]? = some d → d ≤ T.m - p

/-- If the automaton, started somewhere before event `i`, may reach the state `s` after reading some events, no match
with at least one event starts before the events `i + k`, for `0 < k < beta s`. -/
def KMPSound (K : Type) [Field K] [LinearOrder K] (A : TA S) (T : Tables S) : Prop :=
  ∀ (w : TWord K), LogOk w → LogStrict w → LettersOk w → ∀ i j t s s₀, StartsAt w i t → s₀ ∈ A.init →
    A.Reads s₀ (fun _ => t) ((w.drop i).take j) s → ∀ b, T.beta s = some b → ∀ k, 0 < k → k < b →
    ¬ ∃ t₂ t₂', StartsAt w (i + k) t₂ ∧ between w t₂ t₂' ≠ [] ∧ A.Match w t₂ t₂'

namespace TA

/-- No transition leads back: there is a ranking of the states decreasing along every transition. -/
def Acyclic (A : TA S) : Prop :=
  ∃ rank : S → Nat, ∀ s a, ∀ e ∈ A.edges s a, ∀ q, e.target = some q → rank q < rank s

/-- The only cycles are loops at a state without guard and resets: there is a ranking of the states decreasing along every other
transition. -/
def PlainLoops (A : TA S) : Prop :=
  ∃ rank : S → Nat, ∀ s a, ∀ e ∈ A.edges s a, ∀ q, e.target = some q → rank q < rank s ∨ (q = s ∧ e.guard = [] ∧ e.resets = [])

/-- Guards with an upper bound (`<`, `≤`) are on clocks which were reset since the start: `F s x` tells that the clock `x`
is reset on every path to `s`. -/
def UpperAfterReset (A : TA S) : Prop :=
  ∃ F : S → Nat → Prop, (∀ s ∈ A.init, ∀ x, ¬ F s x) ∧
    ∀ s a, ∀ e ∈ A.edges s a, (∀ g ∈ e.guard, g.IsUpper → F s g.x) ∧
      ∀ q, e.target = some q → ∀ x, F q x → F s x ∨ x ∈ e.resets

/-- No clock is reset before `$`, and the guards before `$` hold for all values between `n` and `n + 1`; unless `n` is 0, they are only
on transitions after which `$` has to follow. -/
def OneWindow (A : TA S) : Prop :=
  ∃ n : Nat, ∀ s a, a ≠ dollar → ∀ e ∈ A.edges s a, e.resets = [] ∧
    (∀ g ∈ e.guard, (g.IsUpper → (n : Int) + 1 ≤ g.c) ∧ (¬ g.IsUpper → g.c ≤ n)) ∧
    (n = 0 ∨ e.guard = [] ∨ ∀ q, e.target = some q → ∀ b, ∀ e' ∈ A.edges q b, b = dollar)

/-- Patterns for which the KMP table is right: one of the two conditions above. -/
def Shiftable (A : TA S) : Prop := A.UpperAfterReset ∨ A.OneWindow

/-- Transitions to accepting states have no upper bounds (`<`, `≤`). -/
def FinalLower (A : TA S) : Prop :=
  ∀ s a, ∀ e ∈ A.edges s a, ∀ q, e.target = some q → (A.st q).isMatch = true → ∀ g ∈ e.guard, ¬ g.IsUpper

/-- No state has the flag `zeroDuration`. -/
def NoZeroDuration (A : TA S) : Prop := ∀ s ∈ A.states, (A.st s).zeroDuration = false

end TA

end Verif
