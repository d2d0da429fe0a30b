import Verif.Spec.TA

/-!
# Restrictions under which the product of signal automata is right
-/

namespace Verif.TA

variable {S : Type}

/-- No state has an entry for the silent label. -/
def LettersOnly (A : TA S) : Prop := ∀ s, ∀ p ∈ (A.st s).next, p.1 ≠ epsilon

/-- All transitions from one state have the same letter: while the automaton is in that state, the signal has that
value. -/
def OneLetter (A : TA S) : Prop := ∀ s, ∀ p ∈ (A.st s).next, ∀ p' ∈ (A.st s).next, p.1 = p'.1

/-- Accepting states have no transitions. -/
def FinalStuck (A : TA S) : Prop := ∀ s, (A.st s).isMatch = true → (A.st s).next = []

end Verif.TA
