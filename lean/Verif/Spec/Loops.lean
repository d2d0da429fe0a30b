import Verif.Spec.Skip

/-!
# Automata with cycles of several states

The cycles are made of transitions without guard and resets.  What follows is about patterns such as `((ab)+c%(1,2))$`.
-/

namespace Verif.TA

variable {S : Type}

/-- A transition on a cycle has neither guard nor resets: the levels do not increase along the transitions, and a transition to a state
of the same level is free. -/
def PlainCycles (A : TA S) : Prop :=
  ∃ level : S → Nat, ∀ s ∈ A.states, ∀ a, ∀ e ∈ A.edges s a, ∀ q, e.target = some q →
    level q < level s ∨ (level q = level s ∧ e.guard = [] ∧ e.resets = [])

/-- The transition leads to a state of a level below `k`. -/
def Leaves (level : S → Nat) (k : Nat) (e : Transition S) : Prop := ∃ q, e.target = some q ∧ level q < k

/-- In addition to `PlainCycles`: a state without transitions has level 0; any other state is not accepting and has transitions on one
letter only, the list of which ends with those which leave the level; if there is none, the last transition leads to a state of the same
level which is nearer to one with such a transition.  Two states of a level which both have transitions leaving the level have the same
ones.  If a state has transitions on `$`, so do the other states of its level. -/
def OrderedLoops (A : TA S) : Prop :=
  ∃ (level dist : S → Nat), ∀ s ∈ A.states, ((A.st s).next = [] ∧ level s = 0) ∨
    ((A.st s).isMatch = false ∧ 0 < level s ∧ ∃ c es, (A.st s).next = [(c, es)] ∧
      (∀ e ∈ es, ∀ q, e.target = some q → level q < level s ∨ (level q = level s ∧ e.guard = [] ∧ e.resets = [])) ∧
      (es.Pairwise fun e f => Leaves level (level s) e → Leaves level (level s) f) ∧
      ((∃ e ∈ es, Leaves level (level s) e) ∨
        ∃ es' e q, es = es' ++ [e] ∧ e.target = some q ∧ level q = level s ∧ dist q < dist s) ∧
      ∀ t ∈ A.states, ∀ c' fs, level t = level s → (A.st t).next = [(c', fs)] →
        ((∃ f ∈ fs, Leaves level (level s) f) → ∀ e ∈ es, Leaves level (level s) e → e ∈ fs) ∧ (c = dollar → c' = dollar))

/-- One of the two conditions on cycles. -/
def LoopsOk (A : TA S) : Prop := A.PlainLoops ∨ A.OrderedLoops

end Verif.TA
