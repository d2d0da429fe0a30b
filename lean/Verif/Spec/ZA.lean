import Verif.Model.ZA
import Verif.Spec.TA
import Verif.Spec.Zone

/-!
# Paths in zone automata
-/

namespace Verif.ZA

variable {S K : Type}

/-- There is an edge labelled `c` from state `i` to state `j`. -/
def Edge (Z : ZA S K) (i : Nat) (c : Alphabet) (j : Nat) : Prop :=
  ∃ n, Z.nodes[i]? = some n ∧ (c, j) ∈ n.next

/-- A path from `i` to `j` reading the given labels. -/
inductive Path (Z : ZA S K) : Nat → List Alphabet → Nat → Prop
  | nil (i) : Path Z i [] i
  | cons {i c j l k} (h : Z.Edge i c j) (p : Path Z j l k) : Path Z i (c :: l) k

/-- An accepting state can be reached. -/
def Live (Z : ZA S K) (i : Nat) : Prop := ∃ (l : List Alphabet) (j : Nat) (n : ZNode S K), Z.Path i l j ∧ Z.nodes[j]? = some n ∧ n.isMatch = true

/-- A state on a path from an initial state. -/
def Reachable (Z : ZA S K) (i : Nat) : Prop := ∃ i₀ ∈ Z.init, ∃ l, Z.Path i₀ l i

/-- Initial states and edges refer to states, labels are in the range of the array. -/
def WellFormed (Z : ZA S K) : Prop :=
  (∀ i ∈ Z.init, i < Z.nodes.length) ∧
    ∀ (i : Nat) (n : ZNode S K), Z.nodes[i]? = some n → ∀ p ∈ n.next, p.1 < 127 ∧ p.2 < Z.nodes.length

/-- From the state `i`, at time `now` with last reset instants `r`, a run of the automaton `A` from its state `s` reads `u` and
ends in `s'`, while a path of the zone automaton reads the same labels and ends in `j`: at every point the state of the zone
automaton is labelled by the state of the run, and its zone contains the values of the clocks. -/
inductive Follows [Field K] [LinearOrder K] (Z : ZA S K) (A : TA S) : Nat → S → (Nat → K) → K → TWord K → S → Nat → Prop
  | stop {i s r now n} (hn : Z.nodes[i]? = some n) (hs : n.s = s) (hv : n.zone.Sat fun x => now - r x) :
      Follows Z A i s r now [] s i
  | step {i s r now n c t u q s' k j} (e : Transition S) (hn : Z.nodes[i]? = some n) (hs : n.s = s)
      (hv : n.zone.Sat fun x => now - r x) (he : e ∈ A.edges s c) (hq : e.target = some q)
      (hg : GuardHolds e.guard fun x => t - r x) (hk : Z.Edge i c k)
      (h : Follows Z A k q (resetAt r e.resets t) t u s' j) : Follows Z A i s r now ((c, t) :: u) s' j

end Verif.ZA

namespace Verif.TA

variable {S : Type}

/-- The labels of the transitions are characters with code 0 to 126. -/
def LabelsOk (A : TA S) : Prop := ∀ s a, A.edges s a ≠ [] → a < 127

end Verif.TA
