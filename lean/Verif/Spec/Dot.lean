import Verif.Model.Dot
import Verif.Spec.TA

/-!
# Meaning of the graphs read from files
-/

namespace Verif

variable {K : Type} [Field K] [LinearOrder K]

/-- A constant which fits in an `int`. -/
def FitsInt (c : Int) : Prop := -2147483648 ≤ c ∧ c ≤ 2147483647

/-- A guard as in the code: clock numbers are bytes, constants are `int`s. -/
def GuardFits (g : List Constraint) : Prop := ∀ c ∈ g, c.x < 256 ∧ FitsInt c.c

/-- Resets as in the code: clock numbers are bytes. -/
def ResetsFit (xs : List Nat) : Prop := ∀ x ∈ xs, x < 256

namespace DotGraph

/-- Edges connect vertices. -/
def Ok (G : DotGraph) : Prop := ∀ e ∈ G.edges, e.source < G.vertices.length ∧ e.target < G.vertices.length

/-- From vertex `v`, with last reset instants `r`, the graph can read the events and end in `v'`. -/
def Reads (G : DotGraph) : Nat → (Nat → K) → TWord K → Nat → Prop
  | v, _, [], v' => v = v'
  | v, r, (a, t) :: w, v' => ∃ e ∈ G.edges, e.source = v ∧ e.label = a ∧ GuardHolds e.guard (fun x => t - r x) ∧
      Reads G e.target (resetAt r e.resets t) w v'

/-- The graph accepts `w`, started at `t0`: a path from a vertex with `init=1` to a vertex with `match=1`. -/
def AcceptsFrom (G : DotGraph) (t0 : K) (w : TWord K) : Prop :=
  ∃ v m, G.vertices[v]? = some (true, m) ∧ ∃ v' i, G.Reads v (fun _ => t0) w v' ∧ G.vertices[v']? = some (i, true)

end DotGraph

/-- What an automaton needs to be printed: it owns its states, transitions lead to them, numbers fit in their types. -/
structure TA.Printable (A : TA Nat) : Prop where
  nodup : A.states.Nodup
  init : ∀ s ∈ A.init, s ∈ A.states
  keys : ∀ s ∈ A.states, ((A.st s).next.map (·.1)).Nodup
  target : ∀ s ∈ A.states, ∀ a, ∀ e ∈ A.edges s a, ∃ q ∈ A.states, e.target = some q
  guards : ∀ s ∈ A.states, ∀ a, ∀ e ∈ A.edges s a, GuardFits e.guard
  resets : ∀ s ∈ A.states, ∀ a, ∀ e ∈ A.edges s a, ResetsFit e.resets

end Verif
