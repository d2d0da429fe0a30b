import Verif.Lemmas.Clusters
import Verif.Lemmas.ZAFinite
import Verif.Examples.Round

/-!
# C35: `removeDeadStates` for graphs with cycles
-/

namespace Verif.Props

variable {S K : Type} [Field K] [LinearOrder K] [IsStrictOrderedRing K] [DecidableEq S]

/-- **C35, what holds** (`_partial`: for graphs with cycles in which, for every live state which is not accepting, the last live state
among its successors, itself left aside, is nearer to an accepting state): exactly the reachable states from which an accepting state
can be reached are kept. -/
theorem za_dead_cycles_partial (Z : ZA S K) (hw : Z.WellFormed) (rank : Nat → Nat)
    (hlast : ∀ i, Z.Live i → Z.isMatch i = true ∨ ∃ pre l post, Z.succs i = pre ++ l :: post ∧ Z.Live l ∧ rank l < rank i ∧
      ∀ j ∈ post, j = i ∨ ¬ Z.Live j) (fuel : Nat) (alive : List Nat) (h : Z.liveStates fuel = .ok alive) (i : Nat) :
    i ∈ alive ↔ Z.Reachable i ∧ Z.Live i :=
  ⟨fun hi => ⟨ZA.liveStates_reachable h i hi, ZA.liveStates_sound h i hi⟩, fun ⟨h1, h2⟩ => ZA.liveStates_last hw hlast h h1 h2⟩

/-- **C35, what holds** (`_partial`: for the zone automata of patterns whose cycles have no guards and resets and are ordered): exactly
the reachable states from which an accepting state can be reached are kept. -/
theorem za_dead_pattern_partial (A : TA S) (hcl : A.Closed) (hM : A.MapOk) (hL : A.OrderedLoops) (fuel : Nat) (Z : ZA S K)
    (alive : List Nat) (hZ : ta2za fuel A ZA.none = .ok Z) (h : Z.liveStates fuel = .ok alive) (i : Nat) :
    i ∈ alive ↔ Z.Reachable i ∧ Z.Live i :=
  ⟨fun hi => ⟨ZA.liveStates_reachable h i hi, ZA.liveStates_sound h i hi⟩, fun ⟨h1, h2⟩ => live_of_clusters hcl hM hL Z alive hZ h i h1 h2⟩

/-- The hypotheses of `za_dead_pattern_partial` are met by `roundPattern`, whose cycle has two states: all five states are kept. -/
example : roundPattern.Closed ∧ roundPattern.MapOk ∧ roundPattern.OrderedLoops ∧
    ∃ Z : ZA Nat ℚ, ta2za 20 roundPattern ZA.none = .ok Z ∧ ∃ alive, Z.liveStates 20 = .ok alive ∧ 5 ≤ alive.length := by
  refine ⟨roundPattern_closed, roundPattern_mapOk, roundPattern_ordered, ?_⟩
  have : (match ta2za (K := ℚ) 20 roundPattern ZA.none with
      | .ok Z => (match Z.liveStates 20 with | .ok l => decide (5 ≤ l.length) | _ => false)
      | _ => false) = true := by decide +kernel
  split at this
  · rename_i Z hZ
    refine ⟨Z, hZ, ?_⟩
    split at this
    · rename_i l hl
      exact ⟨l, hl, by simpa using this⟩
    · cases this
  · cases this

/-- A cycle of two states, left from the second one by its last transition. -/
def cycleGraph : ZA Nat ℚ :=
  { nodes := [⟨0, Zone.zero 1 (.fin 0 true), false, [(65, 1)]⟩, ⟨1, Zone.zero 1 (.fin 0 true), false, [(66, 0), (66, 2)]⟩,
      ⟨2, Zone.zero 1 (.fin 0 true), true, []⟩]
    init := [0] }

/-- The hypotheses of `za_dead_cycles_partial` are met by a graph with a cycle of two states. -/
example : ∀ i, cycleGraph.Live i → cycleGraph.isMatch i = true ∨ ∃ pre l post, cycleGraph.succs i = pre ++ l :: post ∧
    cycleGraph.Live l ∧ (2 - l : Nat) < 2 - i ∧ ∀ j ∈ post, j = i ∨ ¬ cycleGraph.Live j := by
  have l2 : cycleGraph.Live 2 := ⟨[], 2, _, .nil _, rfl, rfl⟩
  have l1 : cycleGraph.Live 1 := ⟨[66], 2, _, .cons (j := 2) ⟨_, rfl, by simp⟩ (.nil _), rfl, rfl⟩
  intro i hi
  rcases i with _ | _ | _ | i
  · exact .inr ⟨[], 1, [], by decide +kernel, l1, by decide, by simp⟩
  · exact .inr ⟨[0], 2, [], by decide +kernel, l2, by decide, by simp⟩
  · exact .inl (by decide +kernel)
  · obtain ⟨w, j, n, hp, hj, -⟩ := hi
    exfalso
    cases hp with
    | nil => simp [cycleGraph] at hj
    | cons he _ => obtain ⟨n, hn, -⟩ := he; simp [cycleGraph] at hn

end Verif.Props
