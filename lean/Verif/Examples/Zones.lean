import Verif.Lemmas.ZATerm
import Verif.Lemmas.Sunday
import Verif.Lemmas.Monaa
import Mathlib.Data.Rat.Floor
import Mathlib.Tactic.NormNum

/-!
# Examples for zone automata
-/

namespace Verif.Props

/-- `0 -a{x0≥1}/x0→ 0`, `0 -$ {x1≥1}→ 1`: at least one second between two `a`, at least one in total. -/
def slowPattern : TA Nat :=
  { states := [0, 1], init := [0]
    st := fun s =>
      if s = 0 then ⟨false, false, [(97, [⟨some 0, [0], [⟨0, .ge, 1⟩]⟩]), (36, [⟨some 1, [], [⟨1, .ge, 1⟩]⟩])]⟩
      else if s = 1 then ⟨true, false, []⟩
      else ⟨false, false, []⟩
    maxC := [1, 1] }

theorem slow_mapOk : slowPattern.MapOk := by
  intro s
  simp only [slowPattern]
  split_ifs <;> simp

theorem slow_declared : slowPattern.ClocksDeclared := by
  intro s a e he
  simp only [TA.edges, slowPattern] at he
  split_ifs at he <;> simp only [Next.at'_cons, Next.at'_nil] at he <;> (try split_ifs at he) <;>
    simp at he <;> (try subst he) <;> simp [slowPattern, TA.clockSize]

theorem slow_closed : slowPattern.Closed := by
  refine ⟨by decide, ?_⟩
  intro s _ a e he q hq
  simp only [TA.edges, slowPattern] at he
  split_ifs at he <;> simp only [Next.at'_cons, Next.at'_nil] at he <;> (try split_ifs at he) <;>
    simp at he <;> (try subst he) <;> simp at hq <;> subst hq <;> decide

theorem slow_labels : slowPattern.LabelsOk := by
  intro s a h
  by_contra hc
  apply h
  simp only [TA.edges, slowPattern]
  have h1 : ¬ (97 : Nat) = a := by intro e; apply hc; subst e; decide
  have h2 : ¬ (36 : Nat) = a := by intro e; apply hc; subst e; decide
  split_ifs <;> simp [Next.at'_cons, Next.at'_nil, h1, h2]

/-- `0 → 1 → {2, 3}`, `2 → 1`, where 3 is accepting (the edge `1 → 2` comes first): the untimed shape of
`loopPattern`. -/
def loopGraph : ZA Nat ℚ :=
  { nodes := [⟨0, Zone.zero 1 (.fin 0 true), false, [(65, 1)]⟩, ⟨1, Zone.zero 1 (.fin 0 true), false, [(67, 2), (66, 3)]⟩,
      ⟨2, Zone.zero 1 (.fin 0 true), false, [(68, 1)]⟩, ⟨3, Zone.zero 1 (.fin 0 true), true, []⟩]
    init := [0] }

theorem loopGraph_run : loopGraph.liveStates 20 = .ok [3, 1, 0] := by decide +kernel

theorem loopGraph_wf : loopGraph.WellFormed := by
  refine ⟨by decide, ?_⟩
  intro i n hn p hp
  have hn' := List.mem_of_getElem? hn
  simp only [loopGraph, List.mem_cons, List.not_mem_nil, or_false] at hn'
  rcases hn' with rfl | rfl | rfl | rfl <;> simp at hp <;> (try rcases hp with rfl | rfl) <;> (try subst hp) <;>
    constructor <;> decide

end Verif.Props
