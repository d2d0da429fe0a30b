import Verif.Lemmas.Constraint
import Mathlib.Data.Rat.Floor
import Mathlib.Tactic.NormNum

/-!
# Properties of guards (C36)
-/

set_option linter.unusedSectionVars false

namespace Verif.Props

variable {K : Type*} [Field K] [LinearOrder K] [IsStrictOrderedRing K]

/-- **C36.** `satisfy` is the printed comparison. -/
theorem constraint_satisfy_iff (g : Constraint) (d : K) : g.satisfy d = true ↔ g.Holds d :=
  g.satisfy_iff d

/-- **C36.** Three-way result on a clock vector: `EQ` iff the comparison holds; if it fails, `GT` tells
that the value is on the upper side of the constant of an upper bound and `LT` that it is on the lower
side of the constant of a lower bound; clocks outside of the vector throw. -/
theorem constraint_compare (g : Constraint) (val : List K) :
    (val.length ≤ g.x → g.compare val = none) ∧
    (∀ d, val[g.x]? = some d →
      (g.compare val = some .EQ ↔ g.Holds d) ∧
      (g.compare val = some .GT ↔ ¬ g.Holds d ∧ g.IsUpper) ∧
      (g.compare val = some .LT ↔ ¬ g.Holds d ∧ ¬ g.IsUpper) ∧
      (g.compare val = some .GT → (g.c : K) ≤ d) ∧ (g.compare val = some .LT → d ≤ (g.c : K))) := by
  constructor
  · intro h
    simp [Constraint.compare, List.getElem?_eq_none h]
  · intro d hd
    rcases g with ⟨x, o, c⟩
    simp only at hd
    simp only [Constraint.compare, hd, Constraint.Holds, Constraint.satisfy, Constraint.IsUpper]
    rcases o with _ | _ | _ | _ <;> simp <;> (try split) <;> simp_all
    all_goals first | done | exact le_of_lt ‹_›

/-- **C36.** `widen` keeps exactly the upper bounds; so it never strengthens a guard, and a guard of upper
bounds is unchanged. -/
theorem constraint_widen (g : List Constraint) :
    (∀ c, c ∈ widen g ↔ c ∈ g ∧ c.IsUpper) ∧
    (∀ v : Nat → K, GuardHolds g v → GuardHolds (widen g) v) ∧
    ((∀ c ∈ g, c.IsUpper) → widen g = g) ∧
    (∀ v w : Nat → K, (∀ x, w x ≤ v x) → GuardHolds (widen g) v → GuardHolds (widen g) w) := by
  refine ⟨fun c => mem_widen, fun v h c hc => h c (mem_widen.1 hc).1, fun h => ?_, ?_⟩
  · rw [widen, List.filter_eq_self]
    intro c hc
    rcases h c hc with e | e <;> simp [e]
  · intro v w hw h c hc
    have hu := (mem_widen.1 hc).2
    have hv := h c hc
    have hx := hw c.x
    rcases hu with e | e <;> simp only [Constraint.Holds, e] at hv ⊢ <;> simp at hv ⊢
    · exact lt_of_le_of_lt hx hv
    · exact le_trans hx hv

/-- Instance: `x0 > 1, x0 <= 3` on the vector `[4]`. -/
example : (⟨0, .le, 3⟩ : Constraint).compare [(4 : ℚ)] = some .GT ∧ (⟨0, .gt, 4⟩ : Constraint).compare [(4 : ℚ)] = some .LT ∧
    (⟨1, .gt, 4⟩ : Constraint).compare [(4 : ℚ)] = none ∧
    widen [⟨0, .gt, 1⟩, ⟨0, .le, 3⟩] = [⟨0, .le, 3⟩] := by decide +kernel

end Verif.Props
