import Verif.Spec.Constraint
import Mathlib.Tactic.Linarith

set_option linter.unusedSectionVars false

namespace Verif

variable {K : Type*} [Field K] [LinearOrder K] [IsStrictOrderedRing K]

theorem Constraint.satisfy_iff (g : Constraint) (d : K) : g.satisfy d = true ↔ g.Holds d := by
  rcases g with ⟨x, _ | _ | _ | _, c⟩ <;> simp [Constraint.satisfy, Constraint.Holds]

theorem mem_widen {g : List Constraint} {c : Constraint} :
    c ∈ widen g ↔ c ∈ g ∧ c.IsUpper := by
  rcases c with ⟨x, _ | _ | _ | _, n⟩ <;> simp [widen, Constraint.IsUpper]

end Verif
