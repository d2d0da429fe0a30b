import Verif.Spec.DNF

/-!
# Conditions on expressions for `makeSNF`
-/

namespace Verif.TRE

variable {K : Type} [Field K] [LinearOrder K]

/-- Built from the letter `c`, without the empty word; conjunctions are allowed. -/
def BuiltFrom (c : Alphabet) : TRE K → Prop
  | .atom c' => c' = c
  | .epsilon => False
  | .plus e => BuiltFrom c e
  | .concat e f => BuiltFrom c e ∧ BuiltFrom c f
  | .disj e f => BuiltFrom c e ∧ BuiltFrom c f
  | .conj e f => BuiltFrom c e ∧ BuiltFrom c f
  | .within e _ => BuiltFrom c e

/-- The time restrictions have finite lower ends which are not negative.  (The parser makes no others.) -/
def FiniteLower : TRE K → Prop
  | .atom _ => True
  | .epsilon => True
  | .plus e => FiniteLower e
  | .concat e f => FiniteLower e ∧ FiniteLower f
  | .disj e f => FiniteLower e ∧ FiniteLower f
  | .conj e f => FiniteLower e ∧ FiniteLower f
  | .within e I => FiniteLower e ∧ ∃ l s, I.lower = .fin l s ∧ 0 ≤ l

end Verif.TRE
