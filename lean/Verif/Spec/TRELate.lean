import Verif.Spec.TRE

/-!
# Conditions for the completeness of matching expressions
-/

namespace Verif.TRE

variable {K : Type} [Field K] [LinearOrder K]

/-- A letter, or a repetition of it. -/
def Letter : TRE K → Prop
  | .atom _ => True
  | .plus e => Letter e
  | _ => False

/-- Only letters are repeated. -/
def LetterLoops : TRE K → Prop
  | .atom _ => True
  | .epsilon => True
  | .plus e => Letter e
  | .concat e f => LetterLoops e ∧ LetterLoops f
  | .disj e f => LetterLoops e ∧ LetterLoops f
  | .conj e f => LetterLoops e ∧ LetterLoops f
  | .within e _ => LetterLoops e

/-- No time restrictions, no intersections, no `()`, no `$`. -/
def Untimed : TRE K → Prop
  | .atom c => c ≠ dollar
  | .epsilon => False
  | .plus e => Untimed e
  | .concat e f => Untimed e ∧ Untimed f
  | .disj e f => Untimed e ∧ Untimed f
  | .conj _ _ => False
  | .within _ _ => False

/-- Only such expressions are repeated; no intersections. -/
def UntimedLoops : TRE K → Prop
  | .atom _ => True
  | .epsilon => True
  | .plus e => Untimed e
  | .concat e f => UntimedLoops e ∧ UntimedLoops f
  | .disj e f => UntimedLoops e ∧ UntimedLoops f
  | .conj _ _ => False
  | .within e _ => UntimedLoops e

/-- The expression does not end with a repetition. -/
def EndsPlain : TRE K → Prop
  | .atom _ => True
  | .epsilon => True
  | .plus _ => False
  | .concat _ f => EndsPlain f
  | .disj e f => EndsPlain e ∧ EndsPlain f
  | .conj _ _ => False
  | .within e _ => EndsPlain e

/-- Only letters are repeated, or only expressions without time restrictions, not at the end. -/
def LoopsOk (e : TRE K) : Prop := e.LetterLoops ∨ (e.UntimedLoops ∧ e.EndsPlain)

/-- No time restriction starts at the begin of the match. -/
def Late : TRE K → Prop
  | .atom _ => True
  | .epsilon => True
  | .plus e => Late e
  | .concat e _ => Late e
  | .disj e f => Late e ∧ Late f
  | .conj e f => Late e ∧ Late f
  | .within _ _ => False

/-- No time restriction starts inside of the match, and all times strictly between `n` and `n + 1` satisfy all restrictions; unless `n` is
0, they also end with the match. -/
def Window (n : Nat) : TRE K → Prop
  | .atom _ => True
  | .epsilon => True
  | .plus e => e.clocks = 0
  | .concat e f => Window n e ∧ f.clocks = 0 ∧ (n = 0 ∨ e.clocks = 0)
  | .disj e f => Window n e ∧ Window n f
  | .conj e f => e.clocks = 0 ∧ f.clocks = 0
  | .within e I => Window n e ∧ ∀ x : K, (n : K) < x → x < n + 1 → I.Mem x

/-- An expression of this kind followed by `$`. -/
def Windowed : TRE K → Prop
  | .concat e (.atom c) => c = dollar ∧ ∃ n, Window n e
  | _ => False

/-- No intersection is at the begin of the match, except below a disjunction. -/
def FrontSorted : TRE K → Prop
  | .atom _ => True
  | .epsilon => True
  | .plus e => FrontSorted e
  | .concat e _ => FrontSorted e
  | .disj _ _ => True
  | .conj _ _ => False
  | .within e _ => FrontSorted e

end Verif.TRE
