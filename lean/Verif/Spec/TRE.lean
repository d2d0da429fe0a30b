import Verif.Model.TRE
import Verif.Spec.TA
import Verif.Spec.Interval

/-!
# Meaning of timed regular expressions over events

`Den e t0 w`: the events `w`, with absolute times, match `e` when the match begins at `t0`.  The match ends at the time of its last
event (at `t0` if there is none).
-/

namespace Verif

variable {K : Type} [Field K] [LinearOrder K]

/-- The time of the last event. -/
def endTime (t0 : K) (w : TWord K) : K := (w.getLast?.map (·.2)).getD t0

/-- One or more consecutive matches of `P`. -/
inductive Repeat (P : K → TWord K → Prop) : K → TWord K → Prop
  | one {t0 w} (h : P t0 w) : Repeat P t0 w
  | more {t0 u v} (h : P t0 u) (hr : Repeat P (endTime t0 u) v) : Repeat P t0 (u ++ v)

namespace TRE

/-- The events `w` match the expression from `t0` on. -/
def Den : TRE K → K → TWord K → Prop
  | .atom c, _, w => ∃ t, w = [(c, t)]
  | .epsilon, _, w => w = []
  | .plus e, t0, w => Repeat (Den e) t0 w
  | .concat e f, t0, w => ∃ u v, w = u ++ v ∧ Den e t0 u ∧ Den f (endTime t0 u) v
  | .disj e f, t0, w => Den e t0 w ∨ Den f t0 w
  | .conj e f, t0, w => Den e t0 w ∧ Den f t0 w
  | .within e I, t0, w => Den e t0 w ∧ I.Mem (endTime t0 w - t0)

/-- The language of an expression. -/
def Lang (e : TRE K) (w : TWord K) : Prop := Den e 0 w

/-- The number of clocks of the translation. -/
def clocks : TRE K → Nat
  | .atom _ => 0
  | .epsilon => 0
  | .plus e => clocks e
  | .concat e f => max (clocks e) (clocks f)
  | .disj e f => max (clocks e) (clocks f)
  | .conj e f => clocks e + clocks f
  | .within e _ => clocks e + 1

/-- An end of an interval given by an integer. -/
def IsInt (b : Bnd K) : Prop := ∃ (c : Int) (s : Bool), b = .fin (c : K) s

/-- What the parser guarantees of letters, together with two restrictions: the time restrictions have (integer) upper ends, and
the clocks fit in a `uint8_t`. -/
def Plain : TRE K → Prop
  | .atom c => c ≠ Verif.epsilon
  | .epsilon => True
  | .plus e => Plain e
  | .concat e f => Plain e ∧ Plain f
  | .disj e f => Plain e ∧ Plain f
  | .conj e f => Plain e ∧ Plain f ∧ clocks e + clocks f ≤ 256
  | .within e I => Plain e ∧ clocks e < 256 ∧ IsInt I.lower ∧ IsInt I.upper

/-- The integer ends of the time restrictions satisfy `P`. -/
def Consts (P : Int → Prop) : TRE K → Prop
  | .atom _ => True
  | .epsilon => True
  | .plus e => Consts P e
  | .concat e f => Consts P e ∧ Consts P f
  | .disj e f => Consts P e ∧ Consts P f
  | .conj e f => Consts P e ∧ Consts P f
  | .within e I => Consts P e ∧ ∀ (c : Int) (s : Bool), I.lower = .fin (c : K) s ∨ I.upper = .fin (c : K) s → P c

/-- The empty word matches. -/
def Nullable : TRE K → Prop
  | .atom _ => False
  | .epsilon => True
  | .plus e => Nullable e
  | .concat e f => Nullable e ∧ Nullable f
  | .disj e f => Nullable e ∨ Nullable f
  | .conj e f => Nullable e ∧ Nullable f
  | .within e I => Nullable e ∧ I.Mem 0

/-- The empty word is only used below concatenation and choice: repetition, intersection and time restriction are applied to
expressions which do not match the empty word; an expression which matches the empty word does not follow one which matches nothing. -/
def Regular : TRE K → Prop
  | .atom _ => True
  | .epsilon => True
  | .plus e => Regular e ∧ ¬ Nullable e
  | .concat e f => Regular e ∧ Regular f ∧ (Nullable f → ∃ t0 w, Den e t0 w)
  | .disj e f => Regular e ∧ Regular f
  | .conj e f => Regular e ∧ Regular f ∧ ¬ Nullable e ∧ ¬ Nullable f
  | .within e _ => Regular e ∧ ¬ Nullable e

/-- No use of the empty word. -/
def EpsilonFree : TRE K → Prop
  | .atom _ => True
  | .epsilon => False
  | .plus e => EpsilonFree e
  | .concat e f => EpsilonFree e ∧ EpsilonFree f
  | .disj e f => EpsilonFree e ∧ EpsilonFree f
  | .conj e f => EpsilonFree e ∧ EpsilonFree f
  | .within e _ => EpsilonFree e

end TRE
end Verif
