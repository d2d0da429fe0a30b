import Verif.Model.Matcher
import Verif.Spec.TA
import Verif.Spec.Match

/-!
# Another unit of time

All constants and all times are multiplied by a positive whole number `k`.
-/

namespace Verif

variable {S K : Type}

/-- The constraint with its constant multiplied. -/
def Constraint.scale (k : Int) (g : Constraint) : Constraint := { g with c := k * g.c }

/-- The transition with the constants of its guard multiplied. -/
def Transition.scale (k : Int) (e : Transition S) : Transition S := { e with guard := e.guard.map (Constraint.scale k) }

/-- The map of transitions with all constants multiplied. -/
def Next.scale (k : Int) (m : Next S) : Next S := m.map fun p => (p.1, p.2.map (Transition.scale k))

/-- The state with all constants multiplied. -/
def TAState.scale (k : Int) (s : TAState S) : TAState S := { s with next := Next.scale k s.next }

/-- The automaton with all constants multiplied. -/
def TA.scale (k : Int) (A : TA S) : TA S :=
  { states := A.states, init := A.init, st := fun s => (A.st s).scale k, maxC := A.maxC.map (k * ·) }

/-- The log with all times multiplied. -/
def scaleLog [Mul K] [IntCast K] (k : Int) (w : TWord K) : TWord K := w.map fun e => (e.1, (k : K) * e.2)

/-- The bound multiplied. -/
def Bnd.scale [Mul K] [IntCast K] (k : Int) : Bnd K → Bnd K
  | .fin c s => .fin ((k : K) * c) s
  | .inf s => .inf s

/-- The zone with all bounds multiplied. -/
def Zone.scale [Mul K] [IntCast K] (k : Int) (z : Zone K) : Zone K :=
  { n := z.n, cells := z.cells.map fun r => r.map (Bnd.scale k), M := z.M.scale k }

/-- The results `r` and, in the other unit, `r'` agree: the same error, or as many zones, and the zones at the same position
contain the same pairs, expressed in the two units. -/
def UnitAgree [Field K] [LinearOrder K] (k : Int) (r r' : Except Err (List (Zone K))) : Prop :=
  match r, r' with
  | .ok zs, .ok zs' => List.Forall₂ (fun z z' => ∀ t t', z'.Has ((k : K) * t) ((k : K) * t') ↔ z.Has t t') zs zs'
  | .error x, .error x' => x = x'
  | _, _ => False

end Verif
