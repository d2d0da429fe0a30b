import Verif.Model.Answers
import Verif.Spec.Match

/-!
# Histories of output containers, and the meaning of the printed text
-/

namespace Verif

variable {K : Type}

/-- A call of a method of the container. -/
inductive AnsOp (K : Type) where
  | push (z : Zone K)
  | clear
  | reserve (n : Nat)

/-- The container after the call. -/
def AnsOp.exec {σ : Type} (C : AnsCont K σ) (s : σ) : AnsOp K → σ
  | .push z => C.push s z
  | .clear => C.clear s
  | .reserve n => C.reserve s n

/-- The container after a sequence of calls. -/
def ansAfter {σ : Type} (C : AnsCont K σ) (s : σ) (ops : List (AnsOp K)) : σ := ops.foldl (AnsOp.exec C) s

/-- Is it a call of `clear`? -/
def AnsOp.isClear : AnsOp K → Bool
  | .clear => true
  | _ => false

/-- The zones pushed since the last call of `clear`. -/
def pushedZones : List (AnsOp K) → List (Zone K)
  | [] => []
  | .push z :: ops => if ops.any AnsOp.isClear then pushedZones ops
      else z :: pushedZones ops
  | _ :: ops => pushedZones ops

/-- All the zones pushed. -/
def allPushed : List (AnsOp K) → List (Zone K)
  | [] => []
  | .push z :: ops => z :: allPushed ops
  | _ :: ops => allPushed ops

section meaning
variable [Field K] [LinearOrder K]

/-- `lower ≺ x ≺ upper`, as it is printed. -/
def between' (lower : Bnd K) (x : K) (upper : Bnd K) : Prop :=
  (match lower with
    | .fin c true => c ≤ x
    | .fin c false => c < x
    | .inf _ => False) ∧
  (match upper with
    | .fin c true => x ≤ c
    | .fin c false => x < c
    | .inf _ => True)

/-- The pair `(t, t')` satisfies the line. -/
def OutLine.Holds (t t' : K) : OutLine K → Prop
  | .row lower name upper =>
    (name = "t" → between' lower t upper) ∧ (name = "t'" → between' lower t' upper) ∧
      (name = "t' - t" → between' lower (t' - t) upper)
  | .separator => True

end meaning

end Verif
