import Verif.Model.Container
import Verif.Spec.TA

/-!
# Histories of the streaming container
-/

namespace Verif

variable {K : Type}

/-- A call of a method of the container. -/
inductive LazyOp where
  | fetch (n : Nat)
  | at' (n : Nat)
  | setFront (n : Nat)

/-- The container after the call; a call that throws leaves it as it was. -/
def LazyOp.exec (d : Lazy K) : LazyOp → Lazy K
  | .fetch n => (d.fetch n).2
  | .at' _ => d
  | .setFront n => match d.setFront n with
    | .ok d' => d'
    | .error _ => d

/-- The container made for the input `w`, after a sequence of calls. -/
def lazyAfter (w : TWord K) (ops : List LazyOp) : Lazy K := ops.foldl LazyOp.exec (Lazy.mk0 w)

/-- The first position which was not discarded by the calls: the greatest argument of `setFront`. -/
def discarded : List LazyOp → Nat
  | [] => 0
  | .setFront n :: ops => max n (discarded ops)
  | _ :: ops => discarded ops

end Verif
