import Verif.Model.TA

/-!
# Model of `TimedAutomaton::deepCopy` (libmonaa/timed_automaton.hh:68-93)

Addresses are natural numbers.  The heap is the function `TA.st`; `alloc k` is the address of the `k`-th state made by
`make_shared` during the call.
-/

namespace Verif

/-- `m[k] = v`. -/
def update {V : Type} (m : Nat → V) (k : Nat) (v : V) : Nat → V := fun a => if a = k then v else m a

/-- The heap, `old2new` and `dest.states` during the call.  `old2new a = none`: there is no entry. -/
structure CopyState where
  heap : Nat → TAState Nat
  old2new : Nat → Option Nat
  states : List Nat

/-- The first loop (libmonaa/timed_automaton.hh:74-77). -/
def copyLoop (alloc : Nat → Nat) (c : CopyState) : List Nat → Nat → CopyState
  | [], _ => c
  | old :: l, k =>
    copyLoop alloc
      { heap := update c.heap (alloc k) (c.heap old)
        old2new := update c.old2new old (some (alloc k))
        states := c.states ++ [alloc k] } l (k + 1)

/-- `edge.target = old2new[oldTarget].get()` (libmonaa/timed_automaton.hh:87-88); without an entry (in particular for the null
pointer) `operator[]` inserts a null pointer. -/
def retarget (old2new : Nat → Option Nat) (e : Transition Nat) : Transition Nat :=
  { e with target := e.target.bind old2new }

/-- The body of the last loop (libmonaa/timed_automaton.hh:85-90). -/
def retargetState (old2new : Nat → Option Nat) (heap : Nat → TAState Nat) (a : Nat) : Nat → TAState Nat :=
  update heap a { heap a with next := (heap a).next.map fun p => (p.1, p.2.map (retarget old2new)) }

/-- `deepCopy` (libmonaa/timed_automaton.hh:68-93): the copy (on the new heap) and `old2new`.  An initial state which is not a
state would become a null pointer in `dest.initialStates`: the outcome is then `ub`, since every use of the copy dereferences
it. -/
def deepCopy (alloc : Nat → Nat) (A : TA Nat) : Except Err (TA Nat × (Nat → Option Nat)) :=
  let c := copyLoop alloc ⟨A.st, fun _ => none, []⟩ A.states 0
  match A.init.mapM c.old2new with
  | none => .error .ub
  | some init =>
    let heap := c.states.foldl (retargetState c.old2new) c.heap
    .ok (⟨c.states, init, heap, A.maxC⟩, c.old2new)

end Verif
