import Verif.Spec.Dot

/-!
# Meaning of the statements of a file
-/

namespace Verif

variable {K : Type} [Field K] [LinearOrder K]

/-- In the file the last declaration of node `n` has the attributes `init=i` and `match=f`. -/
def FileDeclares (l : List DotStmt) (n : Nat) (i f : Bool) : Prop :=
  ∃ l1 z l2, l = l1 ++ .node n i f z :: l2 ∧ ∀ i' f' z', .node n i' f' z' ∉ l2

/-- From node `n`, with last reset instants `r`, the transitions written in the file can read the events and end in `n'`. -/
def FileReads (l : List DotStmt) : Nat → (Nat → K) → TWord K → Nat → Prop
  | n, _, [], n' => n = n'
  | n, r, (a, t) :: w, n' => ∃ m gs rs g xs, .edge n m a gs rs ∈ l ∧ readGuard gs = .ok g ∧ readResets rs = .ok xs ∧
      GuardHolds g (fun x => t - r x) ∧ FileReads l m (resetAt r xs t) w n'

/-- The file accepts `w`, started at `t0`: a path from a node declared with `init=1` to a node declared with `match=1`. -/
def FileAccepts (l : List DotStmt) (t0 : K) (w : TWord K) : Prop :=
  ∃ n f, FileDeclares l n true f ∧ ∃ n' i, FileReads l n (fun _ => t0) w n' ∧ FileDeclares l n' i true

end Verif
