import Verif.Model.Zone

/-!
# Output containers (libmonaa/ans_vec.hh)
-/

namespace Verif

variable {K : Type}

/-- The interface `AnsContainer` (libmonaa/ans_vec.hh:17-51) over a state `σ`. -/
structure AnsCont (K σ : Type) where
  size : σ → Nat
  push : σ → Zone K → σ
  clear : σ → σ
  reserve : σ → Nat → σ

/-- `AnsVec<Zone>` (libmonaa/ans_vec.hh:53-61): a `std::vector`. -/
def ansVec (K : Type) : AnsCont K (List (Zone K)) where
  size v := v.length
  push v z := v ++ [z]
  clear _ := []
  reserve v _ := v

/-- `AnsNum<Zone>` (libmonaa/ans_vec.hh:63-75): only the number of zones is kept. -/
def ansNum (K : Type) : AnsCont K Nat where
  size n := n
  push n _ := n + 1
  clear _ := 0
  reserve n _ := n

/-- A line of the output: `lower op name op upper`; the flags tell whether `op` is `<=`. -/
inductive OutLine (K : Type) where
  /-- `printf("%10lf %8s <name> %s %10lf\n", ...)`.  An upper bound may be infinite. -/
  | row (lower : Bnd K) (name : String) (upper : Bnd K)
  /-- `puts("=============================")` -/
  | separator
  deriving DecidableEq

/-- `-b.first` with the flag of `b`.  Simplification: `-∞` is written `∞` (a lower bound is never infinite in a reported
zone). -/
def negFirst [Neg K] : Bnd K → Bnd K
  | .fin c s => .fin (-c) s
  | .inf s => .inf s

/-- What is printed for one zone (libmonaa/ans_vec.hh:102-111). -/
def printBlock [Neg K] (z : Zone K) : List (OutLine K) :=
  [.row (negFirst (z.get 0 1)) "t" (z.get 1 0),
   .row (negFirst (z.get 0 2)) "t'" (z.get 2 0),
   .row (negFirst (z.get 1 2)) "t' - t" (z.get 2 1),
   .separator]

/-- `PrintContainer` (libmonaa/ans_vec.hh:84-87) with what has been written to the standard output. -/
structure Printer (K : Type) where
  count : Nat
  isQuiet : Bool
  out : List (OutLine K)

/-- The constructor (libmonaa/ans_vec.hh:95). -/
def Printer.new (isQuiet : Bool) : Printer K := ⟨0, isQuiet, []⟩

/-- `AnsPrinter` (libmonaa/ans_vec.hh:96-120). -/
def ansPrinter (K : Type) [Neg K] : AnsCont K (Printer K) where
  size p := p.count
  push p z := { p with count := p.count + 1, out := if p.isQuiet then p.out else p.out ++ printBlock z }
  clear p := { p with count := 0 }
  reserve p _ := p

end Verif
