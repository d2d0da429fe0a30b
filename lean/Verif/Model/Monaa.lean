import Verif.Model.Skip

/-!
# Model of `monaaDollar` (libmonaa/monaa.hh:702-1157)
-/

namespace Verif

variable {S K σ : Type} [DecidableEq S]

/-- The precondition of `std::binary_search` for the value `s`: the elements before it come first, then the ones not
before it, and the ones after it come last.  (Its violation is undefined behaviour.) -/
def partitioned (addr : S → Nat) (l : List S) (s : S) : Bool :=
  decide (l.Pairwise fun a b => (addr b < addr s → addr a < addr s) ∧ (addr a > addr s → addr b > addr s))

/-- `Ap.states` with the transitions labelled `$` removed (libmonaa/monaa.hh:718-727). -/
def dropDollar (s : TAState S) : TAState S :=
  match s.next.find dollar with
  | none => s
  | some _ => { s with isMatch := true, next := s.next.filter fun p => p.1 != dollar }

/-- `Ap` (libmonaa/monaa.hh:704-728); the copies keep the names of the states.  `addr` is the address of a state.
`ptrConv.at` throws for a transition whose target is not a state of `A`. -/
def prepare (addr : S → Nat) (A : TA S) : Except Err (TA S) :=
  if A.states.all fun s => partitioned addr A.init s then
    let st := fun s => dropDollar (A.st s)
    if A.states.all fun s => (st s).next.all fun p => p.2.all fun e => match e.target with
        | none => false
        | some q => decide (q ∈ A.states) then
      .ok { states := A.states, init := A.states.filter fun s => decide (s ∈ A.init), st := st, maxC := A.maxC }
    else .error .outOfRange
  else .error .ub

/-- All guards and resets of the transitions of the states use a declared clock.  Otherwise `resetTime` may be accessed
out of range: undefined behaviour (conservative: the code runs into it only if it tries the transition). -/
def clocksOk (A : TA S) : Bool :=
  A.states.all fun s => (A.st s).next.all fun p => p.2.all fun e =>
    (e.guard.all fun g => decide (g.x < A.clockSize)) && e.resets.all fun x => decide (x < A.clockSize)

/-- The skip tables (libmonaa/monaa.hh:730-739). `beta` is keyed by the copies, `ptrConv` maps a state to its
copy. -/
def makeTables (K : Type) [Field K] [LinearOrder K] (fuel : Nat) (Ap : TA S) : Except Err (Tables S) := do
  let (m, delta, endChars) ← sundayTable K fuel Ap
  let beta ← kmpTable K fuel Ap m
  .ok { m := m, endChars := endChars, delta := delta, beta := betaAt beta }

/-- `monaaDollar` (libmonaa/monaa.hh:702-1157): the zones in `ans` at the end.  `fuel` bounds the construction of the tables,
`steps` the loops of the matching.  If some state has an entry for the silent label, nothing is done
(libmonaa/monaa.hh:742-745, 1155); `ans` is then not even cleared, it is empty if it was before. -/
def monaaDollar [Field K] [LinearOrder K] (addr : S → Nat) (fuel steps : Nat) (C : Cont K σ) (A : TA S) (w : σ) :
    Except Err (List (Zone K)) := do
  let Ap ← prepare addr A
  let T ← makeTables K fuel Ap
  if A.states.all fun s => ((A.st s).next.find epsilon).isNone then
    if clocksOk A then matchLoop C (dollarHooks A) T steps steps 0 w
    else .error .ub
  else .ok []

end Verif
