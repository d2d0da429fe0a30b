import Verif.Model.NormalForm

/-!
# `DNFTRE::makeSNF` applied to the disjunctive normal form of an expression
-/

namespace Verif

/-- `DNFTRE(e).makeSNF(c)` (monaa/intermediate_tre.hh:246, monaa/intermediate_tre.cc:454-484): the address of the `DNFTRE` and the memory
afterwards.  The result of the function is always `true`. -/
def TRE.snf {K : Type} [Field K] [LinearOrder K] [FloorRing K] (c : Alphabet) (fuel : Nat) (e : TRE K) : Except Err (Nat × TMem K) :=
  match e.toDNF TMem.empty with
  | .error x => .error x
  | .ok (l, m) => match (m.newDnf l).snfDnf c fuel m.next with
    | .error x => .error x
    | .ok m' => .ok (m.next, m')

end Verif
