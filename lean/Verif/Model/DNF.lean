import Verif.Model.TRE

/-!
# Model of the disjunctive normal form of expressions (monaa/intermediate_tre.hh, monaa/intermediate_tre.cc:63-143)

The objects `SingletonTRE`, `AtomicTRE` and `DNFTRE` are shared and changed in place, so they live in a memory; pointers are
addresses.
-/

namespace Verif

/-- `SyntacticDecision` (monaa/intermediate_tre.hh:14-41).  `constant`: the tag is `Constant`, otherwise `Mixed`. -/
structure Decision where
  constant : Bool
  chars : List Alphabet
  deriving DecidableEq, Repr

/-- The tag and the union of an `AtomicTRE` (monaa/intermediate_tre.hh:90-93, 201-208).  `moved`: the tag is `singleton`, and the pointer is
null because it has been moved from. -/
inductive ANode (K : Type) where
  | singleton (s : Nat)
  | epsilon
  | concat (l : List Nat)
  | plus (d : Nat)
  | within (a : Nat) (I : Interval K)
  | moved
  deriving DecidableEq, Repr

/-- The memory: `sing` are the objects `SingletonTRE` (monaa/intermediate_tre.hh:55-76), `atom` and `adec` the fields of `AtomicTRE`,
`dnf` and `ddec` the fields of `DNFTRE` (monaa/intermediate_tre.hh:209-210, 227-242).  `next` is the next address; addresses are not reused.
Simplification: the objects `Interval` are values.  (The constructor for `within` copies a vector of pointers to intervals and
then changes the intervals in place, monaa/intermediate_tre.hh:170-173; the other owners of these intervals are dropped objects
or objects which are restricted by the same interval.) -/
structure TMem (K : Type) where
  next : Nat
  sing : Nat → Alphabet × List (Interval K)
  atom : Nat → ANode K
  adec : Nat → Option Decision
  dnf : Nat → List (List Nat)
  ddec : Nat → Option Decision

namespace TMem

variable {K : Type}

/-- No objects. -/
def empty : TMem K :=
  { next := 0, sing := fun _ => (0, []), atom := fun _ => .moved, adec := fun _ => none, dnf := fun _ => [], ddec := fun _ => none }

/-- `m[k] = v`. -/
def put {V : Type} (f : Nat → V) (k : Nat) (v : V) : Nat → V := fun a => if a = k then v else f a

def setSing (m : TMem K) (s : Nat) (v : Alphabet × List (Interval K)) : TMem K := { m with sing := put m.sing s v }
def setAtom (m : TMem K) (a : Nat) (n : ANode K) : TMem K := { m with atom := put m.atom a n }
def setADec (m : TMem K) (a : Nat) (d : Decision) : TMem K := { m with adec := put m.adec a (some d) }
def setDnf (m : TMem K) (d : Nat) (l : List (List Nat)) : TMem K := { m with dnf := put m.dnf d l }
def setDDec (m : TMem K) (d : Nat) (v : Decision) : TMem K := { m with ddec := put m.ddec d (some v) }

/-- `std::make_shared<SingletonTRE>(...)`: the address is `m.next`. -/
def newSing (m : TMem K) (v : Alphabet × List (Interval K)) : TMem K := { m with sing := put m.sing m.next v, next := m.next + 1 }

/-- `std::make_shared<AtomicTRE>(...)`: the address is `m.next`. -/
def newAtom (m : TMem K) (n : ANode K) : TMem K := { m with atom := put m.atom m.next n, next := m.next + 1 }

/-- `std::make_shared<DNFTRE>(...)`: the address is `m.next`. -/
def newDnf (m : TMem K) (l : List (List Nat)) : TMem K := { m with dnf := put m.dnf m.next l, next := m.next + 1 }

/-- `std::make_shared<AtomicTRE>(std::make_shared<SingletonTRE>(...))`. -/
def newSingleton (m : TMem K) (v : Alphabet × List (Interval K)) : Nat × TMem K :=
  let m' := m.newSing v
  (m'.next, m'.newAtom (.singleton m.next))

/-- What an operand contributes to the list of the constructor for concatenations (monaa/intermediate_tre.hh:122-131). -/
def parts (m : TMem K) (a : Nat) : List Nat :=
  match m.atom a with
  | .concat l => l
  | .epsilon => []
  | _ => [a]

/-- The constructor for the concatenation of two expressions (monaa/intermediate_tre.hh:119-163).  If one element is left (exactly one
operand is epsilon and the other is not a concatenation), a member of the union which is not alive is assigned to
(monaa/intermediate_tre.hh:141-160): undefined behaviour.  (The element is then neither epsilon nor a concatenation.) -/
def mkConcat (m : TMem K) (a b : Nat) : Except Err (Nat × TMem K) :=
  match m.parts a ++ m.parts b with
  | [] => .ok (m.next, m.newAtom .epsilon)
  | [_] => .error .ub
  | l => .ok (m.next, m.newAtom (.concat l))

/-- The constructor for the time restriction (monaa/intermediate_tre.hh:167-179). -/
def mkWithin [Field K] [LinearOrder K] (m : TMem K) (a : Nat) (I : Interval K) : Except Err (Nat × TMem K) :=
  match m.atom a with
  | .singleton s => .ok (m.newSingleton ((m.sing s).1, Interval.land1 (m.sing s).2 I))
  | .moved => .error .ub
  | _ => .ok (m.next, m.newAtom (.within a I))

/-- A loop over a list which makes an object for each element. -/
def mapM {α β : Type} (f : TMem K → α → Except Err (β × TMem K)) : TMem K → List α → Except Err (List β × TMem K)
  | m, [] => .ok ([], m)
  | m, x :: l => match f m x with
    | .error e => .error e
    | .ok (y, m) => match mapM f m l with
      | .error e => .error e
      | .ok (l, m) => .ok (y :: l, m)

end TMem

/-- The pairs in the order of two nested loops. -/
def pairs {α β : Type} (l : List α) (r : List β) : List (α × β) := l.flatMap fun x => r.map fun y => (x, y)

/-- The constructor of `DNFTRE` from an expression (monaa/intermediate_tre.cc:63-143): its `list`. -/
def TRE.toDNF {K : Type} [Field K] [LinearOrder K] : TRE K → TMem K → Except Err (List (List Nat) × TMem K)
  | .atom c, m =>
    let (a, m) := m.newSingleton (c, [Interval.default])
    .ok ([[a]], m)
  | .epsilon, m => .ok ([[m.next]], m.newAtom .epsilon)
  | .plus e, m => do
    let (l, m) ← toDNF e m
    let m' := m.newDnf l
    .ok ([[m'.next]], m'.newAtom (.plus m.next))
  | .concat e f, m => do
    let (l, m) ← toDNF e m
    let (r, m) ← toDNF f m
    let (list, m) ← m.mapM (fun m p => m.mapM (fun m q => m.mkConcat q.1 q.2) (pairs p.1 p.2)) (pairs l r)
    .ok (list.filter (fun c => !c.isEmpty), m)
  | .disj e f, m => do
    let (l, m) ← toDNF e m
    let (r, m) ← toDNF f m
    .ok (l ++ r, m)
  | .conj e f, m => do
    let (l, m) ← toDNF e m
    let (r, m) ← toDNF f m
    .ok (((pairs l r).map fun p => p.1 ++ p.2).filter (fun c => !c.isEmpty), m)
  | .within e I, m => do
    let (l, m) ← toDNF e m
    m.mapM (fun m c => m.mapM (fun m a => m.mkWithin a I) c) l

end Verif
