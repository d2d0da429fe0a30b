import Verif.Model.DNF

/-!
# Model of the computation of the normal form (monaa/intermediate_tre.cc:16-61, 145-484)

Nested calls are bounded by `fuel`.
-/

namespace Verif

/-- The loop of `std::set_union` with first element `x` on the left; `f` continues with the next element on the left. -/
def unionAux (x : Nat) (f : List Nat → List Nat) : List Nat → List Nat
  | [] => x :: f []
  | y :: r => if x < y then x :: f (y :: r) else if y < x then y :: unionAux x f r else x :: f r

/-- `std::set_union` on sorted ranges. -/
def setUnion : List Nat → List Nat → List Nat
  | [] => fun r => r
  | x :: l => unionAux x (setUnion l)

/-- The loop of `std::set_intersection` with first element `x` on the left; `f` continues with the next element on the left. -/
def interAux (x : Nat) (f : List Nat → List Nat) : List Nat → List Nat
  | [] => []
  | y :: r => if x < y then f (y :: r) else if y < x then interAux x f r else x :: f r

/-- `std::set_intersection` on sorted ranges. -/
def setInter : List Nat → List Nat → List Nat
  | [] => fun _ => []
  | x :: l => interAux x (setInter l)

namespace Decision

/-- `isMixed` (monaa/intermediate_tre.hh:24-26). -/
def isMixed (d : Decision) : Bool := !d.constant && !d.chars.isEmpty

/-- The letter given by `isConstant` (monaa/intermediate_tre.hh:33-40). -/
def isConstant (d : Decision) : Option Alphabet :=
  match d.chars with
  | [c] => some c
  | _ => none

/-- The first element is epsilon. -/
def hasEpsilon (d : Decision) : Bool := d.chars.head? == some 0

/-- `uniqChar` (monaa/intermediate_tre.cc:37-47); `none` is `-1`. -/
def uniqChar (d : Decision) : Option Alphabet :=
  match d.chars with
  | [c] => some c
  | [0, c] => some c
  | _ => none

/-- `SyntacticDecision::concat` (monaa/intermediate_tre.cc:16-61): the new value of `d`. -/
def concat (d i : Decision) : Decision :=
  { chars :=
      if d.hasEpsilon then (if i.hasEpsilon then setUnion d.chars i.chars else i.chars)
      else if i.hasEpsilon then d.chars
      else setInter d.chars i.chars
    constant :=
      d.constant && i.constant &&
        match d.uniqChar, i.uniqChar with
        | some x, some y => x == 0 || y == 0 || x == y
        | _, _ => false }

end Decision

namespace TMem

variable {K : Type} [Field K] [LinearOrder K]

/-- A loop over a list which changes the memory. -/
def forM {α : Type} (f : TMem K → α → Except Err (TMem K)) : TMem K → List α → Except Err (TMem K)
  | m, [] => .ok m
  | m, x :: l => match f m x with
    | .error e => .error e
    | .ok m => forM f m l

/-- The loop merging the elements of a concatenation (monaa/intermediate_tre.cc:169-182).  The iterator is at `x`, `pre` elements are
before it. -/
def merge (pre : Nat) (m : TMem K) (x : Nat) : List Nat → Except Err (List Nat × TMem K)
  | [] => .ok (if pre ≠ 0 ∧ m.atom x = .epsilon then [] else [x], m)
  | y :: r =>
    match m.atom x, m.atom y with
    | .epsilon, _ => merge pre m y r
    | .singleton s, .singleton t =>
      if (m.sing s).1 = (m.sing t).1 then
        merge pre (m.setSing s ((m.sing s).1, Interval.addAll (m.sing s).2 (m.sing t).2)) x r
      else match merge (pre + 1) m y r with
        | .error e => .error e
        | .ok (l, m) => .ok (x :: l, m)
    | .moved, .singleton _ => .error .ub
    | .singleton _, .moved => .error .ub
    | .moved, .moved => .error .ub
    | _, _ => match merge (pre + 1) m y r with
        | .error e => .error e
        | .ok (l, m) => .ok (x :: l, m)

/-- Whether the element is a repetition with mixed decision, as tested for concatenations (monaa/intermediate_tre.cc:213-216). -/
def plusMixed (m : TMem K) (a : Nat) : Except Err Bool :=
  match m.atom a with
  | .plus d => match m.ddec d with
    | none => .error .ub
    | some v => .ok v.isMixed
  | _ => .ok false

/-- `std::any_of` with a test which may fail. -/
def anyM {α : Type} (f : α → Except Err Bool) : List α → Except Err Bool
  | [] => .ok false
  | x :: l => match f x with
    | .error e => .error e
    | .ok true => .ok true
    | .ok false => anyM f l

/-- A concatenation of one element is replaced by the element (monaa/intermediate_tre.cc:181-207). -/
def shorten (m : TMem K) (l : List Nat) : ANode K :=
  match l with
  | [y] => m.atom y
  | l => .concat l

/-- The part of the case `concat` of `toNormalForm` after the loop (monaa/intermediate_tre.cc:184-240).  `dec` is the new decision. The
separation of repetitions with mixed decision (monaa/intermediate_tre.cc:217-236) is not modelled. -/
def finishConcat (m : TMem K) (a : Nat) (l : List Nat) (dec : Decision) : Except Err (TMem K) :=
  match l with
  | [] => .ok ((m.setADec a dec).setAtom a (.concat []))
  | x :: r => match merge 0 m x r with
    | .error e => .error e
    | .ok (l, m) =>
      match m.shorten l with
      | .concat l => match anyM (plusMixed m) l with
        | .error e => .error e
        | .ok true => .error .notModelled
        | .ok false => .ok ((m.setADec a dec).setAtom a (.concat l))
      | node => .ok ((m.setADec a dec).setAtom a node)

/-- The intervals of the singleton `a` (`a->singleton->intervals`); other members of the union are not alive. -/
def intervalsOf (m : TMem K) (a : Nat) : Except Err (List (Interval K)) :=
  match m.atom a with
  | .singleton s => .ok (m.sing s).2
  | _ => .error .ub

/-- A sequence of tests which change the memory, up to the first which fails (`std::all_of`). -/
def allM {α : Type} (f : TMem K → α → Except Err (Bool × TMem K)) : TMem K → List α → Except Err (Bool × TMem K)
  | m, [] => .ok (true, m)
  | m, x :: l => match f m x with
    | .error e => .error e
    | .ok (false, m) => .ok (false, m)
    | .ok (true, m) => allM f m l

/-- A loop which keeps the elements passing a test which changes the memory. -/
def filterM {α : Type} (f : TMem K → α → Except Err (Bool × TMem K)) : TMem K → List α → Except Err (List α × TMem K)
  | m, [] => .ok ([], m)
  | m, x :: l => match f m x with
    | .error e => .error e
    | .ok (b, m) => match filterM f m l with
      | .error e => .error e
      | .ok (l, m) => .ok (if b then x :: l else l, m)

/-- The intervals of `DNFTRE::makeSNF` for one conjunction (monaa/intermediate_tre.cc:471-475). -/
def conjIntervals (m : TMem K) : List (Interval K) → List Nat → Except Err (List (Interval K))
  | acc, [] => .ok acc
  | acc, a :: l => match m.intervalsOf a with
    | .error e => .error e
    | .ok I => conjIntervals m (Interval.land acc I) l

/-- The intervals of `DNFTRE::makeSNF` (monaa/intermediate_tre.cc:470-479). -/
def unionIntervals (m : TMem K) : List (List Nat) → Except Err (List (Interval K))
  | [] => .ok []
  | c :: l => match m.conjIntervals [Interval.default] c with
    | .error e => .error e
    | .ok I => match unionIntervals m l with
      | .error e => .error e
      | .ok J => .ok (I ++ J)

/-- The sums of the case `concat` of `AtomicTRE::makeSNF` (monaa/intermediate_tre.cc:411-417). -/
def sumIntervals (m : TMem K) : List (Interval K) → List Nat → Except Err (List (Interval K))
  | acc, [] => .ok acc
  | acc, a :: l => match m.intervalsOf a with
    | .error e => .error e
    | .ok I => sumIntervals m (Interval.addAll acc I) l

/-- The end of `DNFTRE::makeSNF` (monaa/intermediate_tre.cc:469-483): `list` has been reduced to `l`. -/
def finishSNF (m : TMem K) (c : Alphabet) (d : Nat) (l : List (List Nat)) : Except Err (TMem K) :=
  match m.unionIntervals l with
  | .error e => .error e
  | .ok I =>
    let (a, m) := m.newSingleton (c, I)
    .ok (m.setDnf d [[a]])

variable [FloorRing K]

/-- The end of the case `plus` of `AtomicTRE::makeSNF` (monaa/intermediate_tre.cc:429-434). -/
def finishPlusSNF (m : TMem K) (a d : Nat) : Except Err (Bool × TMem K) :=
  match m.dnf d with
  | (b :: _) :: _ => match m.atom b with
    | .singleton s => match Interval.plusAll (m.sing s).2 with
      | .error e => .error e
      | .ok I => .ok (true, (m.setAtom a (.singleton s)).setSing s ((m.sing s).1, I))
    | _ => .error .ub
  | _ => .error .ub

/-- The end of the case `within` of `AtomicTRE::makeSNF` (monaa/intermediate_tre.cc:440-447). -/
def finishWithinSNF (m : TMem K) (a b : Nat) (I : Interval K) : Except Err (Bool × TMem K) :=
  match m.atom b with
  | .singleton s => .ok (true, (m.setAtom a (.singleton s)).setSing s ((m.sing s).1, Interval.land1 (m.sing s).2 I))
  | _ => .error .ub

mutual

/-- `AtomicTRE::makeSNF` (monaa/intermediate_tre.cc:398-450). -/
def snfAtom (c : Alphabet) : Nat → TMem K → Nat → Except Err (Bool × TMem K)
  | 0, _, _ => .error .fuel
  | fuel + 1, m, a => match m.atom a with
    | .moved => .error .ub
    | .singleton s => .ok (c == (m.sing s).1, m)
    | .epsilon => .ok (false, m)
    | .concat l => match allM (snfAtom c fuel) m l with
      | .error e => .error e
      | .ok (false, m) => .ok (false, m)
      | .ok (true, m) => match m.sumIntervals [⟨.fin 0 true, .fin 0 true⟩] l with
        | .error e => .error e
        | .ok I => .ok (true, (m.newSing (c, I)).setAtom a (.singleton m.next))
    | .plus d => match snfDnf c fuel m d with
      | .error e => .error e
      | .ok m => m.finishPlusSNF a d
    | .within b I => match snfAtom c fuel m b with
      | .error e => .error e
      | .ok (false, m) => .ok (false, m)
      | .ok (true, m) => m.finishWithinSNF a b I

/-- `DNFTRE::makeSNF` (monaa/intermediate_tre.cc:452-484), which always returns true. -/
def snfDnf (c : Alphabet) : Nat → TMem K → Nat → Except Err (TMem K)
  | 0, _, _ => .error .fuel
  | fuel + 1, m, d => match filterM (allM (snfAtom c fuel)) m (m.dnf d) with
    | .error e => .error e
    | .ok (l, m) => m.finishSNF c d l

end

/-- The test of `DNFTRE::toNormalForm` for repetitions with mixed decision (monaa/intermediate_tre.cc:337-340). -/
def atomMixed (m : TMem K) (a : Nat) : Except Err Bool :=
  match m.atom a with
  | .plus _ => match m.adec a with
    | none => .error .ub
    | some v => .ok v.isMixed
  | _ => .ok false

/-- `a->decision`, dereferenced. -/
def decisionOf (m : TMem K) (a : Nat) : Except Err Decision :=
  match m.adec a with
  | none => .error .ub
  | some d => .ok d

/-- The loop `for (it++; it != conjunctions.end();)` (monaa/intermediate_tre.cc:365-378), with the iterator at `y`: it is not
incremented, so the loop does not end. -/
def conjLoop (m : TMem K) (y : Nat) : Nat → Decision → Except Err Decision
  | 0, _ => .error .fuel
  | fuel + 1, d => match m.decisionOf y with
    | .error e => .error e
    | .ok i => conjLoop m y fuel { constant := d.constant || i.constant, chars := setInter d.chars i.chars }

/-- The decision of a conjunction (monaa/intermediate_tre.cc:361-378). -/
def conjDecision (m : TMem K) (fuel : Nat) : List Nat → Except Err Decision
  | [] => .error .ub
  | [a] => m.decisionOf a
  | a :: y :: _ => match m.decisionOf a with
    | .error e => .error e
    | .ok d => m.conjLoop y fuel d

/-- The decisions of the conjunctions (monaa/intermediate_tre.cc:358-379). -/
def conjDecisions (m : TMem K) (fuel : Nat) : List (List Nat) → Except Err (List Decision)
  | [] => .ok []
  | c :: l => match m.conjDecision fuel c with
    | .error e => .error e
    | .ok d => match conjDecisions m fuel l with
      | .error e => .error e
      | .ok ds => .ok (d :: ds)

/-- The decision of the disjunction (monaa/intermediate_tre.cc:382-395). -/
def disjDecision : List Decision → Except Err Decision
  | [] => .error .ub
  | d :: ds => .ok (ds.foldl (fun d i => { constant := d.constant && i.constant, chars := setInter d.chars i.chars }) d)

/-- The rest of `DNFTRE::toNormalForm` after the normal forms of the atoms (monaa/intermediate_tre.cc:336-396). The separation of
repetitions with mixed decision (monaa/intermediate_tre.cc:342-352) is not modelled. -/
def finishDnf (fuel : Nat) (m : TMem K) (d : Nat) : Except Err (TMem K) :=
  match anyM (anyM m.atomMixed) (m.dnf d) with
  | .error e => .error e
  | .ok true => .error .notModelled
  | .ok false => match m.conjDecisions fuel (m.dnf d) with
    | .error e => .error e
    | .ok ds => match disjDecision ds with
      | .error e => .error e
      | .ok v => .ok (m.setDDec d v)

/-- The case `plus` of `AtomicTRE::toNormalForm` after the normal form of the operand (monaa/intermediate_tre.cc:243-289).  The
separation (monaa/intermediate_tre.cc:254-284) is not modelled. -/
def finishPlus (fuel : Nat) (m : TMem K) (a d : Nat) : Except Err (TMem K) :=
  match m.ddec d with
  | none => .error .ub
  | some v =>
    let dec : Decision :=
      { chars := v.chars
        constant := v.constant && (v.chars.length == 1 || (v.chars.length == 2 && v.hasEpsilon)) }
    let m := m.setADec a dec
    if dec.isMixed then .error .notModelled
    else match dec.isConstant with
      | some c => match m.snfAtom c fuel a with
        | .error e => .error e
        | .ok (_, m) => .ok m
      | none => .ok m

/-- The case `within` of `AtomicTRE::toNormalForm` after the normal form of the operand (monaa/intermediate_tre.cc:293-331).  The
propagation to a separated repetition (monaa/intermediate_tre.cc:312-325) is not modelled. -/
def finishWithin (m : TMem K) (a b : Nat) (I : Interval K) : Except Err (TMem K) :=
  match m.adec b with
  | none => .error .ub
  | some v =>
    let m := m.setADec a v
    match m.atom b with
    | .singleton s => .ok (((m.setSing s ((m.sing s).1, Interval.land1 (m.sing s).2 I)).setAtom b .moved).setAtom a (.singleton s))
    | .moved => .error .ub
    | .epsilon => .ok (m.setAtom a .epsilon)
    | .plus _ => if v.isMixed then .error .notModelled else .ok m
    | _ => .ok m

/-- The decision of a concatenation after the loop over its elements (monaa/intermediate_tre.cc:161-166), where `f` computes the
normal form of an element. -/
def concatLoop (f : TMem K → Nat → Except Err (TMem K)) : TMem K → Decision → List Nat → Except Err (Decision × TMem K)
  | m, dec, [] => .ok (dec, m)
  | m, dec, x :: l => match f m x with
    | .error e => .error e
    | .ok m => match m.decisionOf x with
      | .error e => .error e
      | .ok i => concatLoop f m (dec.concat i) l

mutual

/-- `AtomicTRE::toNormalForm` (monaa/intermediate_tre.cc:145-328). -/
def normAtom : Nat → TMem K → Nat → Except Err (TMem K)
  | 0, _, _ => .error .fuel
  | fuel + 1, m, a => match m.atom a with
    | .moved => .error .ub
    | .singleton s => .ok (m.setADec a ⟨true, [(m.sing s).1]⟩)
    | .epsilon => .ok (m.setADec a ⟨true, [0]⟩)
    | .concat l => match concatLoop (normAtom fuel) m ⟨true, [0]⟩ l with
      | .error e => .error e
      | .ok (dec, m) => m.finishConcat a l dec
    | .plus d => match normDnf fuel m d with
      | .error e => .error e
      | .ok m => finishPlus fuel m a d
    | .within b I => match normAtom fuel m b with
      | .error e => .error e
      | .ok m => m.finishWithin a b I

/-- `DNFTRE::toNormalForm` (monaa/intermediate_tre.cc:330-396). -/
def normDnf : Nat → TMem K → Nat → Except Err (TMem K)
  | 0, _, _ => .error .fuel
  | fuel + 1, m, d => match forM (forM (normAtom fuel)) m (m.dnf d) with
    | .error e => .error e
    | .ok m => finishDnf fuel m d

end

end TMem

/-- The normal form of an expression (monaa/tre.cc:485-487): the address of the `DNFTRE` and the memory. -/
def TRE.normalForm {K : Type} [Field K] [LinearOrder K] [FloorRing K] (fuel : Nat) (e : TRE K) : Except Err (Nat × TMem K) :=
  match e.toDNF TMem.empty with
  | .error x => .error x
  | .ok (l, m) => match (m.newDnf l).normDnf fuel m.next with
    | .error x => .error x
    | .ok m' => .ok (m.next, m')

end Verif
