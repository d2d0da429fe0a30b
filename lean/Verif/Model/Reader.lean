import Verif.Model.Container

/-!
# Reading logs from files (libmonaa/lazy_deque.hh:12-23, libmonaa/word_container.hh:91-101)

A file is the list of what is left to read.  The event passed by reference to the reading functions is an
argument and a result: fields which are not assigned keep their value.
-/

namespace Verif

variable {K : Type}

/-- `fread(p, n, 1, file)`: the `n` bytes if there are so many; otherwise the rest of the file is consumed. -/
def fread (n : Nat) (f : List UInt8) : Option (List UInt8) × List UInt8 :=
  if n ≤ f.length then (some (f.take n), f.drop n) else (none, [])

/-- The values of the bytes of a `char` and of a `double` in memory. -/
structure Decoder (K : Type) where
  letter : UInt8 → Alphabet
  time : List UInt8 → K

/-- The result of a reading function: `true` if it returned `EOF`, the event, and the rest of the file. -/
abbrev ReadResult (K F : Type) := Bool × (Alphabet × K) × F

/-- `getOneBinary` (libmonaa/lazy_deque.hh:16-23); `sizeof(double)` is 8.  (The second field is indeterminate after a partial
read; it keeps its value here, no caller uses it.) -/
def getOneBinary (D : Decoder K) (f : List UInt8) (p : Alphabet × K) : ReadResult K (List UInt8) :=
  match fread 1 f with
  | (some [b], f) => match fread 8 f with
    | (some bs, f) => (false, (D.letter b, D.time bs), f)
    | (none, f) => (true, (D.letter b, p.2), f)
  | (_, f) => (true, p, f)

/-- The characters skipped by a white space directive. -/
def isWhite (c : Char) : Bool := c = ' ' || c = '\n' || c = '\t' || c = '\r'

/-- A white space directive of `fscanf`. -/
def skipWhite (f : List Char) : List Char := f.dropWhile isWhite

/-- The conversion `%lf`: the number, if there is one, and the rest of the file.  How numbers are written is left open. -/
structure NumScan (K : Type) where
  scan : List Char → Option K × List Char
  le : ∀ f, (scan f).2.length ≤ f.length

/-- `getOne` (libmonaa/lazy_deque.hh:12-14): `fscanf(file, " %c %lf\n", ...)`.  `EOF` is returned if the file ends before the
first conversion; if the second conversion fails, 1 is returned, which the callers do not distinguish from 2. -/
def getOne (N : NumScan K) (f : List Char) (p : Alphabet × K) : ReadResult K (List Char) :=
  match skipWhite f with
  | [] => (true, p, [])
  | c :: f => match N.scan (skipWhite f) with
    | (some t, f) => (false, (c.toNat, t), skipWhite f)
    | (none, f) => (false, (c.toNat, p.2), f)

/-- The loop of the constructor of `WordVector` (libmonaa/word_container.hh:96-99): `elem` is declared before the loop. -/
def vectorReadLoop {F : Type} (get : F → Alphabet × K → ReadResult K F) : Nat → F → Alphabet × K →
    Except Err (List (Alphabet × K))
  | 0, _, _ => .error .fuel
  | fuel + 1, f, elem => match get f elem with
    | (true, _, _) => .ok []
    | (false, elem, f) => do
      let rest ← vectorReadLoop get fuel f elem
      .ok (elem :: rest)

/-- The constructor of `WordVector` (libmonaa/word_container.hh:93-100).  `T elem;` sets both fields of the pair to 0. -/
def vectorRead {F : Type} [Zero K] (get : F → Alphabet × K → ReadResult K F) (fuel : Nat) (f : F) :
    Except Err (List (Alphabet × K)) := vectorReadLoop get fuel f (0, 0)

/-- `LazyDeque` (libmonaa/lazy_deque.hh:29-34) with its file. -/
structure LazyFile (K F : Type) where
  front : Nat
  N : Option Nat
  deque : List (Alphabet × K)
  file : F

namespace LazyFile

variable {F : Type} [Zero K]

/-- The constructor (libmonaa/lazy_deque.hh:42-46). -/
def mk0 (f : F) : LazyFile K F := ⟨0, none, [], f⟩

/-- `n >= N`. -/
def beyond (d : LazyFile K F) (n : Nat) : Bool :=
  match d.N with
  | none => false
  | some N => decide (N ≤ n)

/-- `operator[]` (libmonaa/lazy_deque.hh:47-54). -/
def get (d : LazyFile K F) (n : Nat) : Except Err (Alphabet × K) :=
  if n < d.front || d.beyond n then .error .outOfRange
  else match d.deque[n - d.front]? with
    | some e => .ok e
    | none => .error .outOfRange

/-- The reading loop of `setFront` (libmonaa/lazy_deque.hh:68-71); `elem` is declared in the loop, so it starts with 0. -/
def skipLoop (g : F → Alphabet × K → ReadResult K F) : Nat → F → F
  | 0, f => f
  | k + 1, f => skipLoop g k (g f (0, 0)).2.2

/-- `setFront` (libmonaa/lazy_deque.hh:59-72).  Simplification: `int readTimes` does not overflow. -/
def setFront (g : F → Alphabet × K → ReadResult K F) (d : LazyFile K F) (newFront : Nat) :
    Except Err (LazyFile K F) :=
  if newFront < d.front then .error .outOfRange
  else
    let eraseSize := min (newFront - d.front) d.deque.length
    let readTimes := (newFront - d.front) - eraseSize
    .ok { d with front := newFront, deque := d.deque.drop eraseSize, file := skipLoop g readTimes d.file }

/-- The reading loop of `fetch` (libmonaa/lazy_deque.hh:80-88). -/
def fetchLoop (g : F → Alphabet × K → ReadResult K F) (d : LazyFile K F) : Nat → Bool × LazyFile K F
  | 0 => (true, d)
  | k + 1 => match g d.file (0, 0) with
    | (true, _, f) => (false, { d with N := some (d.front + d.deque.length), file := f })
    | (false, e, f) => fetchLoop g { d with deque := d.deque ++ [e], file := f } k

/-- `fetch` (libmonaa/lazy_deque.hh:73-89). -/
def fetch (g : F → Alphabet × K → ReadResult K F) (d : LazyFile K F) (n : Nat) : Bool × LazyFile K F :=
  if n < d.front || d.beyond n then (false, d)
  else fetchLoop g d (n - d.front + 1 - d.deque.length)

end LazyFile

/-- `WordLazyDeque` (libmonaa/word_container.hh:76) on a file. -/
def lazyFileCont (K F : Type) [Zero K] (g : F → Alphabet × K → ReadResult K F) : Cont K (LazyFile K F) where
  fetch n d := d.fetch g n
  get n d := d.get n
  setFront n d := d.setFront g n

end Verif
