import Verif.Model.TA

/-!
# Word containers (libmonaa/word_container.hh, libmonaa/lazy_deque.hh)

The interface used by the matchers, and its two implementations.
-/

namespace Verif

/-- The interface `WordContainer` (libmonaa/word_container.hh:13-70) over a state `σ`.  `get` is
`operator[]`. -/
structure Cont (K σ : Type) where
  fetch : Nat → σ → Bool × σ
  get : Nat → σ → Except Err (Alphabet × K)
  setFront : Nat → σ → Except Err σ

/-- `Vector<T>` (libmonaa/word_container.hh:83-89).  `std::vector::operator[]` out of range is undefined. -/
def vectorCont (K : Type) : Cont K (List (Alphabet × K)) where
  fetch n w := (decide (n < w.length), w)
  get n w := match w[n]? with
    | some e => .ok e
    | none => .error .ub
  setFront _ w := .ok w

/-- `LazyDeque` (libmonaa/lazy_deque.hh:29-34).  `file` is the list of the events not yet read; `N` is
`none` while it has its initial value `max()`. -/
structure Lazy (K : Type) where
  front : Nat
  N : Option Nat
  deque : List (Alphabet × K)
  file : List (Alphabet × K)
  deriving DecidableEq

namespace Lazy

variable {K : Type}

/-- The constructor (libmonaa/lazy_deque.hh:42-46). -/
def mk0 (w : List (Alphabet × K)) : Lazy K := ⟨0, none, [], w⟩

/-- `n >= N`. -/
def beyond (d : Lazy K) (n : Nat) : Bool :=
  match d.N with
  | none => false
  | some N => decide (N ≤ n)

/-- `size()` (libmonaa/lazy_deque.hh:56); `none` is `std::numeric_limits<size_t>::max()`. -/
def size (d : Lazy K) : Option Nat := d.N

/-- `operator[]` (libmonaa/lazy_deque.hh:47-54). -/
def get (d : Lazy K) (n : Nat) : Except Err (Alphabet × K) :=
  if n < d.front || d.beyond n then .error .outOfRange
  else match d.deque[n - d.front]? with
    | some e => .ok e
    | none => .error .outOfRange

/-- `setFront` (libmonaa/lazy_deque.hh:59-72).  The events read in the last loop are thrown away; at the end
of the file the read fails silently.  Simplification: `int readTimes` does not overflow. -/
def setFront (d : Lazy K) (newFront : Nat) : Except Err (Lazy K) :=
  if newFront < d.front then .error .outOfRange
  else
    let eraseSize := min (newFront - d.front) d.deque.length
    let readTimes := (newFront - d.front) - eraseSize
    .ok { d with front := newFront, deque := d.deque.drop eraseSize, file := d.file.drop readTimes }

/-- The reading loop of `fetch` (libmonaa/lazy_deque.hh:80-88). -/
def fetchLoop (d : Lazy K) : Nat → Bool × Lazy K
  | 0 => (true, d)
  | k + 1 => match d.file with
    | [] => (false, { d with N := some (d.front + d.deque.length) })
    | e :: f => fetchLoop { d with deque := d.deque ++ [e], file := f } k

/-- `fetch` (libmonaa/lazy_deque.hh:73-89).  `allocTimes` is negative or 0 if the event is already there. -/
def fetch (d : Lazy K) (n : Nat) : Bool × Lazy K :=
  if n < d.front || d.beyond n then (false, d)
  else fetchLoop d (n - d.front + 1 - d.deque.length)

end Lazy

/-- `WordLazyDeque` (libmonaa/word_container.hh:76). -/
def lazyCont (K : Type) : Cont K (Lazy K) where
  fetch n d := d.fetch n
  get n d := d.get n
  setFront n d := d.setFront n

end Verif
