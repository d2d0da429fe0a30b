import Verif.Spec.Container
import Verif.Model.Reader

/-!
# Files holding a log
-/

namespace Verif

variable {K : Type}

/-- A way of writing labels as a byte and instants as eight bytes. -/
structure BinaryCode (K : Type) where
  byte : Alphabet → UInt8
  bytes : K → List UInt8
  length : ∀ t, (bytes t).length = 8

/-- The binary file of a log: one byte for the label and eight for the instant. -/
def BinaryCode.file (B : BinaryCode K) (w : TWord K) : List UInt8 :=
  w.flatMap fun e => B.byte e.1 :: B.bytes e.2

/-- The decoder undoes the code for the events of the log (its instants are `double`s). -/
def BinaryCode.Fits (B : BinaryCode K) (D : Decoder K) (w : TWord K) : Prop :=
  ∀ e ∈ w, D.letter (B.byte e.1) = e.1 ∧ D.time (B.bytes e.2) = e.2

/-- A way of writing labels and instants. -/
structure TextCode (K : Type) where
  letter : Alphabet → Char
  chars : K → List Char

/-- The text file of a log: a line with the label, a space and the instant for every event. -/
def TextCode.file (T : TextCode K) (w : TWord K) : List Char :=
  w.flatMap fun e => T.letter e.1 :: ' ' :: (T.chars e.2 ++ ['\n'])

/-- The scanner undoes the code for the events of the log: labels and the begin of numbers are not white, and a number is read if white
space follows. -/
def TextCode.Fits (T : TextCode K) (N : NumScan K) (w : TWord K) : Prop :=
  ∀ e ∈ w, isWhite (T.letter e.1) = false ∧ (T.letter e.1).toNat = e.1 ∧ (∃ c l, T.chars e.2 = c :: l ∧ isWhite c = false) ∧
    ∀ c rest, isWhite c = true → N.scan (T.chars e.2 ++ c :: rest) = (some e.2, c :: rest)

/-- A call of a method of the container, on a file. -/
def LazyOp.execFile {F : Type} [Zero K] (g : F → Alphabet × K → ReadResult K F) (d : LazyFile K F) :
    LazyOp → LazyFile K F
  | .fetch n => (d.fetch g n).2
  | .at' _ => d
  | .setFront n => match d.setFront g n with
    | .ok d' => d'
    | .error _ => d

/-- The container made for the file `f`, after a sequence of calls. -/
def lazyFileAfter {F : Type} [Zero K] (g : F → Alphabet × K → ReadResult K F) (f : F) (ops : List LazyOp) :
    LazyFile K F := ops.foldl (LazyOp.execFile g) (LazyFile.mk0 f)

end Verif
