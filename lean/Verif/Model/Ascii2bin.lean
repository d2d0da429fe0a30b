import Verif.Model.Dot
import Verif.Spec.Reader

/-!
# The program ascii2bin (utils/ascii2bin.c)

The input is a text, the output a list of bytes.  How numbers are written in memory is left open (`IntCode`, `BinaryCode`).
-/

namespace Verif

variable {K : Type}

/-- The four bytes of an `int` in memory. -/
structure IntCode where
  bytes : Int → List UInt8
  length : ∀ n, (bytes n).length = 4

/-- `fscanf(ifile, " %c %lf\n", &event, &timestamp)` (utils/ascii2bin.c:35): variables which are not assigned keep their value; `none` is a
variable which was never assigned. -/
def scanRecord (N : NumScan K) (f : List Char) (p : Option Char × Option K) : (Option Char × Option K) × List Char :=
  match skipWhite f with
  | [] => (p, [])
  | c :: f => match N.scan (skipWhite f) with
    | (some t, f) => ((some c, some t), skipWhite f)
    | (none, f) => ((some c, p.2), f)

/-- The loop (utils/ascii2bin.c:34-38).  Writing a variable which was never assigned is undefined behaviour. -/
def asciiLoop (N : NumScan K) (B : BinaryCode K) : Nat → List Char → Option Char × Option K → Except Err (List UInt8)
  | 0, _, _ => .ok []
  | k + 1, f, p => match scanRecord N f p with
    | ((some c, some t), f) => do
      let rest ← asciiLoop N B k f (some c, some t)
      .ok (B.byte c.toNat :: (B.bytes t ++ rest))
    | _ => .error .ub

/-- What `ascii2bin` writes (utils/ascii2bin.c:32-40).  If there is no number at the begin, `N` is used although it was never assigned; a
number which does not fit in an `int` is undefined behaviour, too.  The files are opened without error. -/
def ascii2bin (N : NumScan K) (I : IntCode) (B : BinaryCode K) (f : List Char) : Except Err (List UInt8) :=
  match scanInt (skipWhite f) with
  | none => .error .ub
  | some (n, f) => do
    let out ← asciiLoop N B n.toNat (skipWhite f) (none, none)
    .ok (I.bytes n ++ out)

end Verif
