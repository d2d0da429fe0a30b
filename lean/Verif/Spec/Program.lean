import Verif.Model.Program
import Verif.Spec.Answers
import Verif.Spec.Main
import Verif.Spec.Reader

/-!
# What a run of the program says about the log
-/

namespace Verif

variable {K : Type} [Field K] [LinearOrder K] [FloorRing K]

/-- The bytes of the named file, or of the standard input if the name is `stdin`. -/
def Env.Holds (E : Env K) (name : String) (bytes : List UInt8) : Prop :=
  (name = "stdin" ∧ bytes = E.stdin) ∨ (name ≠ "stdin" ∧ E.file name = some bytes)

/-- The file (or the standard input) holds the log `w`: as text, followed by white space, or in binary form, followed by an incomplete
record. -/
def Env.LogIs (E : Env K) (name : String) (isBinary : Bool) (w : TWord K) : Prop :=
  ∃ bytes, E.Holds name bytes ∧
    if isBinary then ∃ (B : BinaryCode K) (rest : List UInt8), B.Fits E.decoder w ∧ rest.length < 9 ∧ bytes = B.file w ++ rest
    else ∃ (T : TextCode K) (rest : List Char), T.Fits E.scan w ∧ (∀ c ∈ rest, isWhite c = true) ∧
      bytes.map (fun b => Char.ofNat b.toNat) = T.file w ++ rest

omit [FloorRing K] in
/-- The pair `(t, t')` satisfies the lines of some block of the output; a block ends with a separator. -/
def PrintedPair (out : List (OutLine K)) (t t' : K) : Prop :=
  ∃ pre block post, out = pre ++ block ++ .separator :: post ∧ (pre = [] ∨ ∃ p, pre = p ++ [.separator]) ∧ .separator ∉ block ∧
    ∀ l ∈ block, l.Holds t t'

omit [FloorRing K] in
/-- The pair `(t, t')` satisfies the lines of a block of the output, and `(u, u')` those of a later block. -/
def PrintedBefore (out : List (OutLine K)) (t t' u u' : K) : Prop :=
  ∃ pre block post, out = pre ++ block ++ .separator :: post ∧ (pre = [] ∨ ∃ p, pre = p ++ [.separator]) ∧ .separator ∉ block ∧
    (∀ l ∈ block, l.Holds t t') ∧ PrintedPair post u u'

end Verif
