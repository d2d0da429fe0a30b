import Verif.Model.Answers
import Verif.Model.Dot
import Verif.Model.Main
import Verif.Model.Parser
import Verif.Model.Reader
import Verif.Model.Signal
import Verif.Model.SignalTA

/-!
# The whole program (monaa/main.cc:104-146)

The parts of the program put together: scanner and parser, translations, reader of automata, lazily read log, matchers, and printer.
-/

namespace Verif

variable {K : Type} [Field K] [LinearOrder K] [FloorRing K]

/-- What the program finds when it runs, and what the model leaves open. -/
structure Env (K : Type) where
  /-- the content of the standard input -/
  stdin : List UInt8
  /-- the files which can be opened for reading -/
  file : String → Option (List UInt8)
  /-- the addresses of the states, in the order of their allocation -/
  alloc : Nat → Nat
  /-- Boost's `read_graphviz`: the statements of a file -/
  dot : List UInt8 → Except Err (List DotStmt)
  /-- the conversion `%lf` of `fscanf` -/
  scan : NumScan K
  /-- the bytes of a `char` and a `double` in memory -/
  decoder : Decoder K
  /-- bounds for the loops: normal form, tables, search, silent transitions -/
  nfuel : Nat
  fuel : Nat
  steps : Nat
  efuel : Nat

/-- The characters of a text. -/
def charsOf (f : List UInt8) : List Char := f.map fun b => Char.ofNat b.toNat

/-- The log: a file or the standard input (monaa/main.cc:128-134). -/
def Env.log (E : Env K) (name : String) : List UInt8 := if name = "stdin" then E.stdin else (E.file name).getD []

/-- `monaa(w, TA, ans)` (monaa/main.cc:137-140) where `w` reads the file lazily.  It is the only call in the process. -/
def Env.runSignal (E : Env K) (name : String) (isBinary : Bool) (A : TA Nat) : Except Err (List (Zone K)) :=
  if isBinary then (monaa E.fuel E.steps E.efuel (lazyFileCont K _ (getOneBinary E.decoder)) none A (LazyFile.mk0 (E.log name))).1
  else (monaa E.fuel E.steps E.efuel (lazyFileCont K _ (getOne E.scan)) none A (LazyFile.mk0 (charsOf (E.log name)))).1

/-- `monaaDollar(w, TA, ans)` (monaa/main.cc:137, 142) where `w` reads the file lazily. -/
def Env.runEvent (E : Env K) (name : String) (isBinary : Bool) (A : TA Nat) : Except Err (List (Zone K)) :=
  if isBinary then monaaDollar id E.fuel E.steps (lazyFileCont K _ (getOneBinary E.decoder)) A (LazyFile.mk0 (E.log name))
  else monaaDollar id E.fuel E.steps (lazyFileCont K _ (getOne E.scan)) A (LazyFile.mk0 (charsOf (E.log name)))

/-- The result of `driver.parse` (monaa/main.cc:106-111). -/
def parseOutcome (s : String) : Except Err (Option (TRE K)) :=
  match parsePattern s.toList with
  | .ok e => .ok (some e)
  | .error .syntax => .ok none
  | .error (.scan x) => .error x

/-- The parts of the program.  An automaton is read from a file even if it cannot be opened; it is then empty for the reader. -/
def Env.world (E : Env K) : World (TRE K) (TA Nat) (List (Zone K)) where
  parse := parseOutcome
  signalTA e := e.signalTA E.alloc E.nfuel
  eventTA e := e.eventTA E.alloc
  loadTA name := do
    let l ← E.dot ((E.file name).getD [])
    loadTA E.alloc l
  opens name := (E.file name).isSome
  monaa := E.runSignal
  monaaDollar := E.runEvent

/-- The whole program on a command line. -/
def Env.run (E : Env K) (o : Options) : Outcome (List (Zone K)) := mainProgram E.world o

/-- The matches printed by a run: the zones are pushed to `AnsPrinter ans(vm.count("quiet"))` (monaa/main.cc:135).  (The texts printed
for `--help` and `--version` are left out.  A run which dies later may have printed matches, which are left out, too.) -/
def Outcome.printed : Outcome (List (Zone K)) → List (OutLine K)
  | .matched zs quiet => (zs.foldl (ansPrinter K).push (Printer.new quiet)).out
  | _ => []

end Verif
