import Verif.Model.Err

/-!
# The command line program (monaa/main.cc)

What the options mean and how the program ends.  The parsers, the translations, the file system and the matchers are
parameters (`World`).
-/

namespace Verif

/-- The command line after `store` and `notify` (monaa/main.cc:24-48): which flags are given, the values of the options with
arguments (with their defaults), and the arguments that belong to no option, in order.  Unknown options, for which
`parser.run()` throws, are not modelled. -/
structure Options where
  help : Bool
  quiet : Bool
  version : Bool
  ascii : Bool
  binary : Bool
  event : Bool
  signal : Bool
  input : String
  automaton : String
  expression : String
  positional : List String

/-- One iteration of the loop over the remaining arguments (monaa/main.cc:50-57). -/
def usePositional (o : Options) (s : String) : Options :=
  if o.automaton.isEmpty && o.expression.isEmpty then { o with expression := s }
  else if o.input = "stdin" then { o with input := s }
  else o

/-- The loop over the remaining arguments (monaa/main.cc:50-57). -/
def takePositional (o : Options) : Options := o.positional.foldl usePositional o

/-- The other parts of the program and its environment.  `E`, `T`, `R` are expressions, automata and answers. -/
structure World (E T R : Type) where
  /-- `driver.parse` (monaa/main.cc:109); `none`: it returns false; an error: the scanner ends the program or has undefined behaviour -/
  parse : String → Except Err (Option E)
  /-- `toSignalTA` (monaa/main.cc:113) -/
  signalTA : E → Except Err T
  /-- `toEventTA` (monaa/main.cc:115) -/
  eventTA : E → Except Err T
  /-- `parseBoostTA` and `convBoostTA` (monaa/main.cc:122-125); `read_graphviz` throws if the file does not exist or is not a
  graph -/
  loadTA : String → Except Err T
  /-- `fopen` succeeds (monaa/main.cc:130) -/
  opens : String → Bool
  /-- `monaa` (monaa/main.cc:140): answers on the input, read in binary mode or not -/
  monaa : String → Bool → T → Except Err R
  /-- `monaaDollar` (monaa/main.cc:142) -/
  monaaDollar : String → Bool → T → Except Err R

/-- How the program ends. -/
inductive Outcome (R : Type) where
  /-- status 0 after printing the version -/
  | version
  /-- status 0 after printing the usage -/
  | usage
  /-- the status after an error message -/
  | fail (status : Nat)
  /-- status 0 after the matching; `quiet` tells whether the answers are kept off the output -/
  | matched (answers : R) (quiet : Bool)
  /-- the scanner, the matcher or a translation does not return: `exit` with the status, an uncaught exception, or undefined behaviour -/
  | died (e : Err)
  deriving DecidableEq

/-- The exit status; `none` if it is not determined by the program (abort, undefined behaviour). -/
def Outcome.status {R : Type} : Outcome R → Option Nat
  | .version => some 0
  | .usage => some 0
  | .fail n => some n
  | .matched _ _ => some 0
  | .died (.exit n) => some n
  | .died _ => none

/-- Opening the input and matching (monaa/main.cc:128-145). -/
def matchInput {E T R : Type} (W : World E T R) (o : Options) (isBinary : Bool) (A : T) : Outcome R :=
  if o.input ≠ "stdin" ∧ W.opens o.input = false then .fail 1
  else match (if o.signal then W.monaa o.input isBinary A else W.monaaDollar o.input isBinary A) with
    | .ok r => .matched r o.quiet
    | .error e => .died e

/-- Reading the pattern (monaa/main.cc:104-126). -/
def readPattern {E T R : Type} (W : World E T R) (o : Options) (isSignal isBinary : Bool) : Outcome R :=
  if o.automaton.isEmpty then
    match W.parse o.expression with
    | .error x => .died x
    | .ok none => .fail 2
    | .ok (some e) => match (if isSignal then W.signalTA e else W.eventTA e) with
      | .ok A => matchInput W o isBinary A
      | .error x => .died x
  else if isSignal then .fail 1
  else match W.loadTA o.automaton with
    | .ok A => matchInput W o isBinary A
    | .error x => .died x

/-- `main` after the parsing of the command line (monaa/main.cc:50-147). -/
def mainProgram {E T R : Type} (W : World E T R) (o : Options) : Outcome R :=
  let o := takePositional o
  if o.version then .version
  else if (o.automaton.isEmpty && o.expression.isEmpty) || o.help then .usage
  else if (o.ascii && o.binary) || (o.signal && o.event) then .fail 1
  else
    let isBinary := o.binary
    let isSignal := o.signal
    if !o.automaton.isEmpty && !o.expression.isEmpty then .fail 1
    else readPattern W o isSignal isBinary

end Verif
