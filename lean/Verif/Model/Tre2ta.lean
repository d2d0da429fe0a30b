import Verif.Model.Program

/-!
# The program tre2ta (monaa/tre2ta.cc)
-/

namespace Verif

variable {K : Type} [Field K] [LinearOrder K] [FloorRing K]

/-- The command line of `tre2ta` after `store` and `notify` (monaa/tre2ta.cc:22-39).  Unknown options, for which `parser.run()`
throws, are not modelled. -/
structure Tre2taOptions where
  help : Bool
  version : Bool
  output : String
  expression : String
  positional : List String

/-- The pattern: the loop over the remaining arguments keeps the last one (monaa/tre2ta.cc:41-44). -/
def Tre2taOptions.pattern (o : Tre2taOptions) : String := o.positional.foldl (fun _ s => s) o.expression

/-- How `tre2ta` ends. -/
inductive Tre2taOutcome where
  /-- status 0 after printing the version -/
  | version
  /-- status 0 after printing the usage -/
  | usage
  /-- the status after an error message -/
  | fail (status : Nat)
  /-- status 0 after writing the automaton to the file -/
  | wrote (file : String) (l : List DotStmt)
  /-- an uncaught exception, an exit of the scanner, or undefined behaviour -/
  | died (e : Err)
  deriving DecidableEq

/-- `main` of `tre2ta` after the parsing of the command line (monaa/tre2ta.cc:41-94); `stdout` stands for the standard output.  The
second test for an empty pattern (monaa/tre2ta.cc:74-77), after which it would be read from the standard input, is never true and left
out.  Simplifications: an output file which cannot be opened (the code ignores that), and what is written before an exception. -/
def tre2taMain (K : Type) [Field K] [LinearOrder K] [FloorRing K] (alloc : Nat → Nat) (o : Tre2taOptions) : Tre2taOutcome :=
  if o.version then .version
  else if o.pattern.isEmpty || o.help then .usage
  else match parseOutcome (K := K) o.pattern with
    | .error x => .died x
    | .ok none => .fail 2
    | .ok (some e) => match e.eventTA alloc with
      | .error x => .died x
      | .ok A => match showTA A with
        | .error x => .died x
        | .ok l => .wrote o.output l

end Verif
