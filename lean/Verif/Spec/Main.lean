import Verif.Model.Main

/-!
# What the command line asks for (doc/man.md)
-/

namespace Verif

/-- Where the pattern comes from. -/
inductive PatternSource where
  | expression (text : String)
  | file (name : String)
  | none
  | both
  deriving DecidableEq

/-- The log: the one given by the option, else the first of the free arguments, else the standard input. -/
def askedLog (o : Options) (free : List String) : String :=
  if o.input = "stdin" then free.headD "stdin" else o.input

/-- The pattern and the log of a command line.  `monaa [OPTIONS] PATTERN [FILE]`: the first free argument is the
expression if no pattern is given by an option. -/
def asked (o : Options) : PatternSource × String :=
  if o.automaton = "" then
    if o.expression = "" then match o.positional with
      | [] => (.none, o.input)
      | p :: rest => (.expression p, askedLog o rest)
    else (.expression o.expression, askedLog o o.positional)
  else if o.expression = "" then (.file o.automaton, askedLog o o.positional)
  else (.both, askedLog o o.positional)

/-- The formats contradict each other. -/
def Options.Conflict (o : Options) : Prop := (o.ascii = true ∧ o.binary = true) ∨ (o.signal = true ∧ o.event = true)

/-- The free arguments are names: not empty, and not the name reserved for the standard input. -/
def Options.Named (o : Options) : Prop := ∀ s ∈ o.positional, s ≠ "" ∧ s ≠ "stdin"

/-- The program is asked to match: it is not asked for help or the version, there is exactly one pattern, the formats do not
contradict each other, and signal mode is used with expressions only. -/
def Options.Consistent (o : Options) : Prop :=
  o.version = false ∧ o.help = false ∧ ¬ o.Conflict ∧
    ((∃ e, (asked o).1 = .expression e) ∨ ((∃ f, (asked o).1 = .file f) ∧ o.signal = false))

/-- The pattern asked for, as an automaton; `fail` is the status if it cannot be had. -/
inductive PatternIs {E T R : Type} (W : World E T R) (o : Options) : Except Err T → Prop where
  | expression {text : String} {e : E} (h : (asked o).1 = .expression text) (hp : W.parse text = .ok (some e)) :
      PatternIs W o (if o.signal then W.signalTA e else W.eventTA e)
  | file {name : String} (h : (asked o).1 = .file name) : PatternIs W o (W.loadTA name)

end Verif
