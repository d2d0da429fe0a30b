import Verif.Model.Err
import Verif.Model.TRE

/-!
# Model of the parser of expressions (monaa/tre_lexer.l, monaa/tre_parser.yy, monaa/tre_driver.hh)

The tables generated by flex and bison are not part of the repository.  The scanner is modelled as the automaton which takes the longest
match of the patterns in `tre_lexer.l`.  The grammar of `expr` is ambiguous and has no declarations of precedence; bison then prefers to shift,
so that the parser is modelled as a machine with a stack which shifts whenever some rule allows it.  The grammar of `interval` has no
conflicts, and its rules are modelled by a recursive function.
-/

namespace Verif

/-- The tokens (monaa/tre_parser.yy:34-53); `stop` is `END` for a newline, `bad` stands for the failure of the scanner. -/
inductive Tok where
  | bar | amp | star | plus | within | lp | rp | lsq | rsq | lt | gt | le | ge | eq | comma
  | atom (c : Char)
  | int (n : Nat)
  | stop
  | bad (e : Err)
  deriving DecidableEq, Repr

/-- What the scanner has read of a token which may be longer. -/
inductive LexSt where
  | none
  | num (n : Nat)
  | lt
  | gt
  deriving DecidableEq, Repr

namespace LexSt

/-- `atoi` (monaa/tre_lexer.l:51): undefined behaviour if the value does not fit in an `int`. -/
def intTok (n : Nat) : Tok := if n ≤ 2147483647 then .int n else .bad .ub

/-- The token read so far. -/
def flush : LexSt → List Tok
  | none => []
  | num n => [intTok n]
  | lt => [.lt]
  | gt => [.gt]

/-- The characters of the class `[a-zA-Z$]` (monaa/tre_lexer.l:45). -/
def isLetter (c : Char) : Bool := ('a' ≤ c && c ≤ 'z') || ('A' ≤ c && c ≤ 'Z') || c = '$'

/-- The characters of the class `[0-9]` (monaa/tre_lexer.l:50). -/
def isDigit (c : Char) : Bool := '0' ≤ c && c ≤ '9'

/-- The first character of a token (monaa/tre_lexer.l:29-56).  For a character of no pattern, the scanner calls `exit(2)` ("flex scanner
jammed", because of `%option nodefault`, line 19). -/
def start (c : Char) : List Tok × LexSt :=
  if c = '|' then ([.bar], none)
  else if c = '&' then ([.amp], none)
  else if c = '*' then ([.star], none)
  else if c = '+' then ([.plus], none)
  else if c = '%' then ([.within], none)
  else if c = '(' then ([.lp], none)
  else if c = ')' then ([.rp], none)
  else if c = '[' then ([.lsq], none)
  else if c = ']' then ([.rsq], none)
  else if c = '<' then ([], lt)
  else if c = '>' then ([], gt)
  else if c = '=' then ([.eq], none)
  else if c = ',' then ([.comma], none)
  else if isLetter c then ([.atom c], none)
  else if isDigit c then ([], num (c.toNat - '0'.toNat))
  else if c = ' ' ∨ c = '\t' then ([], none)
  else if c = '\n' then ([.stop], none)
  else ([.bad (.exit 2)], none)

/-- One character (monaa/tre_lexer.l:29-56): the tokens which are complete, and what is read of the next one. -/
def next (s : LexSt) (c : Char) : List Tok × LexSt :=
  match s with
  | none => start c
  | num n => if isDigit c then ([], num (10 * n + (c.toNat - '0'.toNat))) else (intTok n :: (start c).1, (start c).2)
  | lt => if c = '=' then ([.le], none) else (.lt :: (start c).1, (start c).2)
  | gt => if c = '=' then ([.ge], none) else (.gt :: (start c).1, (start c).2)

end LexSt

/-- The tokens of a text (monaa/tre_lexer.l).  At the end of the list, the scanner returns `END` for ever. -/
def lexFrom : LexSt → List Char → List Tok
  | s, [] => s.flush
  | s, c :: r => (s.next c).1 ++ lexFrom (s.next c).2 r

/-- How parsing fails: a syntax error (`parse` returns 1), or a failure of the scanner. -/
inductive ParseErr where
  | syntax
  | scan (e : Err)
  deriving DecidableEq, Repr

/-- The error for an unexpected next token. -/
def unexpected : List Tok → ParseErr
  | .bad e :: _ => .scan e
  | _ => .syntax

/-- `INT`. -/
def expectInt : List Tok → Except ParseErr (Nat × List Tok)
  | .int n :: r => .ok (n, r)
  | ts => .error (unexpected ts)

variable {K : Type} [Field K]

/-- `COMMA INT RPAREN` or `COMMA INT RSQPAREN` after the lower end (monaa/tre_parser.yy:78-81). -/
def parseUpper (lower : Bnd K) : List Tok → Except ParseErr (Interval K × List Tok)
  | .comma :: r =>
    match expectInt r with
    | .error x => .error x
    | .ok (b, r) =>
      match r with
      | .rp :: r => .ok (⟨lower, .fin (b : K) false⟩, r)
      | .rsq :: r => .ok (⟨lower, .fin (b : K) true⟩, r)
      | ts => .error (unexpected ts)
  | ts => .error (unexpected ts)

/-- `interval` (monaa/tre_parser.yy:78-87). -/
def parseInterval : List Tok → Except ParseErr (Interval K × List Tok)
  | .lp :: .int a :: r => parseUpper (.fin (a : K) false) r
  | .lp :: r =>
    match parseInterval r with
    | .error x => .error x
    | .ok (I, r) =>
      match r with
      | .rp :: r => .ok (I, r)
      | ts => .error (unexpected ts)
  | .lsq :: r =>
    match expectInt r with
    | .error x => .error x
    | .ok (a, r) => parseUpper (.fin (a : K) true) r
  | .lt :: r => (expectInt r).map fun p => (⟨.fin 0 true, .fin (p.1 : K) false⟩, p.2)
  | .le :: r => (expectInt r).map fun p => (⟨.fin 0 true, .fin (p.1 : K) true⟩, p.2)
  | .eq :: r => (expectInt r).map fun p => (⟨.fin (p.1 : K) true, .fin (p.1 : K) true⟩, p.2)
  | .ge :: r => (expectInt r).map fun p => (⟨.fin (p.1 : K) true, .inf false⟩, p.2)
  | .gt :: r => (expectInt r).map fun p => (⟨.fin (p.1 : K) false, .inf false⟩, p.2)
  | ts => .error (unexpected ts)

/-- The entries of the stack of the parser below the last `expr`: `LPAREN`, `expr`, `expr DISJUNCTION`, `expr CONJUNCTION`. -/
inductive Item (K : Type) where
  | lp
  | cat (e : TRE K)
  | bar (e : TRE K)
  | amp (e : TRE K)

/-- The reductions when the next token cannot be shifted (monaa/tre_parser.yy:71-73). -/
def collapse : TRE K → List (Item K) → TRE K × List (Item K)
  | e, .cat e1 :: st => collapse (.concat e1 e) st
  | e, .bar e1 :: st => collapse (.disj e1 e) st
  | e, .amp e1 :: st => collapse (.conj e1 e) st
  | e, st => (e, st)

/-- After `expr` and the first `END`: `unit : expr END`, followed by `END` again, because the token with number 0 ends the input of every
bison grammar (monaa/tre_parser.yy:34, 62). -/
def parseEnd (e : TRE K) : List Tok → Except ParseErr (TRE K)
  | [] => .ok e
  | .stop :: _ => .ok e
  | ts => .error (unexpected ts)

/-- The parser (monaa/tre_parser.yy:62-74).  `cur` is the `expr` on top of the stack, if there is one. -/
def parseLoop : Nat → Option (TRE K) → List (Item K) → List Tok → Except ParseErr (TRE K)
  | 0, _, _, _ => .error (.scan .fuel)
  | fuel + 1, none, st, ts =>
    match ts with
    | .atom c :: r => parseLoop fuel (some (.atom c.toNat)) st r
    | .lp :: r => parseLoop fuel none (.lp :: st) r
    | ts => .error (unexpected ts)
  | fuel + 1, some e, st, ts =>
    match ts with
    | .plus :: r => parseLoop fuel (some e.mkPlus) st r
    | .star :: r => parseLoop fuel (some e.star) st r
    | .within :: r =>
      match parseInterval r with
      | .error x => .error x
      | .ok (I, r) => parseLoop fuel (some (.within e I)) st r
    | .atom c :: r => parseLoop fuel (some (.atom c.toNat)) (.cat e :: st) r
    | .lp :: r => parseLoop fuel none (.lp :: .cat e :: st) r
    | .bar :: r => parseLoop fuel none (.bar e :: st) r
    | .amp :: r => parseLoop fuel none (.amp e :: st) r
    | .rp :: r =>
      match collapse e st with
      | (e, .lp :: st) => parseLoop fuel (some e) st r
      | _ => .error .syntax
    | .stop :: r =>
      match collapse e st with
      | (e, []) => parseEnd e r
      | _ => .error .syntax
    | [] =>
      match collapse e st with
      | (e, []) => parseEnd e []
      | _ => .error .syntax
    | ts => .error (unexpected ts)

/-- `TREDriver::parse` on tokens (monaa/tre_driver.hh:54-59). -/
def parseToks (ts : List Tok) : Except ParseErr (TRE K) := parseLoop (ts.length + 1) none [] ts

/-- Parsing of the pattern given on the command line (monaa/main.cc:106-109, monaa/tre2ta.cc:78-82), which ends at the first NUL. -/
def parsePattern (s : List Char) : Except ParseErr (TRE K) := parseToks (lexFrom .none (s.takeWhile (· ≠ '\x00')))

/-- `operator<<` of expressions (monaa/tre.cc:7-36); `num` writes a number.  Ends of intervals are printed with their flags
(libmonaa/interval.hh:249-253, libmonaa/zone.hh:29-32). -/
def TRE.print (num : Bnd K → List Char) : TRE K → List Char
  | .atom c => [Char.ofNat c]
  | .epsilon => ['@']
  | .plus e => '(' :: (e.print num ++ ['+', ')'])
  | .concat e f => '(' :: (e.print num ++ (f.print num ++ [')']))
  | .disj e f => '(' :: (e.print num ++ '|' :: (f.print num ++ [')']))
  | .conj e f => '(' :: (e.print num ++ '&' :: (f.print num ++ [')']))
  | .within e I => '(' :: (e.print num ++ '%' :: '(' :: (bound I.lower ++ ',' :: (bound I.upper ++ [')', ')'])))
where
  /-- `operator<<` of `Bounds` (libmonaa/zone.hh:29-32). -/
  bound : Bnd K → List Char
  | .fin c s => '(' :: (num (.fin c s) ++ [',', ' ', if s then '1' else '0', ')'])
  | .inf s => '(' :: (num (.inf s) ++ [',', ' ', if s then '1' else '0', ')'])

end Verif
