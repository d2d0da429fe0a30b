import Verif.Model.Parser

/-!
# The grammar of expressions (monaa/tre_parser.yy:62-87)
-/

namespace Verif

variable {K : Type} [Field K]

/-- The value of a decimal number. -/
def decimal (ds : List Char) : Nat := ds.foldl (fun n c => 10 * n + (c.toNat - '0'.toNat)) 0

/-- The patterns of the scanner, with the tokens which they return (monaa/tre_lexer.l:29-56). -/
inductive Lexeme : List Char → List Tok → Prop
  | bar : Lexeme ['|'] [.bar]
  | amp : Lexeme ['&'] [.amp]
  | star : Lexeme ['*'] [.star]
  | plus : Lexeme ['+'] [.plus]
  | within : Lexeme ['%'] [.within]
  | lp : Lexeme ['('] [.lp]
  | rp : Lexeme [')'] [.rp]
  | lsq : Lexeme ['['] [.lsq]
  | rsq : Lexeme [']'] [.rsq]
  | lt : Lexeme ['<'] [.lt]
  | gt : Lexeme ['>'] [.gt]
  | le : Lexeme ['<', '='] [.le]
  | ge : Lexeme ['>', '='] [.ge]
  | eq : Lexeme ['='] [.eq]
  | comma : Lexeme [','] [.comma]
  | letter {c : Char} (h : ('a' ≤ c ∧ c ≤ 'z') ∨ ('A' ≤ c ∧ c ≤ 'Z') ∨ c = '$') : Lexeme [c] [.atom c]
  | int {ds : List Char} (h : ds ≠ []) (h' : ∀ c ∈ ds, '0' ≤ c ∧ c ≤ '9') :
    Lexeme ds [if decimal ds ≤ 2147483647 then .int (decimal ds) else .bad .ub]
  | blank {bs : List Char} (h : bs ≠ []) (h' : ∀ c ∈ bs, c = ' ' ∨ c = '\t') : Lexeme bs []
  | newline : Lexeme ['\n'] [.stop]

/-- The scanner takes the longest match of a pattern; if there is none, it fails with exit status 2. -/
inductive LongestScan : List Char → List Tok → Prop
  | nil : LongestScan [] []
  | lexeme {p r : List Char} {ts us : List Tok} (h : Lexeme p ts) (hmax : ∀ q vs, q <+: p ++ r → Lexeme q vs → q.length ≤ p.length)
    (h' : LongestScan r us) : LongestScan (p ++ r) (ts ++ us)
  | jam {c : Char} {r : List Char} {us : List Tok} (h : ∀ q vs, q <+: c :: r → ¬ Lexeme q vs) (h' : LongestScan r us) :
    LongestScan (c :: r) (.bad (.exit 2) :: us)

/-- The rules for `interval`. -/
inductive IntervalG : List Tok → Interval K → Prop
  | oo {a b : Nat} : IntervalG [.lp, .int a, .comma, .int b, .rp] ⟨.fin a false, .fin b false⟩
  | co {a b : Nat} : IntervalG [.lsq, .int a, .comma, .int b, .rp] ⟨.fin a true, .fin b false⟩
  | oc {a b : Nat} : IntervalG [.lp, .int a, .comma, .int b, .rsq] ⟨.fin a false, .fin b true⟩
  | cc {a b : Nat} : IntervalG [.lsq, .int a, .comma, .int b, .rsq] ⟨.fin a true, .fin b true⟩
  | lt {b : Nat} : IntervalG [.lt, .int b] ⟨.fin 0 true, .fin b false⟩
  | le {b : Nat} : IntervalG [.le, .int b] ⟨.fin 0 true, .fin b true⟩
  | eq {a : Nat} : IntervalG [.eq, .int a] ⟨.fin a true, .fin a true⟩
  | ge {a : Nat} : IntervalG [.ge, .int a] ⟨.fin a true, .inf false⟩
  | gt {a : Nat} : IntervalG [.gt, .int a] ⟨.fin a false, .inf false⟩
  | paren {ts : List Tok} {I : Interval K} (h : IntervalG ts I) : IntervalG (.lp :: (ts ++ [.rp])) I

/-- The rules for `expr`, which are ambiguous. -/
inductive ExprG : List Tok → TRE K → Prop
  | atom {c : Char} : ExprG [.atom c] (.atom c.toNat)
  | paren {ts : List Tok} {e : TRE K} (h : ExprG ts e) : ExprG (.lp :: (ts ++ [.rp])) e
  | plus {ts : List Tok} {e : TRE K} (h : ExprG ts e) : ExprG (ts ++ [.plus]) e.mkPlus
  | star {ts : List Tok} {e : TRE K} (h : ExprG ts e) : ExprG (ts ++ [.star]) e.star
  | concat {ts us : List Tok} {e f : TRE K} (h : ExprG ts e) (h' : ExprG us f) : ExprG (ts ++ us) (.concat e f)
  | disj {ts us : List Tok} {e f : TRE K} (h : ExprG ts e) (h' : ExprG us f) : ExprG (ts ++ .bar :: us) (.disj e f)
  | conj {ts us : List Tok} {e f : TRE K} (h : ExprG ts e) (h' : ExprG us f) : ExprG (ts ++ .amp :: us) (.conj e f)
  | within {ts us : List Tok} {e : TRE K} {I : Interval K} (h : ExprG ts e) (h' : IntervalG us I) :
    ExprG (ts ++ .within :: us) (.within e I)

mutual

/-- An operand: a letter or an expression in parentheses, followed by any number of `+`, `*` and time restrictions, which apply to it. -/
inductive Operand : List Tok → TRE K → Prop
  | atom {c : Char} : Operand [.atom c] (.atom c.toNat)
  | paren {ts : List Tok} {e : TRE K} (h : Chain ts e) : Operand (.lp :: (ts ++ [.rp])) e
  | plus {ts : List Tok} {e : TRE K} (h : Operand ts e) : Operand (ts ++ [.plus]) e.mkPlus
  | star {ts : List Tok} {e : TRE K} (h : Operand ts e) : Operand (ts ++ [.star]) e.star
  | within {ts us : List Tok} {e : TRE K} {I : Interval K} (h : Operand ts e) (h' : IntervalG us I) :
    Operand (ts ++ .within :: us) (.within e I)

/-- Operands with concatenation, `|` or `&` between them; all of these have the same precedence and group to the right. -/
inductive Chain : List Tok → TRE K → Prop
  | one {ts : List Tok} {e : TRE K} (h : Operand ts e) : Chain ts e
  | concat {ts us : List Tok} {e f : TRE K} (h : Operand ts e) (h' : Chain us f) : Chain (ts ++ us) (.concat e f)
  | disj {ts us : List Tok} {e f : TRE K} (h : Operand ts e) (h' : Chain us f) : Chain (ts ++ .bar :: us) (.disj e f)
  | conj {ts us : List Tok} {e f : TRE K} (h : Operand ts e) (h' : Chain us f) : Chain (ts ++ .amp :: us) (.conj e f)

end

/-- The input ends (twice). -/
def EndEnd (ts : List Tok) : Prop := ts = [] ∨ ts = [.stop] ∨ ∃ r, ts = .stop :: .stop :: r

/-- The usual reading of expressions: postfix operators bind strongest, then concatenation, then `&`, then `|`. -/
inductive Usual : Nat → List Tok → TRE K → Prop
  | up {n : Nat} {ts : List Tok} {e : TRE K} (h : Usual (n + 1) ts e) : Usual n ts e
  | disj {ts us : List Tok} {e f : TRE K} (h : Usual 1 ts e) (h' : Usual 0 us f) : Usual 0 (ts ++ .bar :: us) (.disj e f)
  | conj {ts us : List Tok} {e f : TRE K} (h : Usual 2 ts e) (h' : Usual 1 us f) : Usual 1 (ts ++ .amp :: us) (.conj e f)
  | concat {ts us : List Tok} {e f : TRE K} (h : Usual 3 ts e) (h' : Usual 2 us f) : Usual 2 (ts ++ us) (.concat e f)
  | atom {c : Char} : Usual 3 [.atom c] (.atom c.toNat)
  | paren {ts : List Tok} {e : TRE K} (h : Usual 0 ts e) : Usual 3 (.lp :: (ts ++ [.rp])) e
  | plus {ts : List Tok} {e : TRE K} (h : Usual 3 ts e) : Usual 3 (ts ++ [.plus]) e.mkPlus
  | star {ts : List Tok} {e : TRE K} (h : Usual 3 ts e) : Usual 3 (ts ++ [.star]) e.star
  | within {ts us : List Tok} {e : TRE K} {I : Interval K} (h : Usual 3 ts e) (h' : IntervalG us I) :
    Usual 3 (ts ++ .within :: us) (.within e I)

/-- The binary operators. -/
inductive BinOp where
  | cat | bar | amp
  deriving DecidableEq

/-- Expressions in which different binary operators are always separated by parentheses; `some o` if `o` occurs outside of them. -/
inductive Grouped : Option BinOp → List Tok → TRE K → Prop
  | atom {c : Char} : Grouped none [.atom c] (.atom c.toNat)
  | paren {o : Option BinOp} {ts : List Tok} {e : TRE K} (h : Grouped o ts e) : Grouped none (.lp :: (ts ++ [.rp])) e
  | plus {ts : List Tok} {e : TRE K} (h : Grouped none ts e) : Grouped none (ts ++ [.plus]) e.mkPlus
  | star {ts : List Tok} {e : TRE K} (h : Grouped none ts e) : Grouped none (ts ++ [.star]) e.star
  | within {ts us : List Tok} {e : TRE K} {I : Interval K} (h : Grouped none ts e) (h' : IntervalG us I) :
    Grouped none (ts ++ .within :: us) (.within e I)
  | concat {o : Option BinOp} {ts us : List Tok} {e f : TRE K} (h : Grouped none ts e) (h' : Grouped o us f) (ho : o = none ∨ o = some .cat) :
    Grouped (some .cat) (ts ++ us) (.concat e f)
  | disj {o : Option BinOp} {ts us : List Tok} {e f : TRE K} (h : Grouped none ts e) (h' : Grouped o us f) (ho : o = none ∨ o = some .bar) :
    Grouped (some .bar) (ts ++ .bar :: us) (.disj e f)
  | conj {o : Option BinOp} {ts us : List Tok} {e f : TRE K} (h : Grouped none ts e) (h' : Grouped o us f) (ho : o = none ∨ o = some .amp) :
    Grouped (some .amp) (ts ++ .amp :: us) (.conj e f)

end Verif
