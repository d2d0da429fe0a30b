import Verif.Lemmas.Parser
import Mathlib.Algebra.Order.Ring.Rat

/-!
# Properties of the parser of expressions (C70-C73)
-/

namespace Verif.Props

variable {K : Type} [Field K]

/-! ## C70: the parser accepts the sentences of the grammar, and groups binary operators to the right -/

/-- **C70**: the tokens are those of the longest matches of the patterns in `tre_lexer.l`. -/
theorem scan_spec (s : List Char) (ts : List Tok) : LongestScan s ts ↔ ts = lexFrom .none s := by
  constructor
  · exact lex_scan_unique
  · rintro rfl
    exact lex_scan _ s (le_refl _)

/-- `a<=12<` and `a@`. -/
example : lexFrom .none "a<= 12<".toList = [.atom 'a', .le, .int 12, .lt] ∧ lexFrom .none "a@".toList = [.atom 'a', .bad (.exit 2)] := ⟨rfl, rfl⟩

/-- **C70**: the parser returns `e` iff the tokens before the end of the input are a chain of operands which groups to `e`. -/
theorem parse_spec (ts : List Tok) (e : TRE K) : parseToks ts = .ok e ↔ ∃ us tail, ts = us ++ tail ∧ Chain us e ∧ EndEnd tail := by
  constructor
  · exact parseToks_sound
  · rintro ⟨us, tail, rfl, h, ht⟩
    exact parseToks_complete h ht

/-- **C70**: the parser accepts exactly the sentences of the grammar of `tre_parser.yy`, and its result is one of the readings which the grammar
allows. -/
theorem parse_grammar (ts : List Tok) : ((∃ e : TRE K, parseToks ts = .ok e) ↔ ∃ us tail, ts = us ++ tail ∧ EndEnd tail ∧ ∃ e : TRE K, ExprG us e) ∧
    ∀ e : TRE K, parseToks ts = .ok e → ∃ us tail, ts = us ++ tail ∧ EndEnd tail ∧ ExprG us e := by
  have key : ∀ e : TRE K, parseToks ts = .ok e → ∃ us tail, ts = us ++ tail ∧ EndEnd tail ∧ ExprG us e := by
    intro e h
    obtain ⟨us, tail, e', hc, ht⟩ := parseToks_sound h
    exact ⟨us, tail, e', ht, hc.expr⟩
  refine ⟨⟨?_, ?_⟩, key⟩
  · rintro ⟨e, h⟩
    obtain ⟨us, tail, e', ht, hg⟩ := key e h
    exact ⟨us, tail, e', ht, e, hg⟩
  · rintro ⟨us, tail, rfl, ht, e, hg⟩
    obtain ⟨e', hc⟩ := hg.chain
    exact ⟨e', parseToks_complete hc ht⟩

/-- **C70**: there is only one grouping. -/
theorem chain_unique {us : List Tok} {e e' : TRE K} (h : Chain us e) (h' : Chain us e') : e = e' := by
  have h1 := parseToks_complete h (.inl rfl : EndEnd [])
  have h2 := parseToks_complete h' (.inl rfl : EndEnd [])
  rw [h1] at h2
  exact Except.ok.inj h2

/-- **C70**: on every text, the parser returns an expression, reports a syntax error, stops with exit status 2 (a character of no token) or meets
the undefined behaviour of `atoi` (a number larger than `INT_MAX`); it always ends. -/
theorem parse_total (s : List Char) : (∃ e : TRE K, parsePattern s = .ok e) ∨ parsePattern (K := K) s = .error .syntax ∨
    parsePattern (K := K) s = .error (.scan (.exit 2)) ∨ parsePattern (K := K) s = .error (.scan .ub) := by
  cases h : parsePattern (K := K) s with
  | ok e => exact .inl ⟨e, rfl⟩
  | error x =>
    cases x with
    | «syntax» => exact .inr (.inl rfl)
    | scan x =>
      have hb : .bad x ∈ lexFrom .none (s.takeWhile (· ≠ '\x00')) := parseLoop_err _ _ _ _ _ (Nat.lt_succ_self _) h
      have := lex_of (fun _ => True) _ _ (fun _ => trivial) (fun _ _ => trivial) _ hb
      rcases this with rfl | rfl
      · exact .inr (.inr (.inl rfl))
      · exact .inr (.inr (.inr rfl))

/-- All four cases occur, and `a|bc` groups to the right. -/
example : parsePattern (K := ℚ) "a|bc%(1,20]".toList =
      .ok (.disj (.atom 97) (.concat (.atom 98) (.within (.atom 99) ⟨.fin ((1 : Nat) : ℚ) false, .fin ((20 : Nat) : ℚ) true⟩))) ∧
    parsePattern (K := ℚ) "a|".toList = .error .syntax ∧ parsePattern (K := ℚ) "a@".toList = .error (.scan (.exit 2)) ∧
    parsePattern (K := ℚ) "a%(<2147483648)".toList = .error (.scan .ub) := ⟨rfl, rfl, rfl, rfl⟩

/-- After a newline, the rest of the text is not read if another newline follows, and leads to an error otherwise. -/
example : parsePattern (K := ℚ) "a\n\n)@".toList = .ok (.atom 97) ∧ parsePattern (K := ℚ) "a\n".toList = .ok (.atom 97) ∧
    parsePattern (K := ℚ) "a\nb".toList = .error .syntax := ⟨rfl, rfl, rfl⟩

/-! ## C71: precedence of the operators -/

/-- **C71 is wrong**: in `ab|c`, concatenation does not bind stronger than `|`: the usual reading matches `c` alone, the reading of the parser
does not. -/
theorem precedence_wrong [LinearOrder K] : ∃ (s : String) (e f : TRE K), Usual 0 (lexFrom .none s.toList) e ∧ parsePattern s.toList = .ok f ∧
    ∃ w : TWord K, e.Lang w ∧ ¬ f.Lang w := by
  refine ⟨"ab|c", .disj (.concat (.atom 97) (.atom 98)) (.atom 99), .concat (.atom 97) (.disj (.atom 98) (.atom 99)), ?_, rfl, [(99, 1)], .inr ⟨1, rfl⟩, ?_⟩
  · exact .disj (ts := [.atom 'a', .atom 'b']) (us := [.atom 'c']) (.up (.concat (ts := [.atom 'a']) (us := [.atom 'b']) .atom (.up .atom))) (.up (.up (.up .atom)))
  · rintro ⟨u, v, e, ⟨t, rfl⟩, hv⟩
    cases e

/-- The level of the usual precedences. -/
def level : Option BinOp → Nat
  | none => 3
  | some .cat => 2
  | some .amp => 1
  | some .bar => 0

theorem Usual.down {n m : Nat} {ts : List Tok} {e : TRE K} (h : Usual m ts e) (hn : n ≤ m) : Usual n ts e := by
  induction hn using Nat.decreasingInduction with
  | of_succ k _ ih => exact .up ih
  | self => exact h

/-- **C71** (`_partial`: if different binary operators are separated by parentheses): the parser returns the usual reading. -/
theorem precedence_partial {o : Option BinOp} {ts : List Tok} {e : TRE K} (h : Grouped o ts e) : Usual 0 ts e ∧ parseToks ts = .ok e := by
  suffices hs : Usual (level o) ts e ∧ Chain ts e ∧ (o = none → Operand ts e) by
    refine ⟨Usual.down hs.1 (Nat.zero_le _), ?_⟩
    have := parseToks_complete hs.2.1 (.inl rfl : EndEnd [])
    rwa [List.append_nil] at this
  induction h with
  | atom => exact ⟨.atom, .one .atom, fun _ => .atom⟩
  | paren h ih =>
    have := Operand.paren ih.2.1
    exact ⟨.paren (Usual.down ih.1 (Nat.zero_le _)), .one this, fun _ => this⟩
  | plus h ih =>
    have := Operand.plus (ih.2.2 rfl)
    exact ⟨.plus ih.1, .one this, fun _ => this⟩
  | star h ih =>
    have := Operand.star (ih.2.2 rfl)
    exact ⟨.star ih.1, .one this, fun _ => this⟩
  | within h h' ih =>
    have := Operand.within (ih.2.2 rfl) h'
    exact ⟨.within ih.1 h', .one this, fun _ => this⟩
  | concat h h' ho ih ih' =>
    refine ⟨.concat ih.1 (Usual.down ih'.1 ?_), .concat (ih.2.2 rfl) ih'.2.1, fun e => by cases e⟩
    rcases ho with rfl | rfl <;> decide
  | disj h h' ho ih ih' =>
    refine ⟨.disj (Usual.down ih.1 (by decide)) (Usual.down ih'.1 ?_), .disj (ih.2.2 rfl) ih'.2.1, fun e => by cases e⟩
    rcases ho with rfl | rfl <;> decide
  | conj h h' ho ih ih' =>
    refine ⟨.conj (Usual.down ih.1 (by decide)) (Usual.down ih'.1 ?_), .conj (ih.2.2 rfl) ih'.2.1, fun e => by cases e⟩
    rcases ho with rfl | rfl <;> decide

/-- `a(b|c|a)+`. -/
example : ∃ e : TRE ℚ, Grouped (some .cat) (lexFrom .none "a(b|c|a)+".toList) e ∧
    e = .concat (.atom 97) (.plus (.disj (.atom 98) (.disj (.atom 99) (.atom 97)))) :=
  ⟨_, .concat (ts := [.atom 'a']) .atom (.plus (ts := [.lp, .atom 'b', .bar, .atom 'c', .bar, .atom 'a', .rp])
    (.paren (ts := [.atom 'b', .bar, .atom 'c', .bar, .atom 'a']) (.disj (ts := [.atom 'b']) .atom (.disj (ts := [.atom 'c']) .atom .atom (.inl rfl)) (.inr rfl))))
    (.inl rfl), rfl⟩

/-! ## C72: a printed expression is read back -/

/-- **C72 is wrong** for repetition with `*`: the printed text stops the program with exit status 2. -/
theorem print_star_wrong (num : Bnd K → List Char) : ∃ (s : String) (e : TRE K), parsePattern s.toList = .ok e ∧
    parsePattern (K := K) (e.print num) = .error (.scan (.exit 2)) := ⟨"a*", _, rfl, rfl⟩

/-- **C72 is wrong** for time restrictions: the printed text of `a%(1,2)` is `(a%((1, 0),(2, 0)))`, which is a syntax error. -/
theorem print_within_wrong (num : Bnd K → List Char) (h1 : num (.fin ((1 : Nat) : K) false) = ['1']) (h2 : num (.fin ((2 : Nat) : K) false) = ['2']) :
    ∃ (s : String) (e : TRE K), parsePattern s.toList = .ok e ∧ parsePattern (K := K) (e.print num) = .error .syntax := by
  refine ⟨"a%(1,2)", .within (.atom 97) ⟨.fin ((1 : Nat) : K) false, .fin ((2 : Nat) : K) false⟩, rfl, ?_⟩
  simp only [TRE.print, TRE.print.bound, h1, h2]
  rfl

/-- **C72** (`_partial`: for texts without `*` and `%`): a printed expression is read back as the same expression. -/
theorem print_parse_partial (num : Bnd K → List Char) (s : List Char) (e : TRE K) (h : parsePattern s = .ok e) (h1 : '*' ∉ s) (h2 : '%' ∉ s) :
    parsePattern (e.print num) = .ok e := by
  obtain ⟨us, tail, e', hc, ht⟩ := parseToks_sound h
  have hq : ∀ t ∈ us, TokOf (fun c => c ≠ '*' ∧ c ≠ '%') t :=
    pattern_of _ (fun c hc => ⟨fun h => h1 (h ▸ hc), fun h => h2 (h ▸ hc)⟩) e'
  have a1 : e.LettersIn TRE.IsSym := hc.expr.keeps (keeps_letters fun c hc => ⟨c, hc.1, rfl⟩) hq
  have a2 : e.EpsilonFree := hc.expr.keeps (keeps_epsilonFree fun h => h.1 rfl) hq
  have a3 : e.Intervals (fun _ => False) := hc.expr.keeps (keeps_intervals fun _ _ h _ _ => h.2 rfl) hq
  have a4 : e.NoDouble := hc.expr.keeps (keeps_noDouble _) hq
  have hp : (e.print num).takeWhile (· ≠ '\x00') = e.print num :=
    takeWhile_self fun c hc => decide_eq_true (TRE.print_chars num e a1 a2 a3 c hc)
  have hl := TRE.lex_print num e a1 a2 a3 []
  rw [List.append_nil] at hl
  rw [parsePattern, hp, hl]
  exact parseToks_complete (.one (TRE.operand_toks e a1 a2 a3 a4)) (.inl rfl)

/-- `a(b|c)++` is printed as `(a((b|c)+))`. -/
example : ∃ e : TRE ℚ, parsePattern "a(b|c)++".toList = .ok e ∧ e.print (fun _ => []) = "(a((b|c)+))".toList ∧
    parsePattern "(a((b|c)+))".toList = .ok e := ⟨_, rfl, rfl, rfl⟩

/-! ## C73: blanks -/

/-- **C73**: blanks between the elements of an expression may be omitted. -/
theorem blanks_ignored (s : List Char) (e : TRE K) (h : parsePattern s = .ok e) : parsePattern (s.filter fun c => !isBlank c) = .ok e := by
  obtain ⟨us, tail, e', hc, ht⟩ := parseToks_sound h
  obtain ⟨tail', e'', ht'⟩ := (lex_agrees _ _).1.accepted us tail e' hc.clean ht
  have hf : (s.filter fun c => !isBlank c).takeWhile (· ≠ '\x00') = (s.takeWhile (· ≠ '\x00')).filter fun c => !isBlank c := by
    clear h e' e''
    induction s with
    | nil => rfl
    | cons c s ih =>
      by_cases hb : isBlank c = true
      · have hz : c ≠ '\x00' := by rintro rfl; revert hb; decide
        simp only [List.filter_cons, hb, List.takeWhile_cons, hz, ne_eq, not_false_eq_true, decide_true, if_true, Bool.not_true, Bool.false_eq_true, if_false]
        simpa using ih
      · by_cases hz : c = '\x00'
        · subst hz
          simp [List.takeWhile_cons, List.filter_cons, hb]
        · simp [List.takeWhile_cons, List.filter_cons, hb, hz]
          simpa using ih
  rw [parsePattern, hf, e'']
  exact parseToks_complete hc ht'

/-- **C73**: no blank is an event: the letters of every expression are in `[a-zA-Z$]`, and they occur in the text. -/
theorem letters_of_text (s : List Char) (e : TRE K) (h : parsePattern s = .ok e) :
    e.LettersIn fun c => ∃ x ∈ s, LexSt.isLetter x = true ∧ c = x.toNat := by
  obtain ⟨us, tail, e', hc, ht⟩ := parseToks_sound h
  exact hc.expr.keeps (Q := TokOf (· ∈ s)) (keeps_letters fun c hc => ⟨c, hc.2, hc.1, rfl⟩) (pattern_of _ (fun _ hc => hc) e')

/-- `a b % ( 1 , 2 )`; but `%(1 2,3)` is an error although `%(12,3)` is not. -/
example : (∃ e : TRE ℚ, parsePattern "a b % ( 1 , 2 )".toList = .ok e ∧ parsePattern "ab%(1,2)".toList = .ok e) ∧
    parsePattern (K := ℚ) "a%(1 2,3)".toList = .error .syntax ∧ ∃ e : TRE ℚ, parsePattern "a%(12,3)".toList = .ok e := ⟨⟨_, rfl, rfl⟩, rfl, _, rfl⟩

end Verif.Props
