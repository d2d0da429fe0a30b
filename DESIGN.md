# Formal model of MONAA (MasWag/monaa) in Lean 4

The C++ sources in `/repo` are read as text; nothing is compiled or run.  The model lives in `lean/Verif/`:

* `Model/*.lean`: definitions that transcribe the code, nothing else.  Each cites file and lines.
* `Spec/*.lean`: what the properties mean (runs, matches, languages, solutions of zones), written without the model's helpers.
* `Lemmas/*.lean`: proofs.
* `Examples/*.lean`: concrete patterns and logs, for the non-vacuity examples and the refutations.
* `Props/*.lean`: the property theorems, each with an `example` showing that its hypotheses can be met.

| source | model |
|--------|-------|
| libmonaa/zone.hh | `Model/Bounds`, `Model/Zone` |
| libmonaa/interval.hh | `Model/Interval` |
| libmonaa/constraint.hh | `Model/Constraint` |
| libmonaa/timed_automaton.hh | `Model/TA`, `Model/DeepCopy`; the Graphviz printer (146-206) is in `Model/Dot` |
| libmonaa/intersection.cc | `Model/Intersection` (9-131), `Model/IntersectionSignal` (164-312) |
| libmonaa/ta2za.cc, zone_automaton.hh | `Model/ZA` |
| libmonaa/sunday_skip_value.hh, kmp_skip_value.hh | `Model/Skip` |
| libmonaa/lazy_deque.hh, word_container.hh | `Model/Container`, `Model/Reader` |
| libmonaa/ans_vec.hh | `Model/Answers` |
| libmonaa/intermediate_zone.hh | `Model/IntermediateZone` |
| libmonaa/monaa.hh | `Model/Matcher` (search loops, shared by the three functions through a record of hooks), `Model/Monaa` (`monaaDollar`), `Model/Signal` (`monaa`, `monaaNotNecessaryDollar`) |
| monaa/main.cc | `Model/Main` (decisions), `Model/Program` (with all other parts put in) |
| monaa/tre2ta.cc | `Model/Tre2ta` |
| utils/ascii2bin.c | `Model/Ascii2bin` |
| monaa/tre.hh, tre.cc:41-433 | `Model/TRE` |
| monaa/tre.cc:435-491, intermediate_tre.cc:486-667 | `Model/SignalTA` |
| monaa/timed_automaton_parser.hh | `Model/Dot` |
| monaa/tre_lexer.l, tre_parser.yy, tre_driver.hh, tre.cc:7-36 | `Model/Parser` |
| monaa/intermediate_tre.hh, intermediate_tre.cc:1-484 | `Model/DNF`, `Model/NormalForm` |

## Trusted base

* Lean 4 kernel; axioms allowed: `propext`, `Classical.choice`, `Quot.sound`
  (checked by `#print axioms`).  No own axioms, `sorry`, `native_decide`,
  `bv_decide`.
* The hand transcription from C++ to Lean.  Every model definition cites file
  and lines in its doc comment, with the simplifications made there.
* Global simplifications:
  * `double` is an arbitrary linearly ordered field `K` (so ℚ and ℝ are
    instances) extended by one top element `∞`.  Rounding, NaN, negative zero
    and overflow of doubles are not modelled.
  * `int` is ℤ: overflow of `int` constants is not modelled.
  * `std::shared_ptr<TAState>` / `TAState*` is a value of an arbitrary type of
    state names.  Where the code compares addresses, the state names are natural
    numbers and theorems quantify over all assignments of addresses.
  * `std::unordered_map` is an association list; theorems quantify over all
    such lists, hence over all iteration orders of the inputs.
  * `uint8_t` wrap-around of clock numbers is excluded by an explicit
    hypothesis (or is an explicit outcome).
  * Memory exhaustion and I/O errors are not modelled.

## Plan per property

| id | modelled | proof |
|----|----------|-------|
| C01 | `monaaDollar` main loop with arbitrary skip tables | invariant: every configuration represents exactly the start times whose run reaches its state; accept code gives the conjunction of the constraints |
| C02 | same + Sunday + KMP | refuted with concrete pattern/word; `_partial`: complete if the tables are sound; tables are sound under stated conditions (among them: the cycles have no guards and no resets and are loops at a state, `Lemmas/Loops.lean`, or have the transitions in the order in which the translation of expressions makes them, `TA.OrderedLoops`, `Lemmas/Clusters.lean`) |
| C03 | accept code of `monaaDollar` | 3-variable closure invariant, canonical ⇒ tight |
| C04 | outer loop with fuel | fuel `|w|+1` always suffices; start index strictly increases |
| C05 | main loop over an abstract container in exception/state style | simulation between the lazily read container and the list |
| C06, C07 | `LazyDeque` as state machine | invariant over all histories; C07 refuted when the front passes the end, `_partial` otherwise |
| C08 | byte lists | induction |
| C09 | three containers as state machines | induction on histories |
| C10 | static `zeroResetTime` | refuted by witness, `_partial` for equal clock numbers |
| C11, C12 | `monaa`, `monaaNotNecessaryDollar` | as C01; C12 refuted by witness (wrong sign), `_partial` for the `$` part |
| C13 | `SundaySkipValue` | from C32 with hypothesis that dead state removal kept the live states; refuted in general |
| C14 | `KMPSkipValue` | refuted by witness; `_partial` for automata whose upper bounds only read clocks reset since the start, and for automata without resets whose guards all hold between `n` and `n + 1` (`OneWindow`): there the events of the shifted match are moved so that all guards hold |
| C15–C23 | `Zone` on matrices of bounds | Floyd–Warshall invariant, extension lemma for canonical matrices over dense orders; C22, C23 refuted + `_partial` |
| C24–C28 | `Interval` | order reasoning; C24, C25, C27, C28 refuted + `_partial` |
| C29, C30 | `isMember`, `intersectionTA` | induction on words |
| C31 | heap model of `deepCopy` | isomorphism |
| C32–C35 | `ta2za`, `ZoneAutomaton` | BFS closure invariant; C33 and C35 refuted + `_partial` (C33: cycles without guards and resets, or at most one clock; C35: the last live successor is nearer to an accepting state, which holds for ordered cycles) |
| C36 | `Constraint`, `widen` | case analysis |
| C37–C39, C61 | `toEventTA` on a heap with arbitrary addresses | induction on expressions, each operation preserves an invariant of automata; refuted for the empty word below repetition, intersection and time restriction and for restrictions without upper end, `_partial` otherwise |
| C40, C41 | printers / readers, `convBoostTA` | induction; C40 refuted for reset sets, C41 refuted for clocks which are only reset, both `_partial` otherwise |
| C63–C65 | `convBoostTA`, printing followed by loading, `tre2ta` followed by loading | runs of graph and automaton correspond; renumbering of states is a bijection; C64, C65 refuted + `_partial` |
| C42 | `DNFTRE` built on a heap of shared objects, signals as functions on `[0, d)` | induction on expressions; refuted for conjunctions below concatenations, open bounds at 0, ε; `_partial` otherwise |
| C67 | decisions stored in the heap | invariant: at most one letter, and none if `Mixed` |
| C43, C66 | `toNormalForm`, `makeSNF` on the heap, recursion bounded by fuel | refuted (endless loop for every conjunction, sharing between disjuncts); `_partial`: on expressions whose objects are not shared, the heap functions compute functions on trees |
| C68 | `toSignalTA` on the heap of states; words show signals | refuted (undefined behaviour); `_partial` for repetitions and restrictions of one letter: induction on the trees of normal forms |
| C69 | composition of the translation with `monaa` | refuted (silent transitions with resets); `_partial`: C68 and C11; the events between `t` and `t'` show the part of the log |
| C76 | same, `TRE.PosSignals` | refuted by the pattern of C69; `_partial` (`Props/SignalPos.lean`): for flat expressions and signals in which every letter takes some time. The lemmas of C66 and C68 are stated for any set of letter durations closed under addition (`Durs`), so that the word of the automaton has positive durations; such a word with changing letters is determined by its signal, hence it is the log; then C51. For expressions whose time restrictions have no upper ends the conditions on the automaton are proved (`Props/SignalUpper.lean`, invariant of the memory of the normal form) |
| C77 | `toSignalTA`, `renameToEpsilonTransitions` with the outcome `notModelled` | conjunctions are kept by all steps of the normal form, which then never ends; accepting states have no transitions: invariant of the heap of states |
| C70 | scanner as longest-match automaton, parser as a stack machine which prefers to shift | equivalence with an unambiguous grammar by simulation in both directions; the ambiguous grammar has the same sentences |
| C71 | same | refuted for `ab\|c`; `_partial`: equal to the usual reading if operators are not mixed |
| C72 | `operator<<` as a list of characters | refuted for `*` and `%`; `_partial` by induction on the expression |
| C73 | same | tokens with and without blanks agree up to places which no accepted sentence has |
| C74 | composition of parser, translation and `monaaDollar` | properties kept by all rules of the grammar, C62 |
| C75 | same | refuted by a pattern whose first letter is restricted to less than one time unit; `_partial`: the automaton of an expression where only letters are repeated is ranked up to loops at a state; if only expressions without restrictions are repeated, and not at the end, its transitions are in the order which `OrderedLoops` asks for (`Lemmas/TRELoops.lean`, `TREClusters.lean`, `TREClusters2.lean`: induction on the translation, with levels and distances for every construction); its upper bounds are on clocks reset after the start if no restriction starts with the match (induction on the translation); it satisfies `OneWindow` if all restrictions start with the match, end before `$` and contain a common `(n, n + 1)` (`Lemmas/TREWindow.lean`); then C02 |
| C46 | loops cut off by bounds, the outcome `fuel` | refuted: the zones of a loop with a lower bound grow for ever (every bound is used up); `_partial`: if the cycles have no guards and no resets (`TA.PlainCycles`), finitely many zones can be reached, so the search of zones ends (`Lemmas/ZAFinite.lean`); the search for the shortest match ends if no live state is removed (`TA.LoopsOk`) |
| C78 | `std::binary_search` gives `ub` on vectors which are not partitioned | refuted; `_partial`: initial states of the translation are sorted where accepting states are merged (induction on the translation) |
| C79, C80, C88, C89 | `Model/Program.lean`: all modelled parts put together; the log is bytes of a file, read lazily; the result is the printed lines | composition of C44, C47, C54, C74, C75, C69, C76, C02, C46 and the printer; C89 refuted for unsorted initial states |
| C44, C50 | `main` option logic as a decision function | case analysis; C50 refuted for automaton files |
| C45, C56–C58 | `IntermediateZone` | as C17; extension lemma for projections; C45 refuted for a variable and itself |
| C47, C48 | text and binary files as lists of bytes | induction; C48 refuted for malformed text |
| C49 | printed block of a zone | a zone with tight bounds is given by them |
| C51, C55 | `monaa`, `monaaNotNecessaryDollar` + tables | as C02; C51 refuted |
| C52–C54 | as C03, C05, C04 for the other matchers | the search loops are shared |
| C59, C60 | branch of `monaa` for silent transitions | invariant of configurations with a continuation for the rest of the run; C59 refuted for resets by silent transitions; C60 holds for them too, by a weaker invariant of the zones alone |
| C62 | `toEventTA` followed by `monaaDollar` | from C37 and C01 |
| C82 | `Model/Tre2ta.lean`: decisions of tre2ta.cc, with parser, translation and printer put in | composition of C65, C74, C80 and C88; numbers of parsed texts fit in an `int`; printing and loading keeps the conditions on cycles and bounds (`Lemmas/DotLoops.lean`); without `&` the last clock is compared on a path to an accepting state, an invariant of the translation (`Lemmas/TREReset.lean`) |
| C83 | `Model/Ascii2bin.lean`: the loop with variables which may be unassigned | induction on the log |
| C84 | `Model/SNF.lean`: `makeSNF` applied to the result of `toDNF`, objects shared | shape for all expressions; induction on the fuel with an invariant: a changed atom is a singleton which has the durations needed of the atom within all restrictions around it, and which only restrictions of the same operand share; `_partial` for “no signal is added”, which is false where C42 is |
| C85 | `parseBoostTA`, `convBoostTA` on the statements of a file | the graph with the names sorted as strings is the file up to renaming of nodes |
| C86 | readers of attributes | grammar of attributes as a relation; readers are exact for it by cases; refuted for large clock numbers and truncated texts |
| C87 | translations, products and loaded automata with their maximal constants | induction on the expression or on the nested calls of the translation; refuted for `a%(5,3)` in event mode |
| C81 | `intersectionSignalTA` | soundness by induction on runs of the product, completeness by induction on the number of events of both words |
| C90 | the outer loops of the three matchers (`Model/Matcher.lean`, `Model/Signal.lean`) | induction on the rounds: the start position only grows, all zones of a round begin at its start position, and within a round the zones end between the event read last and the next one; for the program: the blocks of the output are the zones in their order, and a pair which satisfies the lines of a block is in its zone |
| C91 | same, two logs | refuted by a log and the same log with one more event; `_partial` from C01 and C02 (C11 and C51 for signals); for whole runs from C79 and C88 |
| C92 | runs of `monaaDollar`, of `monaa` and of the program with different patterns | refuted by two automata with the same language; `_partial`: soundness and completeness (C01, C02, C51, C79) of all runs |
| C93 | `Env.run` on two environments and command lines | both runs are brought to one form which mentions only the events (`run_eq`) |
| C94 | `monaaDollar`, `monaa`, `monaaNotNecessaryDollar`, `isMember` on a pattern and log and on the multiplied ones | every function of the model commutes with the multiplication (bounds, zones, zone automata, tables, configurations, loops), by induction on each loop; the translation `toEventTA` by induction on the expression (each case and the final reduction commute with the multiplication), `convBoostTA` by induction on the edges. The normal form and the translation to signal automata commute with it by a relation between the two memories of nodes, kept by every step. `program_unit` combines these for whole runs (options, pattern text or file, log, printing). `tre2ta_unit` and `pipeline_unit_partial` are about the files written by `tre2ta`: the printed statements differ in the numbers of the guards only, and are read back (C40). Ends which are no whole numbers are truncated, so the claim fails for them (`translation_unit_needs_whole_ends`); no text denotes such ends |
| C95 | `monaaDollar` and whole runs (`Env.run`) for two patterns whose languages are included | soundness of the narrower pattern and completeness of the wider one (C01, C02, C79, C80, C88); inclusion of the languages of texts by induction on a relation `TRE.Narrower` on expressions. False in general, because completeness is (`narrower_wrong`) |

## Disagreements between the code and the properties

Each is a theorem whose name ends in or contains `_wrong`, with a concrete witness.

* C02, C13: `removeDeadStates` drops live states of patterns with cycles, so the quick-search table is too large and matches are lost.
* C02, C14: `widen` drops lower instead of upper bounds, so the KMP table is too large and matches are lost.
* C51: the KMP table loses signal matches when a transition into an accepting state has an upper bound.
* C07: `size()` after the front passed the end of the input.
* C10: the static vector of reset times is sized by the first pattern; later patterns with more clocks are out of bounds.
* C12: wrong sign of a lower bound in the matcher with optional `$`.
* C22: result of `cwiseMin` discarded.  C23: sign of lower bounds.
* C24, C25: order of lower bounds with equal values.  C26: empty operands.  C27, C28: open ends, points.
* C30: product states with different `zeroDuration` flags are dropped, transitions to them have null targets.
* C86: clock numbers in files are reduced modulo 256 (`x256` is `x0`); truncated attributes read variables which were never assigned.
* C87: for `a%(5,3)` the maximal constant is 3 although a guard has the constant 5.
* C33: `ta2za` does not terminate for some patterns.  C35: see C13.
* C46: for `((a%(1,2))+)$` the tables are never finished (in the code: until the bounds reach the precision of doubles or memory ends).
* C78: the matchers search `initialStates` with `std::binary_search`, but the translation of `(a*)$` or `((a|b)&(a|b))$` does not sort them.
* C37–C39: the `zeroDuration` flag of merged accepting states; the result depends on addresses.  C61: infinity converted to `int`.
* C40: `operator<<` for reset sets writes the clocks as characters.
* C41, C64: clocks which are only reset, never tested, do not count; `isMember` on the loaded automaton is then out of bounds.
* C65: printing throws for transitions to removed states (null targets), e.g. for `(a*)&a`.
* C42, C84: concatenations are distributed over conjunctions; the strict lower end 0 is lost; undefined behaviour for `b*a`.
* C66: alternatives share letters, which are merged in place; signals are lost.
* C68: for `(ab)+` and `(ab)%(1,2)` the translation appends to the vector over which it iterates (undefined behaviour).
* C69, C76: in `a((b*)%[0,1])(a%[1,2])` the empty alternative keeps two neighbouring a apart; they are joined by a silent transition which resets
  the clock.  The matcher records the reset at instant 0, reports pairs of too short duration and loses matches after the first time units.
* C71: the grammar has no precedences; `ab|c` is `a(b|c)`.  C72: the empty word is printed as `@`, intervals as `((1, 0),(2, 0))`.
* C73: doc/TRE.md says that a blank is an event, the scanner skips it.  A newline ends a pattern only if another one follows
  or the text ends (`END` is both a token of the rule `unit` and the end of the input).
* C43: the loop over a conjunction does not advance its iterator; repetitions of points are undefined behaviour.
* C45: a constraint between a variable and itself is ignored.
* C48: malformed text.  C50: exceptions for automaton files.
* C83: `ascii2bin` needs and writes a count of events, which neither the text reader nor the binary reader of monaa expects.
* C82: the second test for an empty pattern, after which it would be read from the standard input, is never true.
* C81: a component of the product of signal automata may move alone with a letter which the other one offers but never takes; segments of length 0 are lost.
* C55, C62, C74, C79, C88: consequences of the above for the matchers, for `((a*)%(1,2))$` and for whole runs of the program.
* C89: `monaaDollar` looks for initial states with `std::binary_search` in a vector which is in the order of the vertices of the file, not of the addresses.
* C91: one more event at the end of the log can remove a result which ends before it: with the pattern `a{x0<1}/x0 a{x0>1} $` the pair (2.5, 6) is reported for `a` at 1, 3, 5, and no longer if there is another `a` at 7. (The round which the further event ends has other states, and a greater skip value.)
* C92: `A(CD)*B$` reports nothing for `ACDB`; with a second transition out of the loop (`3 -D→ 6 -B→ 4`), which adds no word, it does.
* C59: silent resets are recorded as resets at instant 0.

Not modelled: Boost's grammar of the DOT language (a file is the list of its statements; quoting of labels), the tables generated
by bison and flex (the conflicts of the grammar are resolved as bison does without declarations: shift), and stdio.  The call of `intersectionSignalTA` in `toSignalTA` and the part of
`renameToEpsilonTransitions` for accepting states are outcomes `notModelled`, which no expression reaches (C77).  `renameToEpsilonTransitions` is modelled for
hash maps which are not rehashed while silent labels are added.

Further simplifications, said again at the definitions: in the translation of expressions addresses are never reused
(the code frees dropped states while it runs); bounds are never `-∞` (`makeUnsat` is modelled, but its result is only
observed through `isSatisfiable`); iteration over hash maps follows the order of the association list.
