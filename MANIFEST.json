{
 "claims": [
  {
   "property": "C01",
   "status": "proved",
   "theorems": [
    "Verif.Props.matcher_sound",
    "Verif.Props.acceptsFrom_shift"
   ],
   "note": "For monaaDollar with both containers, for all addresses, table contents and logs with non-decreasing non-negative times."
  },
  {
   "property": "C02",
   "status": "partial",
   "theorems": [
    "Verif.Props.matcher_complete_wrong_loop",
    "Verif.Props.matcher_complete_wrong_acyclic",
    "Verif.Props.matcher_complete_tables_partial",
    "Verif.Props.matcher_complete_partial"
   ],
   "note": "False as stated: removeDeadStates and the KMP table lose matches (two refutations). Proved for patterns whose cycles have no guards and resets and are loops at a state or ordered (TA.OrderedLoops), and whose upper bounds are on clocks reset since the start, or which have no resets and guards which all hold between n and n+1 (e.g. restrictions of the whole duration), and for any pattern whose tables are sound; matches need at least one event."
  },
  {
   "property": "C03",
   "status": "proved",
   "theorems": [
    "Verif.Props.matcher_zones_tight"
   ],
   "note": ""
  },
  {
   "property": "C04",
   "status": "proved",
   "theorems": [
    "Verif.Props.matcher_loop_stops",
    "Verif.Props.matcher_stops"
   ],
   "note": "Once the tables are built; their construction is C33 and C35."
  },
  {
   "property": "C05",
   "status": "proved",
   "theorems": [
    "Verif.Props.matcher_streaming"
   ],
   "note": ""
  },
  {
   "property": "C06",
   "status": "proved",
   "theorems": [
    "Verif.Props.lazy_fetch_iff",
    "Verif.Props.lazy_at_event_or_throw",
    "Verif.Props.lazy_at_after_fetch"
   ],
   "note": ""
  },
  {
   "property": "C07",
   "status": "partial",
   "theorems": [
    "Verif.Props.lazy_size_wrong",
    "Verif.Props.lazy_size_partial"
   ],
   "note": "False when setFront passes the end of the input; proved when it does not."
  },
  {
   "property": "C08",
   "status": "proved",
   "theorems": [
    "Verif.Props.binary_vector",
    "Verif.Props.binary_lazy"
   ],
   "note": "Relative to an abstract decoder of the eight bytes of a double."
  },
  {
   "property": "C09",
   "status": "proved",
   "theorems": [
    "Verif.Props.answers_size",
    "Verif.Props.answers_printed"
   ],
   "note": ""
  },
  {
   "property": "C10",
   "status": "partial",
   "theorems": [
    "Verif.Props.calls_independent_wrong",
    "Verif.Props.calls_independent_partial"
   ],
   "note": "Refuted: a static vector of reset times is sized by the first pattern with silent transitions; later patterns with more clocks index out of bounds. Proved when no earlier pattern with silent transitions has fewer clocks, or the pattern has no silent transitions; also the failures agree."
  },
  {
   "property": "C11",
   "status": "proved",
   "theorems": [
    "Verif.Props.signal_sound"
   ],
   "note": "For every content of the skip tables, of the static variable and for both containers."
  },
  {
   "property": "C12",
   "status": "partial",
   "theorems": [
    "Verif.Props.optional_sound_wrong",
    "Verif.Props.optional_sound_partial"
   ],
   "note": "False: the zone of a match which ends at an event contains earlier ends (wrong sign of the lower bound of the end). Proved: the begin is right, and the zone also contains a true end at or after the reported one."
  },
  {
   "property": "C13",
   "status": "partial",
   "theorems": [
    "Verif.Props.sunday_sound_wrong",
    "Verif.Props.sunday_sound_partial",
    "Verif.Props.sunday_sound_live_partial"
   ],
   "note": "False for patterns with loops (dead-state removal drops live states). Proved for patterns whose cycles have no guards and resets and are loops at a state or ordered (TA.OrderedLoops), and for all patterns whose live states are kept."
  },
  {
   "property": "C14",
   "status": "partial",
   "theorems": [
    "Verif.Props.kmp_sound_wrong",
    "Verif.Props.kmp_sound_partial"
   ],
   "note": "False as stated (widen drops the lower bounds instead of the upper ones). Proved when upper bounds are on clocks reset since the start, or when no clock is reset and all guards hold between n and n+1 (OneWindow, by retiming the word), without zeroDuration states."
  },
  {
   "property": "C15",
   "status": "proved",
   "theorems": [
    "Verif.Props.zone_isSatisfiable_iff"
   ],
   "note": ""
  },
  {
   "property": "C16",
   "status": "proved",
   "theorems": [
    "Verif.Props.zone_canonize_solutions",
    "Verif.Props.zone_canonize_tight"
   ],
   "note": ""
  },
  {
   "property": "C17",
   "status": "proved",
   "theorems": [
    "Verif.Props.zone_tighten_solutions",
    "Verif.Props.zone_tighten_tight"
   ],
   "note": ""
  },
  {
   "property": "C18",
   "status": "proved",
   "theorems": [
    "Verif.Props.zone_reset_solutions"
   ],
   "note": ""
  },
  {
   "property": "C19",
   "status": "proved",
   "theorems": [
    "Verif.Props.zone_elapse_solutions"
   ],
   "note": ""
  },
  {
   "property": "C20",
   "status": "proved",
   "theorems": [
    "Verif.Props.zone_abstractize"
   ],
   "note": ""
  },
  {
   "property": "C21",
   "status": "proved",
   "theorems": [
    "Verif.Props.zone_cutVars_solutions"
   ],
   "note": ""
  },
  {
   "property": "C22",
   "status": "partial",
   "theorems": [
    "Verif.Props.zone_intersectionAssign_wrong",
    "Verif.Props.zone_intersectionAssign_partial"
   ],
   "note": "The code violates the property: the result of cwiseMin is discarded. Refuted by a witness; the partial theorem says exactly when the result is right."
  },
  {
   "property": "C23",
   "status": "partial",
   "theorems": [
    "Verif.Props.zone_makeGuard_wrong",
    "Verif.Props.zone_makeGuard_partial"
   ],
   "note": "The code violates the lower-bound half (sign error). Upper bounds and containment are proved for integer zones with non-negative clocks."
  },
  {
   "property": "C24",
   "status": "partial",
   "theorems": [
    "Verif.Props.interval_contain_iff",
    "Verif.Props.interval_constructors",
    "Verif.Props.interval_inter_wrong",
    "Verif.Props.interval_inter_partial"
   ],
   "note": "Violated on equal lower ends with different flags; otherwise exact."
  },
  {
   "property": "C25",
   "status": "partial",
   "theorems": [
    "Verif.Props.interval_land_wrong",
    "Verif.Props.interval_land_partial",
    "Verif.Props.interval_land1_partial"
   ],
   "note": "Violated as C24."
  },
  {
   "property": "C26",
   "status": "partial",
   "theorems": [
    "Verif.Props.interval_add_wrong",
    "Verif.Props.interval_add_partial",
    "Verif.Props.interval_addAll_partial"
   ],
   "note": "Exact for non-empty intervals; wrong for empty operands."
  },
  {
   "property": "C27",
   "status": "partial",
   "theorems": [
    "Verif.Props.interval_plus_wrong",
    "Verif.Props.interval_plus_point_ub",
    "Verif.Props.interval_plus_partial"
   ],
   "note": "Violated for open intervals with l = k(u-l) and for points; the set computed is characterised exactly for all 0 <= l < u."
  },
  {
   "property": "C28",
   "status": "partial",
   "theorems": [
    "Verif.Props.interval_plusAll_wrong",
    "Verif.Props.interval_plusAll_partial"
   ],
   "note": "Violated as C27; exact without gap values and below 32 intervals."
  },
  {
   "property": "C29",
   "status": "proved",
   "theorems": [
    "Verif.Props.isMember_iff",
    "Verif.Props.isMember_iff_silent"
   ],
   "note": "For automata whose guards and resets only use declared clocks (otherwise the code has undefined behaviour)."
  },
  {
   "property": "C30",
   "status": "partial",
   "theorems": [
    "Verif.Props.intersection_wrong",
    "Verif.Props.intersection_partial",
    "Verif.Props.intersection_silent_partial",
    "Verif.Props.intersection_wellFormed"
   ],
   "note": "False in general: the zeroDuration flag drops product states, refuted by intersection_wrong; proved when both automata use the flag in the same constant way."
  },
  {
   "property": "C31",
   "status": "proved",
   "theorems": [
    "Verif.Props.deepCopy_independent",
    "Verif.Props.deepCopy_map"
   ],
   "note": ""
  },
  {
   "property": "C32",
   "status": "proved",
   "theorems": [
    "Verif.Props.za_covers",
    "Verif.Props.za_from_automaton",
    "Verif.Props.za_empty"
   ],
   "note": ""
  },
  {
   "property": "C33",
   "status": "partial",
   "theorems": [
    "Verif.Props.za_no_error",
    "Verif.Props.za_terminates_wrong",
    "Verif.Props.za_slow_diverges",
    "Verif.Props.za_terminates_partial",
    "Verif.Props.za_terminates_oneClock_partial"
   ],
   "note": "False: a two-clock pattern makes the construction run for ever. Proved for automata with no guard and no reset on their cycles, and for all automata with at most one clock (finitely many zones can be reached)."
  },
  {
   "property": "C34",
   "status": "proved",
   "theorems": [
    "Verif.Props.za_empty_iff",
    "Verif.Props.za_wellFormed"
   ],
   "note": ""
  },
  {
   "property": "C35",
   "status": "partial",
   "theorems": [
    "Verif.Props.za_dead_wrong",
    "Verif.Props.za_dead_terminates",
    "Verif.Props.za_dead_sound",
    "Verif.Props.za_dead_partial",
    "Verif.Props.za_dead_cycles_partial",
    "Verif.Props.za_dead_pattern_partial"
   ],
   "note": "False for graphs with cycles; exact for graphs without cycles other than self loops, for graphs with cycles in which the last live successor of every live state is nearer to an accepting state, and so for the zone automata of patterns with ordered cycles; always terminates and never keeps a dead state."
  },
  {
   "property": "C36",
   "status": "proved",
   "theorems": [
    "Verif.Props.constraint_satisfy_iff",
    "Verif.Props.constraint_compare",
    "Verif.Props.constraint_widen"
   ],
   "note": ""
  },
  {
   "property": "C37",
   "status": "partial",
   "theorems": [
    "Verif.Props.eventTA_lang_wrong",
    "Verif.Props.eventTA_lang_wrong_superset",
    "Verif.Props.eventTA_lang_partial",
    "Verif.Props.eventTA_lang_epsilonFree_partial"
   ],
   "note": "Refuted in both directions: the zeroDuration flag of the merged accepting state. Proved when repetition, intersection and time restriction are applied to expressions which do not match the empty word."
  },
  {
   "property": "C38",
   "status": "partial",
   "theorems": [
    "Verif.Props.eventTA_targets_wrong",
    "Verif.Props.eventTA_final_partial"
   ],
   "note": "Refuted: transitions without target are left by intersection with an expression matching the empty word. Proved: accepting states are final for all expressions with integer bounds; targets exist if the empty word is used in choice and concatenation only."
  },
  {
   "property": "C39",
   "status": "partial",
   "theorems": [
    "Verif.Props.eventTA_layout_wrong",
    "Verif.Props.eventTA_layout_partial"
   ],
   "note": "Refuted for (a*)&a. Proved under the restrictions of C37."
  },
  {
   "property": "C40",
   "status": "partial",
   "theorems": [
    "Verif.Props.resetVars_roundtrip_wrong",
    "Verif.Props.print_read_partial"
   ],
   "note": "Guards, and resets as printed by the printer of automata, are read back. Refuted for operator<< of ResetVars, which prints clock numbers as characters."
  },
  {
   "property": "C41",
   "status": "partial",
   "theorems": [
    "Verif.Props.loaded_clocks_wrong",
    "Verif.Props.loaded_clocks_partial"
   ],
   "note": "Refuted: clocks which are only reset are not declared. Proved for guards, and for resets of clocks up to one which occurs in a guard."
  },
  {
   "property": "C42",
   "status": "partial",
   "theorems": [
    "Verif.Props.dnf_complete",
    "Verif.Props.dnf_lang_partial",
    "Verif.Props.dnf_lang_wrong",
    "Verif.Props.dnf_lang_wrong_strict",
    "Verif.Props.dnf_defined_wrong"
   ],
   "note": "Refuted: concatenation distributed over conjunction, strict lower ends at 0, undefined behaviour for b*a. No signal is lost for any expression; exact if conjunctions and the empty word are not below concatenations and lower ends do not differ in strictness only."
  },
  {
   "property": "C43",
   "status": "partial",
   "theorems": [
    "Verif.Props.normalForm_terminates_partial",
    "Verif.Props.normalForm_conj_wrong",
    "Verif.Props.normalForm_terminates_wrong",
    "Verif.Props.normalForm_defined_wrong"
   ],
   "note": "Refuted for every expression with a conjunction (endless loop or undefined behaviour, never a result), and undefined behaviour for (a%[1,1])+. Proved to terminate for expressions without conjunction."
  },
  {
   "property": "C44",
   "status": "proved",
   "theorems": [
    "Verif.Props.main_matched_iff",
    "Verif.Props.main_status_two_iff",
    "Verif.Props.main_status_one_iff"
   ],
   "note": "Parser, automaton reader and matcher are arguments of this model; C79 and C80 put the modelled ones in. Status 10 comes out of the table construction inside the matcher (sundayTable, error exit 10)."
  },
  {
   "property": "C45",
   "status": "partial",
   "theorems": [
    "Verif.Props.izone_tighten_wrong",
    "Verif.Props.izone_tighten_partial"
   ],
   "note": "Refuted for a constraint between a variable and itself (ignored in interval representation). Proved for different variables, in all representations, with definedness and preservation of the invariant."
  },
  {
   "property": "C46",
   "status": "partial",
   "theorems": [
    "Verif.Props.pattern_returns_wrong",
    "Verif.Props.pattern_hangs",
    "Verif.Props.dollar_hangs",
    "Verif.Props.dollar_bounds",
    "Verif.Props.dollar_total_partial",
    "Verif.Props.signal_total_partial",
    "Verif.Props.optional_total_partial",
    "Verif.Props.pattern_returns_partial"
   ],
   "note": "Refuted: for ((a%(1,2))+)$ the tables are never finished, and so for every pattern with a suitable loop at an initial state. Proved for patterns whose cycles have no guards and resets and are loops at a state or ordered (TA.OrderedLoops) (without silent transitions if there are loops), for all three matchers; for pattern texts without *, > and & where only letters are repeated, or only expressions without restrictions, intersections and $, not at the end."
  },
  {
   "property": "C47",
   "status": "proved",
   "theorems": [
    "Verif.Props.text_vector",
    "Verif.Props.text_lazy"
   ],
   "note": "Relative to an abstract number scanner."
  },
  {
   "property": "C48",
   "status": "partial",
   "theorems": [
    "Verif.Props.containers_agree_wrong",
    "Verif.Props.containers_agree_partial"
   ],
   "note": "False for malformed text; proved for all binary files."
  },
  {
   "property": "C49",
   "status": "proved",
   "theorems": [
    "Verif.Props.printed_block_exact"
   ],
   "note": ""
  },
  {
   "property": "C50",
   "status": "partial",
   "theorems": [
    "Verif.Props.parse_error_status_wrong",
    "Verif.Props.parse_error_status_partial",
    "Verif.Props.program_status_two"
   ],
   "note": "False for automaton files (uncaught exception); holds for expressions."
  },
  {
   "property": "C51",
   "status": "partial",
   "theorems": [
    "Verif.Props.signal_complete_wrong",
    "Verif.Props.signal_complete_partial"
   ],
   "note": "False even for acyclic patterns whose upper bounds are on clocks reset since the start (KMP table). Proved, also with plain loops at a state or ordered cycles, if moreover the transitions to accepting states have no upper bounds."
  },
  {
   "property": "C52",
   "status": "proved",
   "theorems": [
    "Verif.Props.signal_zones_tight"
   ],
   "note": ""
  },
  {
   "property": "C53",
   "status": "proved",
   "theorems": [
    "Verif.Props.signal_streaming",
    "Verif.Props.optional_streaming"
   ],
   "note": ""
  },
  {
   "property": "C54",
   "status": "proved",
   "theorems": [
    "Verif.Props.signal_stops",
    "Verif.Props.silent_stops",
    "Verif.Props.optional_stops"
   ],
   "note": "Once the tables are built; their construction is C33 and C35."
  },
  {
   "property": "C55",
   "status": "partial",
   "theorems": [
    "Verif.Props.optional_complete_partial",
    "Verif.Props.optional_complete_wrong"
   ],
   "note": "Refuted in general by optional_complete_wrong. Proved for patterns whose cycles have no guards and resets and are loops at a state or ordered (TA.OrderedLoops), and whose upper bounds are on clocks reset since the start or which satisfy OneWindow, without zeroDuration states (the tables are those of C13 and C14)."
  },
  {
   "property": "C56",
   "status": "proved",
   "theorems": [
    "Verif.Props.izone_alloc"
   ],
   "note": "For zones built as in following a match."
  },
  {
   "property": "C57",
   "status": "proved",
   "theorems": [
    "Verif.Props.izone_project"
   ],
   "note": "For zones built as in following a match."
  },
  {
   "property": "C58",
   "status": "proved",
   "theorems": [
    "Verif.Props.izone_isSat"
   ],
   "note": "For zones built as in following a match."
  },
  {
   "property": "C59",
   "status": "partial",
   "theorems": [
    "Verif.Props.silent_sound_wrong",
    "Verif.Props.silent_sound_partial"
   ],
   "note": "Refuted: clocks reset by silent transitions are recorded as reset at instant 0. Proved if silent transitions reset no clocks."
  },
  {
   "property": "C60",
   "status": "proved",
   "theorems": [
    "Verif.Props.silent_zones_tight"
   ],
   "note": "For all patterns with silent transitions, also those which reset clocks."
  },
  {
   "property": "C61",
   "status": "partial",
   "theorems": [
    "Verif.Props.eventTA_unbounded_wrong",
    "Verif.Props.eventTA_defined_partial"
   ],
   "note": "Refuted for every time restriction without upper end: infinity is converted to int. Proved for expressions with integer bounds."
  },
  {
   "property": "C62",
   "status": "partial",
   "theorems": [
    "Verif.Props.expression_match_sound_partial",
    "Verif.Props.expression_match_sound_wrong"
   ],
   "note": "Refuted in general by expression_match_sound_wrong (((a*)%(1,2))$ is reported in a log where it does not match). Proved under the restrictions of C37; missing: the empty word below repetition, intersection and time restriction."
  },
  {
   "property": "C63",
   "status": "proved",
   "theorems": [
    "Verif.Props.loaded_lang"
   ],
   "note": ""
  },
  {
   "property": "C64",
   "status": "partial",
   "theorems": [
    "Verif.Props.print_load_lang",
    "Verif.Props.print_load_member_wrong",
    "Verif.Props.print_load_member_partial"
   ],
   "note": "The language is always kept. isMember of the loaded automaton writes out of bounds if a clock is reset but never read; proved equal otherwise."
  },
  {
   "property": "C65",
   "status": "partial",
   "theorems": [
    "Verif.Props.tre2ta_wrong",
    "Verif.Props.tre2ta_lang_partial"
   ],
   "note": "Refuted: printing throws for (a*)&a (null target). Proved under the restrictions of C37."
  },
  {
   "property": "C66",
   "status": "partial",
   "theorems": [
    "Verif.Props.normalForm_complete_partial",
    "Verif.Props.normalForm_lang_partial",
    "Verif.Props.normalForm_lang_wrong"
   ],
   "note": "False in general: alternatives share letters which are changed in place (normalForm_lang_wrong). Proved for expressions without shared objects and conjunctions: no signal is lost; equality for closed lower ends."
  },
  {
   "property": "C67",
   "status": "proved",
   "theorems": [
    "Verif.Props.normalForm_no_mixed"
   ],
   "note": ""
  },
  {
   "property": "C68",
   "status": "partial",
   "theorems": [
    "Verif.Props.signalTA_complete_partial",
    "Verif.Props.signalTA_lang_partial",
    "Verif.Props.signalTA_final_partial",
    "Verif.Props.signalTA_wrong",
    "Verif.Props.signalTA_silent_wrong"
   ],
   "note": "Refuted: undefined behaviour for repetitions and restrictions of more than one letter, (ab)+ and (ab)%(1,2); silent transitions with resets. Proved if these are only applied to one letter, under the restrictions of C66."
  },
  {
   "property": "C69",
   "status": "partial",
   "theorems": [
    "Verif.Props.expression_signal_sound_partial",
    "Verif.Props.expression_signal_sound_wrong"
   ],
   "note": "Refuted: the automata may have silent transitions with resets, which the matcher records at instant 0 (C59). Proved under the restrictions of C68."
  },
  {
   "property": "C70",
   "status": "proved",
   "theorems": [
    "Verif.Props.scan_spec",
    "Verif.Props.parse_spec",
    "Verif.Props.parse_grammar",
    "Verif.Props.chain_unique",
    "Verif.Props.parse_total"
   ],
   "note": "For the grammar and the token patterns of the repository; flex and bison themselves (longest match, shift preferred) are part of the model."
  },
  {
   "property": "C71",
   "status": "partial",
   "theorems": [
    "Verif.Props.precedence_wrong",
    "Verif.Props.precedence_partial"
   ],
   "note": "Refuted: ab|c is read as a(b|c). Proved if different binary operators are separated by parentheses; the exact grouping is C70."
  },
  {
   "property": "C72",
   "status": "partial",
   "theorems": [
    "Verif.Props.print_star_wrong",
    "Verif.Props.print_within_wrong",
    "Verif.Props.print_parse_partial"
   ],
   "note": "Refuted for * and time restrictions. Proved for all other expressions."
  },
  {
   "property": "C73",
   "status": "proved",
   "theorems": [
    "Verif.Props.blanks_ignored",
    "Verif.Props.letters_of_text"
   ],
   "note": "doc/TRE.md says that a blank is an event; the code skips blanks."
  },
  {
   "property": "C74",
   "status": "partial",
   "theorems": [
    "Verif.Props.parse_plain",
    "Verif.Props.pattern_match_sound_partial",
    "Verif.Props.pattern_match_sound_wrong"
   ],
   "note": "Refuted in general by pattern_match_sound_wrong. Proved for patterns without * and > and at most 256 clocks; the other restrictions of C37 and C61 follow from these."
  },
  {
   "property": "C75",
   "status": "partial",
   "theorems": [
    "Verif.Props.pattern_match_complete_wrong",
    "Verif.Props.expression_match_complete_partial",
    "Verif.Props.pattern_match_complete_partial"
   ],
   "note": "Refuted by (a%(<1))((a%(1,3))$). Proved for patterns without * and > in which only letters are repeated, or only expressions without restrictions, intersections and $, not at the end of the pattern, with at most 128 clocks, and where no time restriction starts with the match, or which are restrictions of the whole match with a common interval (n, n+1), e.g. ((a(a+))%(1,20))$."
  },
  {
   "property": "C76",
   "status": "partial",
   "theorems": [
    "Verif.Props.expression_signal_complete_wrong",
    "Verif.Props.expression_signal_complete_partial",
    "Verif.Props.expression_signal_noUpper_partial"
   ],
   "note": "Refuted by a pattern whose automaton has a silent transition with a reset. Proved for flat Clean expressions and signals in which every letter takes some time, if the automaton has no upper bounds on its first and last letters (met by all expressions whose time restrictions have no upper ends). Missing: letters of duration 0, expressions which are not flat or not Clean, such upper bounds, logs in which neighbours have the same letter or time."
  },
  {
   "property": "C77",
   "status": "proved",
   "theorems": [
    "Verif.Props.signalTA_no_dead_code",
    "Verif.Props.signalTA_accepting_final",
    "Verif.Props.normalForm_conj_wrong"
   ],
   "note": ""
  },
  {
   "property": "C78",
   "status": "partial",
   "theorems": [
    "Verif.Props.pattern_defined_wrong",
    "Verif.Props.pattern_defined_wrong_conj",
    "Verif.Props.dollar_outcome",
    "Verif.Props.pattern_defined_partial"
   ],
   "note": "Refuted: the initial states of (a*)$ may be unsorted when they are searched. Proved for texts without *, > and & and at most 256 clocks; and for every automaton if the search for initial states is defined."
  },
  {
   "property": "C79",
   "status": "partial",
   "theorems": [
    "Verif.Props.program_sound_partial",
    "Verif.Props.program_complete_partial",
    "Verif.Props.program_ends_partial",
    "Verif.Props.program_signal_sound_partial",
    "Verif.Props.program_signal_complete_partial",
    "Verif.Props.program_signal_noUpper_partial",
    "Verif.Props.program_quiet",
    "Verif.Props.program_hangs",
    "Verif.Props.program_sound_wrong",
    "Verif.Props.program_complete_wrong"
   ],
   "note": "The composition of all modelled parts, from command line and bytes of the log to the printed lines. Sound in event mode for texts without * and >; complete for texts without * and >, where only letters are repeated, or only expressions without restrictions, intersections and $, not at the end, and no time restriction at the beginning, or restrictions of the whole match (strict logs); ends for texts without *, > and & where only letters are repeated, or only expressions without restrictions, intersections and $, not at the end; sound in signal mode for flat expressions, and complete there under the conditions of C76. Refuted in general: soundness by program_sound_wrong, completeness by program_complete_wrong, the end by program_hangs."
  },
  {
   "property": "C80",
   "status": "proved",
   "theorems": [
    "Verif.Props.program_file_sound"
   ],
   "note": "Boost's read_graphviz is an argument (a function from bytes to statements)."
  },
  {
   "property": "C81",
   "status": "partial",
   "theorems": [
    "Verif.Props.signalProduct_complete_partial",
    "Verif.Props.signalProduct_sound_partial",
    "Verif.Props.signalProduct_sound_wrong",
    "Verif.Props.signalProduct_complete_wrong"
   ],
   "note": "Refuted in both directions. Complete for words in which every segment takes time; sound for automata with one letter per state and no transitions from accepting states. The function is not reachable from monaa (C77)."
  },
  {
   "property": "C82",
   "status": "partial",
   "theorems": [
    "Verif.Props.tre2ta_pattern",
    "Verif.Props.tre2ta_status",
    "Verif.Props.pipeline_sound_partial",
    "Verif.Props.pipeline_complete_partial",
    "Verif.Props.eventTA_resets_compared",
    "Verif.Props.pipeline_text_partial",
    "Verif.Props.tre2ta_writes_wrong"
   ],
   "note": "Refuted in general by tre2ta_writes_wrong. The pipeline is proved sound for texts without * and > and at most 256 clocks, and complete under the conditions of C75 if the text has no & (eventTA_resets_compared) or the clocks which are reset are compared in the graph; that Boost reads back the written statements is a hypothesis."
  },
  {
   "property": "C83",
   "status": "partial",
   "theorems": [
    "Verif.Props.ascii2bin_partial",
    "Verif.Props.ascii2bin_short",
    "Verif.Props.ascii2bin_missing",
    "Verif.Props.ascii2bin_wrong"
   ],
   "note": "Refuted by ascii2bin_wrong: the program expects a first line with the number of events and writes that number, which monaa -b takes for part of an event. Proved for texts with such a line, without the first four bytes of the output."
  },
  {
   "property": "C84",
   "status": "partial",
   "theorems": [
    "Verif.Props.snf_shape",
    "Verif.Props.snf_complete",
    "Verif.Props.snf_sound_partial",
    "Verif.Props.snf_sound_wrong"
   ],
   "note": "The shape is proved for all expressions. That no signal is lost is proved for all expressions of the one letter (conjunctions and shared parts included) whose restrictions have finite lower ends. That no signal is added is proved for closed lower ends and where C42 holds; snf_sound_wrong shows an expression for which it is false. Missing: the other expressions for this part."
  },
  {
   "property": "C85",
   "status": "proved",
   "theorems": [
    "Verif.Props.file_lang"
   ],
   "note": "The statements of the file are given; the lexical level of the DOT language is not modelled."
  },
  {
   "property": "C86",
   "status": "partial",
   "theorems": [
    "Verif.Props.attribute_text_bad",
    "Verif.Props.attribute_text_wrong",
    "Verif.Props.attribute_text_partial",
    "Verif.Props.attribute_text_unique"
   ],
   "note": "Refuted: clock numbers are reduced modulo 256, and texts which end too early have undefined behaviour. Proved: exactly which texts have undefined behaviour (attribute_text_bad); a value is read exactly for texts of the right form, and is what is written, up to clock numbers modulo 256."
  },
  {
   "property": "C87",
   "status": "partial",
   "theorems": [
    "Verif.Props.eventTA_consts_wrong",
    "Verif.Props.eventTA_consts_partial",
    "Verif.Props.product_consts",
    "Verif.Props.signalProduct_wellFormed",
    "Verif.Props.signalTA_consts",
    "Verif.Props.loaded_consts"
   ],
   "note": "Refuted for time restrictions with the ends in the wrong order, as a%(5,3). Proved for expressions with ordered integer ends, for both products, for automata from files and (constants at least 0, ends in any order) for all signal automata."
  },
  {
   "property": "C88",
   "status": "partial",
   "theorems": [
    "Verif.Props.program_file_complete_wrong",
    "Verif.Props.program_file_complete_partial"
   ],
   "note": "Refuted by a graph without guards for A(CD)*B$. Proved for graphs whose automaton satisfies the conditions of C02 (cycles, upper bounds) and declares its clocks, without silent transitions, for logs with strictly increasing times."
  },
  {
   "property": "C89",
   "status": "partial",
   "theorems": [
    "Verif.Props.program_file_ends_wrong",
    "Verif.Props.program_file_ends_partial"
   ],
   "note": "Refuted by a graph with two initial vertices whose states are at decreasing addresses (std::binary_search on an unsorted vector is undefined). Proved for initial vertices at increasing addresses and graphs whose automaton satisfies the condition on cycles and declares its clocks."
  },
  {
   "property": "C90",
   "status": "proved",
   "theorems": [
    "Verif.Props.matcher_ordered",
    "Verif.Props.signal_ordered",
    "Verif.Props.optional_ordered",
    "Verif.Props.program_ordered",
    "Verif.Props.optional_ends_wrong"
   ],
   "note": "For every pattern, log, container and content of the skip tables; the order of the ends for monaa and monaaDollar (refuted for monaaNotNecessaryDollar, for which it is not claimed); program_ordered is the statement about the printed blocks of a run of the whole program, in both modes."
  },
  {
   "property": "C91",
   "status": "partial",
   "theorems": [
    "Verif.Props.matcher_prefix_wrong",
    "Verif.Props.matcher_local_partial",
    "Verif.Props.matcher_prefix_partial",
    "Verif.Props.signal_local_partial",
    "Verif.Props.program_local_partial",
    "Verif.Props.program_prefix_partial"
   ],
   "note": "Refuted: one more event at the end of the log removes a result which ends before it. Proved under the conditions of C02 (for monaaDollar) and C51 (for monaa), for pairs with an event between them and for t < t' respectively; program_local_partial and program_prefix_partial are the statements about the printed pairs of whole runs with texts or files."
  },
  {
   "property": "C92",
   "status": "partial",
   "theorems": [
    "Verif.Props.same_language_wrong",
    "Verif.Props.same_language_partial",
    "Verif.Props.same_text_partial",
    "Verif.Props.alternatives_partial",
    "Verif.Props.same_signals_partial",
    "Verif.Props.same_runs_partial"
   ],
   "note": "Refuted by two automata without clocks which accept the same words (A(CD)*B$ and the same with a second way out of the loop). Proved under the conditions of C02 for automata and of C79 for whole runs, for pairs with an event between them; for the signal matcher monaa under the conditions of C51."
  },
  {
   "property": "C93",
   "status": "proved",
   "theorems": [
    "Verif.Props.log_form"
   ],
   "note": "Equality of the outcomes of two runs of the program model; LogIs says which bytes hold which events in the two forms."
  },
  {
   "property": "C94",
   "status": "proved",
   "theorems": [
    "Verif.Props.dollar_unit",
    "Verif.Props.signal_unit",
    "Verif.Props.optional_unit",
    "Verif.Props.member_unit",
    "Verif.Props.translation_unit",
    "Verif.Props.expression_unit",
    "Verif.Props.translation_unit_needs_whole_ends",
    "Verif.Props.signal_translation_unit",
    "Verif.Props.graph_unit",
    "Verif.Props.program_unit",
    "Verif.Props.tre2ta_unit",
    "Verif.Props.pipeline_unit_partial"
   ],
   "note": "For every automaton and log, all three matchers (silent transitions, errors and exceptions included) and the membership test, exact times; for expressions with whole ends also the translation to event automata and the matching; for graphs read from DOT files also the conversion. The translation to signal automata too (signal_translation_unit), and whole runs of monaa in both modes, from an expression text, an expression file or a DOT file (program_unit: same status, the printed lines in the new unit). That the text of the second pattern denotes the first pattern in the new unit is a hypothesis of program_unit (AskedInUnit). tre2ta writes a file for both patterns or fails with the same error for both (tre2ta_unit); for texts without * and > and at most 256 clocks the graph of the second file is that of the first in the new unit, and so are the lines printed by monaa -f (pipeline_unit_partial). The hypothesis on the ends is necessary (translation_unit_needs_whole_ends)."
  },
  {
   "property": "C95",
   "status": "partial",
   "theorems": [
    "Verif.Props.narrower_wrong",
    "Verif.Props.narrower_partial",
    "Verif.Props.narrower_signals_partial",
    "Verif.Props.narrower_den",
    "Verif.Props.narrower_runs_partial",
    "Verif.Props.narrower_text_partial",
    "Verif.Props.conjunction_partial"
   ],
   "note": "Refuted by two automata without clocks which accept the same words. Proved if the wider pattern meets the conditions of C02 (automata), C51 (signal matcher) or C79/C88 (whole runs with texts or files), for pairs with an event between them; the narrower pattern needs the conditions of soundness only. narrower_text_partial: widening or removing time restrictions, removing parts of intersections, adding alternatives. conjunction_partial: an intersection prints exactly the pairs printed for both parts."
  }
 ]
}