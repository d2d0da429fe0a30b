{"id": "C01", "title": "Every reported match is a real match (event mode)", "statement": "Every pair (t,t') of reals inside any zone reported for a `$`-terminated pattern satisfies 0<=t<=t' and the events strictly between t and t', shifted so that t becomes time 0 and closed by `$` at t'-t, are accepted by the given timed automaton.", "quantifier": "all epsilon-free timed automata, all finite words with non-decreasing non-negative timestamps not containing `$`, all reported zones, all points of the zones", "why_tests_cant": "Zones are infinite sets of real pairs and the skip tables depend on the automaton; a finite number of runs cannot cover all automata, words and points.", "anchors": ["libmonaa/monaa.hh:monaaDollar", "libmonaa/monaa.hh:updateConstraint", "libmonaa/monaa.hh:isValidConstraint"]}
{"id": "C02", "title": "No match is lost (event mode)", "statement": "Every pair (t,t') with 0<=t<=t' for which the events strictly between t and t' followed by `$` are accepted belongs to some reported zone.", "quantifier": "all epsilon-free timed automata, all finite timed words, all real pairs (t,t')", "why_tests_cant": "Needs to hold for every skip taken on every word; a test can only exhibit words on which a wrong skip happens not to matter.", "anchors": ["libmonaa/monaa.hh:monaaDollar", "libmonaa/sunday_skip_value.hh:SundaySkipValue", "libmonaa/kmp_skip_value.hh:KMPSkipValue"]}
{"id": "C03", "title": "Reported zones are non-empty and their printed bounds are the tight ones", "statement": "Every zone reported by the matcher contains at least one pair (t,t'), and no one of its six printed bounds can be strengthened without losing a point of the zone.", "quantifier": "all automata, words and reported zones", "why_tests_cant": "Emptiness of a set of reals with strict and non-strict bounds is not observable by sampling.", "anchors": ["libmonaa/monaa.hh:monaaDollar", "libmonaa/monaa.hh:isValidConstraint"]}
{"id": "C04", "title": "The matcher makes progress and stops on every finite word", "statement": "Once the skip tables exist, the matching loop strictly increases its start position on every iteration, so it stops on every finite word whatever the tables contain, as long as every skip is at least one.", "quantifier": "all automata, all skip tables with positive skips, all finite words", "why_tests_cant": "Termination on all inputs is a statement about unboundedly many inputs.", "anchors": ["libmonaa/monaa.hh:monaaDollar", "libmonaa/monaa.hh:monaa"]}
{"id": "C05", "title": "Streaming and in-memory input give the same answers", "statement": "Running the matcher on a lazily read stream, from which already consumed events are discarded, gives exactly the zones, in the same order, obtained from the fully loaded word, and never raises out_of_range.", "quantifier": "all automata and tables, all input streams", "why_tests_cant": "The two containers must agree for every interleaving of fetch, access and discard the matcher can produce.", "anchors": ["libmonaa/lazy_deque.hh:LazyDeque", "libmonaa/word_container.hh:WordVector", "libmonaa/monaa.hh:monaaDollar"]}
{"id": "C06", "title": "The streaming container behaves like the full word", "statement": "After any sequence of fetch, at, and setFront calls, fetch(n) returns true exactly if n is at or after the discarded prefix and before the end of the input; at(n) returns the n-th event of the input or throws, never another event, and does not throw after a successful fetch(n) without later discard.", "quantifier": "all finite input streams and all finite histories of calls", "why_tests_cant": "It is a statement about all histories of a stateful object.", "anchors": ["libmonaa/lazy_deque.hh:LazyDeque::fetch", "libmonaa/lazy_deque.hh:LazyDeque::setFront", "libmonaa/lazy_deque.hh:LazyDeque::operator[]"]}
{"id": "C07", "title": "size() of the streaming container reports the word length once known", "statement": "After a fetch has failed at the end of the input, size() equals the number of events of the input; before, it is the maximal value.", "quantifier": "all finite input streams and all finite histories of calls", "why_tests_cant": "Histories in which the discarded prefix passes the end of the input are easily missed by tests.", "anchors": ["libmonaa/lazy_deque.hh:LazyDeque::size", "libmonaa/lazy_deque.hh:LazyDeque::setFront"]}
{"id": "C08", "title": "Binary input decodes to the events that were written", "statement": "Reading a file made of 9-byte records (one label byte and an 8-byte timestamp) yields exactly the written events in order, and a truncated last record is ignored.", "quantifier": "all finite event sequences and all truncation lengths", "why_tests_cant": "All byte strings cannot be enumerated.", "anchors": ["libmonaa/lazy_deque.hh:getOneBinary", "libmonaa/word_container.hh:WordVector"]}
{"id": "C09", "title": "The number of results does not depend on the output container", "statement": "The vector, counting and printing containers report the same size after the same sequence of operations; quiet mode changes what is printed but not the count, and the non-quiet printer prints one block per pushed zone.", "quantifier": "all finite histories of push_back, clear, reserve", "why_tests_cant": "A statement about all histories.", "anchors": ["libmonaa/ans_vec.hh:AnsContainer", "libmonaa/ans_vec.hh:IntContainer", "libmonaa/ans_vec.hh:PrintContainer"]}
{"id": "C10", "title": "Results of a call do not depend on previous calls", "statement": "Calling the matcher on an automaton gives the same answers whatever automata were matched earlier in the same process.", "quantifier": "all sequences of calls", "why_tests_cant": "Unit tests run the calls in one fixed order; hidden static state only shows for particular sequences.", "anchors": ["libmonaa/monaa.hh:InternalState"]}
{"id": "C11", "title": "Every reported match is a real match (matcher without `$`)", "statement": "For `monaa`, every (t,t') in a reported zone is such that the events strictly between t and t' followed by the event at which the run ends, moved to time t', are accepted by the automaton.", "quantifier": "all epsilon-free automata, all words with non-decreasing non-negative timestamps, all points of the reported zones", "why_tests_cant": "Infinite sets of reals, all automata and words.", "anchors": ["libmonaa/monaa.hh:monaa"]}
{"id": "C12", "title": "Every reported match is a real match (matcher with optional `$`)", "statement": "For `monaaNotNecessaryDollar`, every (t,t') in a reported zone either is a `$`-match or ends exactly at the timestamp t' of the accepting event.", "quantifier": "all epsilon-free automata, words and points of the reported zones", "why_tests_cant": "Infinite sets of reals, all automata and words.", "anchors": ["libmonaa/monaa.hh:monaaNotNecessaryDollar"]}
{"id": "C13", "title": "Quick-search skip table is sound", "statement": "Every word accepted by the pattern has at least m events, its m-th label is in the end-character set, and each shift by delta[c] passes over no start position from which a match could begin.", "quantifier": "all automata, all accepted timed words with strictly positive delays, all labels", "why_tests_cant": "Quantifies over the whole timed language of the automaton.", "anchors": ["libmonaa/sunday_skip_value.hh:SundaySkipValue", "libmonaa/zone_automaton.hh:removeDeadStates", "libmonaa/ta2za.cc:ta2za"]}
{"id": "C14", "title": "KMP skip table is sound", "statement": "If a run of the pattern on the word from position i ends in state s and the table gives n for s, no match starts at a position strictly between i and i+n.", "quantifier": "all automata, all words with strictly increasing timestamps, all start positions and reached states", "why_tests_cant": "Quantifies over all pairs of overlapping timed words.", "anchors": ["libmonaa/kmp_skip_value.hh:KMPSkipValue", "libmonaa/constraint.hh:widen"]}
{"id": "C15", "title": "Satisfiability check of a zone decides non-emptiness", "statement": "isSatisfiable returns true exactly if some assignment of reals to the variables satisfies all the bounds.", "quantifier": "all difference bound matrices of every size with strict, non-strict and infinite bounds", "why_tests_cant": "Infinite set of matrices and real valuations.", "anchors": ["libmonaa/zone.hh:Zone::isSatisfiable", "libmonaa/zone.hh:Zone::canonize"]}
{"id": "C16", "title": "Canonization changes no solution and gives tight bounds", "statement": "canonize keeps exactly the same set of solutions, and for a satisfiable zone the resulting bounds satisfy all triangle inequalities and are tight.", "quantifier": "all difference bound matrices", "why_tests_cant": "Infinite set of matrices and valuations.", "anchors": ["libmonaa/zone.hh:Zone::canonize", "libmonaa/zone.hh:Zone::close1"]}
{"id": "C17", "title": "tighten adds exactly one constraint", "statement": "After tighten(x,y,c) the solutions are exactly the old solutions with x-y bounded by c; if the zone was canonical and stays satisfiable it is canonical afterwards.", "quantifier": "all zones, pairs of variables (including the constant), and bounds", "why_tests_cant": "Infinite set of zones and valuations.", "anchors": ["libmonaa/zone.hh:Zone::tighten"]}
{"id": "C18", "title": "reset is exact", "statement": "After reset(x) of a canonical satisfiable zone the solutions are exactly the old solutions with x set to 0.", "quantifier": "all canonical zones, all clocks, all valuations", "why_tests_cant": "Infinite set of zones and valuations.", "anchors": ["libmonaa/zone.hh:Zone::reset"]}
{"id": "C19", "title": "elapse is exact for strictly positive delays", "statement": "After elapse() of a canonical satisfiable zone the solutions are exactly the old solutions with all clocks advanced by one common strictly positive delay.", "quantifier": "all canonical zones, all valuations, all delays", "why_tests_cant": "Infinite set of zones, valuations and delays.", "anchors": ["libmonaa/zone.hh:Zone::elapse"]}
{"id": "C20", "title": "Abstraction never loses valuations", "statement": "abstractize only enlarges the solution set, and leaves every bound below the maximal constant untouched.", "quantifier": "all zones and all maximal constants", "why_tests_cant": "Infinite set of zones and valuations.", "anchors": ["libmonaa/zone.hh:Zone::abstractize"]}
{"id": "C21", "title": "cutVars is the projection to a range of clocks", "statement": "cutVars(from,to) of a canonical satisfiable zone has exactly the restrictions of the zone's solutions to the clocks from..to as solutions.", "quantifier": "all canonical zones, all ranges, all valuations", "why_tests_cant": "Infinite set of zones and valuations.", "anchors": ["libmonaa/zone.hh:Zone::cutVars"]}
{"id": "C22", "title": "intersectionAssign computes the intersection", "statement": "After z1.intersectionAssign(z2) the solutions of z1 are the common solutions of both zones.", "quantifier": "all pairs of zones of equal size", "why_tests_cant": "Infinite set of zones and valuations.", "anchors": ["libmonaa/zone.hh:Zone::intersectionAssign"]}
{"id": "C23", "title": "makeGuard gives a guard that contains the zone and keeps its bounds", "statement": "Every solution of the zone satisfies the guard returned by makeGuard, and the guard contains every lower and upper bound of the zone below the maximal constant.", "quantifier": "all satisfiable zones over non-negative clocks", "why_tests_cant": "Infinite set of zones and valuations.", "anchors": ["libmonaa/zone.hh:Zone::makeGuard"]}
{"id": "C24", "title": "Interval intersection is set intersection", "statement": "A value is in I && J exactly if it is in I and in J.", "quantifier": "all pairs of intervals and all reals", "why_tests_cant": "Infinite set of intervals and values.", "anchors": ["libmonaa/interval.hh:operator&&"]}
{"id": "C25", "title": "Intersection of interval sets is set intersection", "statement": "After land(left,right) a value is in the union of left exactly if it was in the union of left and is in the union of right (resp. in the interval right).", "quantifier": "all finite interval sets and all reals", "why_tests_cant": "Infinite set of intervals and values.", "anchors": ["libmonaa/interval.hh:land"]}
{"id": "C26", "title": "Interval sum is the Minkowski sum", "statement": "A value is in I + J exactly if it is the sum of a value of I and a value of J; same for the destructive sum of interval sets.", "quantifier": "all non-empty intervals, all reals", "why_tests_cant": "Infinite set of intervals and values.", "anchors": ["libmonaa/interval.hh:operator+", "libmonaa/interval.hh:operator+="]}
{"id": "C27", "title": "Kleene plus of an interval is the union of its iterated sums", "statement": "The union of the intervals produced by I.plus() is the set of sums of one or more values of I.", "quantifier": "all intervals with 0<=lower<upper, all reals", "why_tests_cant": "Infinite set of intervals, values and iteration counts.", "anchors": ["libmonaa/interval.hh:Interval::plus"]}
{"id": "C28", "title": "Kleene plus of an interval set is the set of sums of one or more members", "statement": "The union of the intervals produced by plus(S) is the set of sums of one or more values of the union of S.", "quantifier": "all interval sets of fewer than 32 intervals", "why_tests_cant": "Infinite set of interval sets, values and iteration counts.", "anchors": ["libmonaa/interval.hh:plus"]}
{"id": "C29", "title": "Membership test decides acceptance", "statement": "isMember(w) returns true exactly if the automaton has an accepting run on w.", "quantifier": "all epsilon-free automata whose guards and resets use declared clocks, all finite timed words", "why_tests_cant": "All automata and words.", "anchors": ["libmonaa/timed_automaton.hh:TimedAutomaton::isMember"]}
{"id": "C30", "title": "Product automaton accepts the intersection", "statement": "The automaton built by intersectionTA accepts a word exactly if both arguments accept it.", "quantifier": "all pairs of epsilon-free automata without zero-duration states with at most 255 clocks together, all finite timed words", "why_tests_cant": "All pairs of automata and words.", "anchors": ["libmonaa/intersection.cc:intersectionTA"]}
{"id": "C31", "title": "deepCopy gives an independent automaton with the same language", "statement": "The copy made by deepCopy uses only freshly allocated states, leaves the original unchanged, and accepts the same timed words.", "quantifier": "all closed automata, all allocation orders, all words", "why_tests_cant": "Independence from all later mutations and all words.", "anchors": ["libmonaa/timed_automaton.hh:TimedAutomaton::deepCopy"]}
{"id": "C32", "title": "Zone automaton covers every run", "statement": "If ta2za returns, every run of the timed automaton with strictly positive delays from an initial state is matched, letter by letter, by a path of the zone automaton from an initial state whose zones contain the clock values of the run; hence if the zone automaton is empty the timed automaton accepts nothing.", "quantifier": "all timed automata (epsilon transitions included), all runs", "why_tests_cant": "All automata and all their runs.", "anchors": ["libmonaa/ta2za.cc:ta2za"]}
{"id": "C33", "title": "Zone automaton construction terminates", "statement": "ta2za returns on every timed automaton.", "quantifier": "all timed automata", "why_tests_cant": "Termination on all inputs.", "anchors": ["libmonaa/ta2za.cc:ta2za", "libmonaa/zone.hh:Zone::abstractize"]}
{"id": "C34", "title": "Emptiness check of the zone automaton is reachability", "statement": "empty() returns false exactly if some accepting state is reachable from an initial state.", "quantifier": "all zone automata", "why_tests_cant": "All graphs.", "anchors": ["libmonaa/zone_automaton.hh:ZoneAutomaton::empty"]}
{"id": "C35", "title": "Dead state removal keeps exactly the live states", "statement": "removeDeadStates removes a state exactly if no accepting state is reachable from it or it is not reachable from an initial state.", "quantifier": "all zone automata, all edge orders", "why_tests_cant": "All graphs and all edge orders.", "anchors": ["libmonaa/zone_automaton.hh:ZoneAutomaton::removeDeadStates"]}
{"id": "C36", "title": "Guard evaluation means the comparison it prints", "statement": "A constraint is satisfied by a clock value exactly if the comparison holds; otherwise the three-way result tells on which side the value lies; widen keeps exactly the upper bounds and so never makes a guard stronger.", "quantifier": "all constraints, all real clock values, all guards", "why_tests_cant": "All reals and integers.", "anchors": ["libmonaa/constraint.hh:Constraint", "libmonaa/constraint.hh:widen"]}
{"id": "C37", "title": "Translation of a timed regular expression keeps its language", "statement": "The timed automaton produced for a timed regular expression in event mode accepts exactly the timed words of the expression.", "quantifier": "all timed regular expressions, all timed words, all memory layouts of the allocated states", "why_tests_cant": "All expressions, words and allocation orders.", "anchors": ["monaa/tre.cc:TRE::toEventTA", "monaa/tre.cc:concat2"]}
{"id": "C38", "title": "Accepting states of translated expressions are final", "statement": "In the automaton produced for an expression no accepting state has an outgoing transition (so the time restriction never has to split an accepting state while iterating over the edges) and every transition leads to a state of the automaton.", "quantifier": "all timed regular expressions, all memory layouts", "why_tests_cant": "All expressions.", "anchors": ["monaa/tre.cc:TRE::toEventTA"]}
{"id": "C39", "title": "The result of the translation does not depend on memory layout", "statement": "The language of the automaton produced for an expression is the same for all addresses at which the states are allocated.", "quantifier": "all timed regular expressions, all memory layouts", "why_tests_cant": "A test sees only the addresses of the allocator it runs with.", "anchors": ["monaa/tre.cc:TRE::toEventTA"]}
{"id": "C40", "title": "Printed guards are read back unchanged", "statement": "Parsing the printed form of a guard or of a reset set gives the same guard or set.", "quantifier": "all non-empty guards with clock numbers below 256, and all non-empty reset sets", "why_tests_cant": "All guards.", "anchors": ["libmonaa/constraint.hh:operator<<", "monaa/timed_automaton_parser.hh"]}
{"id": "C41", "title": "Loaded automata only use declared clocks", "statement": "In an automaton loaded from a DOT file every clock occurring in a guard or a reset is smaller than the number of clocks, and the maximal constant of each clock bounds all its guards.", "quantifier": "all DOT automata", "why_tests_cant": "All input files.", "anchors": ["monaa/timed_automaton_parser.hh:convBoostTA"]}
{"id": "C42", "title": "Disjunctive normal form keeps the meaning of an expression", "statement": "Building the disjunctive normal form (DNFTRE) of a timed regular expression has no undefined behaviour, and the normal form denotes the same signals as the expression.", "quantifier": "all timed regular expressions, all signals", "why_tests_cant": "All expressions and signals.", "anchors": ["monaa/intermediate_tre.cc:DNFTRE"]}
{"id": "C43", "title": "Normal form computation terminates", "statement": "toNormalForm returns on every timed regular expression, without undefined behaviour.", "quantifier": "all timed regular expressions", "why_tests_cant": "Termination on all inputs.", "anchors": ["monaa/intermediate_tre.cc:DNFTRE::toNormalForm"]}
{"id": "C44", "title": "Command line outcome", "statement": "The program exits with status 0 after matching, 1 for an unusable option combination or input file, 2 for an unparsable expression, and 10 for a pattern that accepts no event sequence; it never matches when the options are inconsistent.", "quantifier": "all combinations of options and environment answers", "why_tests_cant": "All combinations of options and file system answers.", "anchors": ["monaa/main.cc:main"]}
{"id": "C45", "title": "Intermediate zones of runs with silent moves add exactly one constraint", "statement": "Each tighten operation of the intermediate zone keeps exactly the old solutions that satisfy the new constraint, in interval representation as well as after conversion to a full zone.", "quantifier": "all intermediate zones, bounds and valuations", "why_tests_cant": "Infinite set of zones and valuations.", "anchors": ["libmonaa/intermediate_zone.hh:IntermediateZone"]}
{"id": "C46", "title": "A call of a matcher returns", "statement": "monaaDollar, monaa and monaaNotNecessaryDollar return for every pattern and every finite log: building the skip tables and searching the log both end. In particular matching a pattern text which the parser accepts ends.", "quantifier": "all timed automata, all pattern texts accepted by the parser, all finite logs", "why_tests_cant": "Termination for infinitely many automata; a test only sees a time limit.", "anchors": ["libmonaa/monaa.hh:monaaDollar", "libmonaa/monaa.hh:monaa", "libmonaa/monaa.hh:monaaNotNecessaryDollar", "libmonaa/ta2za.hh:ta2za", "libmonaa/kmp_skip_value.hh:KMPSkipValue", "libmonaa/sunday_skip_value.hh:SundaySkipValue"]}
{"id": "C47", "title": "A text log is read back exactly", "statement": "Writing the events of a log as lines `letter instant` and reading the file with either container gives exactly the events of the log, whatever white space follows the last line.", "quantifier": "all logs, all ways of writing numbers that the number scanner reads back", "why_tests_cant": "All logs and all sequences of container calls.", "anchors": ["libmonaa/lazy_deque.hh:getOne", "libmonaa/word_container.hh:WordVector", "libmonaa/lazy_deque.hh:LazyDeque"]}
{"id": "C48", "title": "Both containers deliver the same events from the same file", "statement": "For every input file, the streaming container and the in-memory container deliver the same sequence of events.", "quantifier": "all files, complete or truncated or malformed", "why_tests_cant": "All byte sequences.", "anchors": ["libmonaa/lazy_deque.hh:getOne", "libmonaa/lazy_deque.hh:getOneBinary", "libmonaa/word_container.hh:WordVector", "libmonaa/lazy_deque.hh:LazyDeque"]}
{"id": "C49", "title": "A printed result describes exactly the zone", "statement": "A pair of instants satisfies the three inequalities printed for a zone if and only if it belongs to the zone.", "quantifier": "all zones with finite lower bounds, all pairs of instants", "why_tests_cant": "Infinitely many zones and pairs.", "anchors": ["libmonaa/ans_vec.hh:AnsPrinter"]}
{"id": "C50", "title": "Parse errors give status 2", "statement": "As the manual says, the program exits with status 2 if the expression or the automaton file cannot be parsed.", "quantifier": "all command lines and environments", "why_tests_cant": "All combinations of options and file system answers.", "anchors": ["monaa/main.cc:main", "doc/man.md"]}
{"id": "C51", "title": "No match of the signal is lost (matcher without `$`)", "statement": "For `monaa`, every pair t < t' such that the segments of the signal between t and t' are accepted by the automaton belongs to some reported zone.", "quantifier": "all epsilon-free automata, all logs with increasing positive timestamps, all pairs of reals", "why_tests_cant": "Infinitely many automata, logs and pairs of instants; the skip tables lose matches only for particular combinations.", "anchors": ["libmonaa/monaa.hh:monaa", "libmonaa/kmp_skip_value.hh:KMPSkipValue"]}
{"id": "C52", "title": "Zones reported for signals are non-empty and tight", "statement": "Every zone reported by `monaa` for a pattern without silent transitions is non-empty and none of its bounds can be strengthened without losing a point.", "quantifier": "all epsilon-free automata and logs", "why_tests_cant": "All automata, logs and real points.", "anchors": ["libmonaa/monaa.hh:monaa"]}
{"id": "C53", "title": "Streaming does not change the result of the other matchers", "statement": "`monaa` and `monaaNotNecessaryDollar` give the same zones in the same order, or fail in the same way, whether the log is streamed or held in memory.", "quantifier": "all automata (with and without silent transitions) and logs", "why_tests_cant": "All automata and logs; the streaming container discards events, which only matters for particular skips.", "anchors": ["libmonaa/monaa.hh:monaa", "libmonaa/monaa.hh:monaaNotNecessaryDollar", "libmonaa/lazy_deque.hh:LazyDeque"]}
{"id": "C54", "title": "The other matchers return", "statement": "Once the skip tables are built, `monaa` (for patterns without silent transitions) and `monaaNotNecessaryDollar` return for every log, without an out-of-range access.", "quantifier": "all automata and logs", "why_tests_cant": "Termination on all inputs.", "anchors": ["libmonaa/monaa.hh:monaa", "libmonaa/monaa.hh:monaaNotNecessaryDollar"]}
{"id": "C55", "title": "No match is lost (matcher with optional `$`)", "statement": "For `monaaNotNecessaryDollar`, every match closed by `$` which contains an event, and every match which ends at an event, belongs to some reported zone.", "quantifier": "all epsilon-free automata, all logs with increasing positive timestamps, all pairs of reals", "why_tests_cant": "Infinitely many automata, logs and pairs of instants.", "anchors": ["libmonaa/monaa.hh:monaaNotNecessaryDollar"]}
{"id": "C56", "title": "Adding an instant to an intermediate zone", "statement": "Allocating a new variable in an intermediate zone gives a variable that was not in use, whose possible values are exactly the instants within the given bounds and not before the newest instant so far; the other variables keep their solutions.", "quantifier": "all intermediate zones met while following a match, all bounds and valuations", "why_tests_cant": "Infinite set of zones, representations and valuations.", "anchors": ["libmonaa/intermediate_zone.hh:alloc"]}
{"id": "C57", "title": "Forgetting instants keeps the others exactly", "statement": "Dropping the variables which are no longer needed projects the solutions exactly to the remaining variables, and the answer zone contains exactly the pairs (beginning, newest instant) of the solutions.", "quantifier": "all intermediate zones met while following a match, all valuations", "why_tests_cant": "Projection quantifies over all values of the dropped variables.", "anchors": ["libmonaa/intermediate_zone.hh:update", "libmonaa/intermediate_zone.hh:toAns"]}
{"id": "C58", "title": "Emptiness test of intermediate zones", "statement": "`isSatisfiableCanonized` of an intermediate zone returns true exactly if some valuation satisfies all its constraints.", "quantifier": "all intermediate zones met while following a match", "why_tests_cant": "All zones and all real valuations.", "anchors": ["libmonaa/intermediate_zone.hh:isSatisfiableCanonized"]}
{"id": "C59", "title": "Every reported match is a real match (patterns with silent transitions)", "statement": "For `monaa` and a pattern with silent transitions, every (t,t') in a reported zone is such that the pattern, started at t, can read the segments of the signal between t and t', taking silent transitions at suitable instants, and end in an accepting state.", "quantifier": "all automata with silent transitions, all logs, all points of reported zones", "why_tests_cant": "Infinitely many automata, logs, instants of silent transitions and points.", "anchors": ["libmonaa/monaa.hh:monaa", "libmonaa/intermediate_zone.hh:IntermediateZone"]}
{"id": "C60", "title": "Zones reported for patterns with silent transitions are non-empty and tight", "statement": "Every zone reported by `monaa` for a pattern with silent transitions is non-empty and none of its bounds can be strengthened without losing a point.", "quantifier": "all automata with silent transitions and logs", "why_tests_cant": "All automata, logs and real points.", "anchors": ["libmonaa/monaa.hh:monaa", "libmonaa/intermediate_zone.hh:toAns"]}
{"id": "C61", "title": "Every expression accepted by the parser can be translated", "statement": "toEventTA of every timed regular expression the parser can build finishes without undefined behaviour; in particular time restrictions with no upper end such as %(>3) are supported, as the manual says.", "quantifier": "all timed regular expressions, all memory layouts", "why_tests_cant": "All expressions; undefined behaviour may go unnoticed in a test.", "anchors": ["monaa/tre.cc:TRE::toEventTA", "monaa/tre_parser.yy:interval"]}
{"id": "C62", "title": "Every match reported for an expression is a match of the expression", "statement": "When the pattern is given as a timed regular expression in event mode, for every pair (t,t') in a reported zone the events strictly between t and t' with times counted from t, followed by the end marker at t', are a timed word of the expression.", "quantifier": "all timed regular expressions, all memory layouts, all logs, all points of reported zones", "why_tests_cant": "Infinitely many expressions, logs and points.", "anchors": ["monaa/main.cc:main", "monaa/tre.cc:TRE::toEventTA", "libmonaa/monaa.hh:monaaDollar"]}
{"id": "C63", "title": "A loaded automaton accepts what its file says", "statement": "The automaton built from a parsed DOT graph accepts exactly the timed words which label a path of the graph from a vertex with init=1 to a vertex with match=1 whose guards hold; the states are distinct, one per vertex, and every transition leads to one of them.", "quantifier": "all graphs, all memory layouts, all timed words, all start times", "why_tests_cant": "All graphs and words.", "anchors": ["monaa/timed_automaton_parser.hh:convBoostTA"]}
{"id": "C64", "title": "Printing an automaton and loading it again changes nothing observable", "statement": "An automaton whose transitions lead to its own states can be printed, the printed file can be loaded, the loaded automaton accepts the same timed words, and isMember gives the same answers on it.", "quantifier": "all automata with clock numbers below 256 and int constants, all memory layouts, all timed words", "why_tests_cant": "All automata and words; also involves the names of nodes being sorted as strings.", "anchors": ["libmonaa/timed_automaton.hh:operator<<", "monaa/timed_automaton_parser.hh:parseBoostTA", "monaa/timed_automaton_parser.hh:convBoostTA"]}
{"id": "C65", "title": "The output of tre2ta means what the expression means", "statement": "tre2ta prints an automaton for every expression, and the printed automaton, once loaded, accepts exactly the timed words of the expression.", "quantifier": "all timed regular expressions with integer bounds, all memory layouts of both programs, all timed words", "why_tests_cant": "All expressions, layouts and words.", "anchors": ["monaa/tre2ta.cc:main", "monaa/tre.cc:TRE::toEventTA", "libmonaa/timed_automaton.hh:operator<<", "monaa/timed_automaton_parser.hh"]}
{"id": "C66", "title": "Normal form keeps the meaning of an expression", "statement": "If toNormalForm returns, the DNFTRE afterwards denotes the same signals as the expression from which it was made: merging neighbouring letters, intersecting time restrictions with the intervals of a letter and replacing the repetition of one letter by the Kleene plus of its intervals neither lose nor add signals.", "quantifier": "all timed regular expressions, all signals", "why_tests_cant": "All expressions and real-valued durations; the objects are shared and changed in place.", "anchors": ["monaa/intermediate_tre.cc:DNFTRE::toNormalForm", "monaa/intermediate_tre.cc:AtomicTRE::toNormalForm", "monaa/intermediate_tre.cc:AtomicTRE::makeSNF"]}
{"id": "C67", "title": "Separation of repetitions with mixed decision is dead code", "statement": "While the normal form of an expression is computed, no repetition, concatenation or disjunction ever has a decision for which isMixed() holds, so the code which separates such repetitions is never executed.", "quantifier": "all timed regular expressions", "why_tests_cant": "Absence of an execution path over all inputs.", "anchors": ["monaa/intermediate_tre.cc:AtomicTRE::toNormalForm", "monaa/intermediate_tre.cc:DNFTRE::toNormalForm", "monaa/intermediate_tre.hh:SyntacticDecision::isMixed"]}
{"id": "C68", "title": "Signal automaton of an expression accepts its signals", "statement": "toSignalTA returns an automaton without silent transitions such that every word it accepts shows a signal of the expression, and every signal of the expression is shown by some accepted word (a word (c1,t1)(c2,t2)... shows c1 until t1, then c2 until t2, and so on).", "quantifier": "all timed regular expressions, all addresses of the states, all signals and timed words", "why_tests_cant": "All expressions and real-valued durations; the translation reads pointers from objects changed in place.", "anchors": ["monaa/tre.cc:toSignalTA", "monaa/tre.cc:renameToEpsilonTransitions", "monaa/intermediate_tre.cc:DNFTRE::toSignalTA", "monaa/intermediate_tre.cc:AtomicTRE::toSignalTA"]}
{"id": "C69", "title": "In signal mode, every reported pair is a match of the expression", "statement": "For an expression given with -e in signal mode, every pair (t,t') of a reported zone is such that the part of the log from t to t', read as a signal, is a signal of the expression.", "quantifier": "all timed regular expressions, all finite logs with non-decreasing times, all pairs of every reported zone", "why_tests_cant": "Infinite sets of reals for all expressions and logs, through the whole chain of normal form, automaton and matcher.", "anchors": ["monaa/main.cc:main", "monaa/tre.cc:toSignalTA", "libmonaa/monaa.hh:monaa"]}
{"id": "C70", "title": "Parser accepts the documented grammar", "statement": "A pattern is accepted iff its tokens before the end of the text form a sentence of the grammar of expressions in doc/TRE.md; the expression returned is one of the readings which the grammar allows, and it is unique: postfix operators apply to the operand before them, concatenation, | and & group to the right. On every text the parser ends, with an expression, a syntax error, exit status 2 for a character of no token, or undefined behaviour for a number larger than INT_MAX.", "quantifier": "all texts", "why_tests_cant": "The grammar is ambiguous and the tests parse a few expressions only; uniqueness and completeness range over all texts.", "anchors": ["monaa/tre_parser.yy:expr", "monaa/tre_parser.yy:interval", "monaa/tre_lexer.l:yylex", "monaa/tre_driver.hh:parse"]}
{"id": "C71", "title": "Operators have the usual precedence", "statement": "Concatenation binds stronger than &, and & stronger than |, so that the expression returned for a pattern is its usual reading.", "quantifier": "all texts of the grammar", "why_tests_cant": "Ranges over all nestings of operators; the tests only check a single operator at a time.", "anchors": ["monaa/tre_parser.yy:expr"]}
{"id": "C72", "title": "Printed expressions are read back", "statement": "operator<< of an expression returned by the parser prints a text for which the parser returns the same expression.", "quantifier": "all patterns accepted by the parser", "why_tests_cant": "Structural property of all expressions; the tests compare some printed texts.", "anchors": ["monaa/tre.cc:operator<<", "libmonaa/interval.hh:operator<<", "monaa/tre_parser.yy:expr"]}
{"id": "C73", "title": "Blanks in patterns have no meaning", "statement": "If a pattern with blanks is accepted, then the pattern without them is accepted with the same expression, and no letter of an expression is a blank.", "quantifier": "all texts", "why_tests_cant": "All positions of blanks in all texts; removing blanks could join numbers or comparison operators.", "anchors": ["monaa/tre_lexer.l:yylex", "doc/TRE.md:Timed Regular Expressions"]}
{"id": "C74", "title": "In event mode, every reported pair is a match of the pattern text", "statement": "For a pattern given as text with -e, in event mode, the translation of the parsed expression succeeds, and every pair (t,t') of a reported zone is such that the events strictly between t and t', with times counted from t, followed by $, match the expression which the grammar gives for the text.", "quantifier": "all texts accepted by the parser, all logs, all addresses of states, all pairs of every reported zone", "why_tests_cant": "Infinite sets of reals for all texts and logs, through scanner, parser, translation and matcher.", "anchors": ["monaa/main.cc:main", "monaa/tre_driver.hh:parse", "monaa/tre.cc:toEventTA", "libmonaa/monaa.hh:monaaDollar"]}
{"id": "C75", "title": "In event mode, no match of the pattern text is lost", "statement": "For a pattern given as text with -e, in event mode, if the events strictly between t and t' (at least one), with times counted from t, followed by $, match the expression which the grammar gives for the text, then some reported zone contains (t,t').", "quantifier": "all texts accepted by the parser, all logs with strictly increasing times, all addresses of states, all pairs of real times", "why_tests_cant": "Uncountably many pairs of times for all texts and logs, through scanner, parser, translation, skip tables and matcher.", "anchors": ["monaa/main.cc:main", "monaa/tre_driver.hh:parse", "monaa/tre.cc:toEventTA", "libmonaa/monaa.hh:monaaDollar", "libmonaa/kmp_skip_value.hh:KMPSkipValue"]}
{"id": "C76", "title": "In signal mode, no match of the expression is lost", "statement": "For an expression given with -e in signal mode, if the part of the log from t to t' (t < t', t' not after the last event), read as a signal, is a signal of the expression, then some reported zone contains (t,t').", "quantifier": "all timed regular expressions, all finite logs with non-decreasing times, all pairs of real times", "why_tests_cant": "Uncountably many pairs of times for all expressions and logs, through normal form, automaton, skip tables and matcher.", "anchors": ["monaa/main.cc:main", "monaa/tre.cc:toSignalTA", "libmonaa/monaa.hh:monaa"]}
{"id": "C77", "title": "Signal automata are never intersected", "statement": "The translation of an expression to a signal automaton never calls intersectionSignalTA, and renameToEpsilonTransitions never makes a new accepting state: each expression with a conjunction already keeps the normal form from being computed, and accepting states have no transitions.", "quantifier": "all timed regular expressions, all addresses of states", "why_tests_cant": "That code is unreachable from every input cannot be shown by running inputs.", "anchors": ["monaa/intermediate_tre.cc:AtomicTRE::toSignalTA", "monaa/intermediate_tre.cc:DNFTRE::toSignalTA", "monaa/intermediate_tre.hh:renameToEpsilonTransitions"]}
{"id": "C78", "title": "Matching a pattern text in event mode has no undefined behaviour", "statement": "For a pattern given as text with -e, in event mode, the call of the matcher has no undefined behaviour and throws no exception; in particular each vector given to std::binary_search is partitioned with respect to the searched state, wherever the states are allocated.", "quantifier": "all texts accepted by the parser, all finite logs, all addresses of states", "why_tests_cant": "Addresses are chosen by the allocator, a test sees one choice; undefined behaviour need not be visible.", "anchors": ["monaa/main.cc:main", "monaa/tre.cc:toEventTA", "libmonaa/monaa.hh:monaaDollar"]}
{"id": "C79", "title": "The output of the program describes the matches of the pattern text in the log", "statement": "For monaa -e with a pattern text: each pair (t, t') that satisfies the lines of one block of the output is a match of the expression in the log that the given file (text or binary) or the standard input holds, and in event mode each match satisfies the lines of some block; with --quiet no block is printed; the program ends.", "quantifier": "all command lines, all pattern texts, all contents of the log file, all addresses of states", "why_tests_cant": "The output of one run shows finitely many lines, each of which stands for infinitely many pairs; all texts and logs cannot be run.", "anchors": ["monaa/main.cc:main", "libmonaa/ans_vec.hh:AnsPrinter", "libmonaa/lazy_deque.hh:LazyDeque", "monaa/tre_driver.cc:parse"]}
{"id": "C80", "title": "The output of the program describes matches of the automaton file", "statement": "For monaa -f with a graph file that is read: each pair (t, t') that satisfies the lines of one block of the output is a match: the automaton of the file accepts the events of the log strictly between t and t', with times counted from t, followed by $.", "quantifier": "all command lines, all graph files, all contents of the log file, all addresses of states", "why_tests_cant": "Infinitely many automata and logs; each block stands for infinitely many pairs.", "anchors": ["monaa/main.cc:main", "monaa/timed_automaton_parser.hh:parseBoostTA", "monaa/timed_automaton_parser.hh:convBoostTA"]}
{"id": "C81", "title": "Product of signal automata accepts the common signals", "statement": "The automaton built by intersectionSignalTA accepts a word showing a signal exactly if both arguments accept a word showing that signal, where the two words may split the signal at different instants.", "quantifier": "all pairs of automata without silent transitions, with at most 256 clocks together, all signals", "why_tests_cant": "All pairs of automata and all ways to split a signal.", "anchors": ["libmonaa/intersection.cc:intersectionSignalTA"]}
{"id": "C82", "title": "tre2ta followed by monaa -f reports matches of the expression", "statement": "tre2ta takes the last free argument, or that of -e, as the pattern; ends with status 2 exactly if it is not a sentence of the grammar; otherwise writes a graph, and each pair (t, t') that satisfies the lines of one block printed by monaa -f with that graph is a match of the expression, and each match with at least one event satisfies the lines of some block.", "quantifier": "all command lines of both programs, all pattern texts, all contents of the log, all addresses of states in both processes", "why_tests_cant": "Infinitely many patterns, logs and pairs of times; addresses are not controlled.", "anchors": ["monaa/tre2ta.cc:main", "monaa/main.cc:main", "libmonaa/timed_automaton.hh:operator<<"]}
{"id": "C83", "title": "ascii2bin converts logs", "statement": "For a text log, the output of ascii2bin is a binary log with the same events in the same order, as read by monaa -b.", "quantifier": "all text logs", "why_tests_cant": "All logs, including those without a count line or with a wrong one.", "anchors": ["utils/ascii2bin.c:main", "libmonaa/lazy_deque.hh:getOneBinary"]}
{"id": "C84", "title": "makeSNF reduces an expression to one letter", "statement": "After DNFTRE(e).makeSNF(c) the disjunctive normal form consists of one alternative with the single letter c and a list of intervals; every signal it describes is a signal of e; and if e is built from the letter c only (and without ε), every signal of e is still described.", "quantifier": "all expressions e and letters c for which the function returns", "why_tests_cant": "Infinitely many expressions, intervals and signals; the function changes objects in place.", "anchors": ["monaa/intermediate_tre.cc:AtomicTRE::makeSNF", "monaa/intermediate_tre.cc:DNFTRE::makeSNF"]}
{"id": "C85", "title": "A file of an automaton means what it says", "statement": "A DOT file can be loaded by monaa -f iff the guards and resets of its transitions can be read; the loaded automaton then accepts exactly the timed words on the paths written in the file, from a node whose last declaration has init=1 to a node whose last declaration has match=1. Nodes which are only mentioned in transitions are neither initial nor accepting; the order of the statements does not matter otherwise.", "quantifier": "all files (lists of statements), allocations of states, and timed words", "why_tests_cant": "Infinitely many files and words; declarations may be repeated, missing, or come after the transitions.", "anchors": ["monaa/timed_automaton_parser.hh:parseBoostTA", "monaa/timed_automaton_parser.hh:convBoostTA"]}
{"id": "C86", "title": "Guards and resets in files are read as written", "statement": "Reading a guard or reset attribute of a DOT file gives exactly the constraints (clock, order, constant) or clocks which are written there, and fails with an exception if the text is not of the form {x0 < 5, x1 >= 3} or {0, 1}.", "quantifier": "all texts of attributes", "why_tests_cant": "Infinitely many texts: signs, leading zeros, large numbers, missing blanks, truncated texts.", "anchors": ["monaa/timed_automaton_parser.hh:operator>>(Constraint)", "monaa/timed_automaton_parser.hh:operator>>(std::vector<Constraint>)", "monaa/timed_automaton_parser.hh:operator>>(ResetVars)"]}
{"id": "C87", "title": "Maximal constants bound the guards", "statement": "In the automata built by toEventTA, toSignalTA, intersectionTA and intersectionSignalTA and in those loaded from files the entry of maxConstraints for a clock is at least every constant to which a guard compares the clock (so abstraction by maximal constants is allowed).", "quantifier": "all expressions; all pairs of automata with that property and at most 256 clocks together", "why_tests_cant": "All expressions and automata; a wrong entry shows only in zones beyond it.", "anchors": ["monaa/tre.cc:TRE::toEventTA", "libmonaa/intersection.cc:intersectionTA", "libmonaa/intersection.cc:intersectionSignalTA"]}
{"id": "C88", "title": "For an automaton file, no match is missing in the output", "statement": "For monaa -f with a graph file that is read: if the automaton of the file accepts the events of the log strictly between t and t' (at least one), with times counted from t, followed by $, then (t, t') satisfies the lines of some block of the output, provided the program finishes and --quiet is not given.", "quantifier": "all command lines, all graph files, all contents of the log file, all addresses of states", "why_tests_cant": "A missing line is not visible in the output of a run; whether one is missing depends on the automaton, on the log and on the skip tables, and there are infinitely many of them.", "anchors": ["monaa/main.cc:main", "monaa/timed_automaton_parser.hh:convBoostTA", "libmonaa/monaa.hh:monaaDollar", "libmonaa/kmp_skip_value.hh:KMPSkipValue"]}
{"id": "C89", "title": "With a readable automaton file the program finishes", "statement": "On a consistent command line monaa -f with a graph file that is read and a log that can be opened, the program ends: either the matching finishes, or the program exits with status 10 because the pattern has no match; it finishes the matching if the automaton of the file accepts some word of events followed by $.", "quantifier": "all command lines, all graph files without silent labels, all logs, all addresses of states", "why_tests_cant": "Termination for all automata and logs, and independence of the addresses at which the states happen to be allocated, cannot be observed in finitely many runs.", "anchors": ["monaa/main.cc:main", "monaa/timed_automaton_parser.hh:convBoostTA", "libmonaa/monaa.hh:monaaDollar", "libmonaa/sunday_skip_value.hh:SundaySkipValue", "libmonaa/kmp_skip_value.hh:KMPSkipValue"]}
{"id": "C90", "title": "Results come in the order of the log", "statement": "The zones reported by one call come in the order of the log: if z is reported before z', every event at or before a begin of z is at or before every begin of z'. If the begins are between the same two events, every event before an end of z is before every such end of z' (for monaa and monaaDollar; for monaaNotNecessaryDollar the first part). The same holds for the blocks printed by the program. So a reader of the output can stop as soon as a begin is later than what they look for.", "quantifier": "all patterns (with or without silent transitions for monaa), all logs, both containers, all contents of the skip tables", "why_tests_cant": "The order of the results depends on how far the skip tables move the search after every round; runs on some patterns and logs do not show that no combination of skips goes backwards or that no zone of a later round begins in an earlier gap.", "anchors": ["libmonaa/monaa.hh:monaa", "libmonaa/monaa.hh:monaaDollar", "libmonaa/monaa.hh:monaaNotNecessaryDollar"]}
{"id": "C91", "title": "Only the events between the two ends matter", "statement": "Whether a pair (t, t') is reported depends only on the events strictly between t and t' (for signals also on the value at t') relative to t: if another log has the same events between t + d and t' + d, each d later, then (t, t') is reported for the first log if and only if (t + d, t' + d) is reported for the second. In particular, appending events at or after t' neither adds nor removes the result (t, t').", "quantifier": "all patterns, all pairs of logs, all pairs of instants, all addresses of states, both containers", "why_tests_cant": "It relates the results of two runs on different logs, for all pairs of logs; a lost result shows only if the skip values happen to be reached.", "anchors": ["libmonaa/monaa.hh:monaaDollar", "libmonaa/monaa.hh:monaa", "libmonaa/kmp_skip_value.hh:KMPSkipValue", "libmonaa/sunday_skip_value.hh:SundaySkipValue"]}
{"id": "C92", "title": "Patterns with the same language give the same results", "statement": "What is reported depends on the language of the pattern, not on how it is written: if a pattern matches exactly what one of two other patterns matches, the pairs reported (printed) for it are exactly those reported for one of the other two. In particular two patterns with the same language report the same pairs, and e|f reports what e and f report.", "quantifier": "all triples of patterns, all logs, all pairs of instants, all addresses of states, options and forms of the log", "why_tests_cant": "It relates runs with different patterns, for all logs; a test compares finitely many patterns on finitely many logs and does not know which rewritings of a pattern change the skip tables.", "anchors": ["libmonaa/monaa.hh:monaaDollar", "libmonaa/zone_automaton.hh:ZoneAutomaton::removeDeadStates", "libmonaa/sunday_skip_value.hh:SundaySkipValue", "libmonaa/kmp_skip_value.hh:KMPSkipValue", "monaa/tre.cc:TRE::toEventTA"]}
{"id": "C93", "title": "The form of the log does not matter", "statement": "Two runs which ask for the same pattern, mode and verbosity on logs with the same events print the same and end with the same status, whether the log is text or binary (-b), read from the standard input or from a file (-i), whether it ends with white space or an unfinished record, and whether pattern and log are given by options or as free arguments.", "quantifier": "all patterns (texts and files), all logs, all forms of the log, all consistent command lines", "why_tests_cant": "It relates runs on different bytes and command lines for all patterns and logs; a test compares a few files.", "anchors": ["monaa/main.cc:main", "libmonaa/lazy_deque.hh:LazyDeque", "libmonaa/word_container.hh:WordLazyDeque"]}
{"id": "C94", "title": "The unit of time does not matter", "statement": "If all constants of the pattern and all times of the log are multiplied by the same positive whole number (seconds become milliseconds), each matcher reports as many zones in the same order, and each contains exactly the same pairs, expressed in the new unit; errors are the same too, and the membership test gives the same answer. The same holds for a pattern given as an expression whose time restrictions have whole ends: its translation, to event automata as well as to signal automata, is the same automaton in the new unit. For two runs of the program with such patterns and logs, the printed lines of the second are those of the first in the new unit and the exit status is the same. The same holds for the automaton files written by tre2ta.", "quantifier": "all automata, all expressions with whole ends (event and signal mode), all logs, all positive factors, all addresses of states, both containers, all three matchers, all runs of the program", "why_tests_cant": "It relates two runs for every pattern, log and factor. A bound, a zone, an abstraction or a skip value which treats some constant specially shows only for patterns where this constant matters.", "anchors": ["libmonaa/monaa.hh:monaaDollar", "libmonaa/monaa.hh:monaa", "libmonaa/monaa.hh:monaaNotNecessaryDollar", "libmonaa/zone.hh:Zone::abstractize", "libmonaa/ta2za.cc:ta2za", "libmonaa/timed_automaton.hh:TimedAutomaton::isMember", "monaa/tre.cc:TRE::toEventTA", "monaa/tre.cc:TRE::toSignalTA", "monaa/main.cc:main", "monaa/tre2ta.cc:main"]}
{"id": "C95", "title": "Restricting a pattern never adds results", "statement": "If every word which a pattern matches is also matched by a second pattern, then every pair printed for the first pattern is printed for the second, for the same log. In particular, making a time restriction wider or removing it, removing a part of an intersection, or adding an alternative never removes a result, and an intersection prints exactly the pairs which are printed for both of its parts.", "quantifier": "all pairs of patterns (automata, texts, files) whose languages are included, all logs, all addresses of states, both containers", "why_tests_cant": "It relates the results of two different patterns on every log. A skip table or an emptiness check which is wrong for the wider pattern shows only for certain automata and logs.", "anchors": ["libmonaa/monaa.hh:monaaDollar", "libmonaa/intersection.cc:intersectionTA", "monaa/tre.cc:TRE::toEventTA", "monaa/main.cc:main"]}
