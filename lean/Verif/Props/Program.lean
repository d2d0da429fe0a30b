import Verif.Lemmas.Program
import Verif.Props.Dot
import Verif.Props.Hang
import Verif.Props.Main
import Verif.Props.Reader

/-!
# C79, C80: what the whole program prints
-/

set_option linter.unusedSectionVars false

namespace Verif.Props

section general

variable {K : Type} [Field K] [LinearOrder K] [IsStrictOrderedRing K] [FloorRing K]

/-- What is matched if an expression is given. -/
theorem run_expression {E : Env K} {o : Options} (hn : o.Named) {s : String} (hs : (asked o).1 = .expression s) {zs : List (Zone K)} {q : Bool}
    (h : E.run o = .matched zs q) : o.Consistent ∧ q = o.quiet ∧ ∃ (e : TRE K) (A : TA Nat), parsePattern s.toList = .ok e ∧
      (if o.signal then e.signalTA E.alloc E.nfuel else e.eventTA E.alloc) = .ok A ∧
      (if o.signal then E.runSignal else E.runEvent) (asked o).2 o.binary A = .ok zs := by
  obtain ⟨hc, hq, A, hA, -, hr⟩ := (main_matched_iff E.world o hn zs q).1 h
  refine ⟨hc, hq, ?_⟩
  generalize hx : (Except.ok A : Except Err (TA Nat)) = x at hA
  cases hA with
  | file h => rw [hs] at h; cases h
  | @expression text e h hp =>
    rw [hs] at h
    cases h
    refine ⟨e, A, ?_, hx.symm, hr⟩
    simp only [Env.world, parseOutcome] at hp
    cases he : parsePattern (K := K) s.toList with
    | ok e' =>
      rw [he] at hp
      cases hp
      rfl
    | error x =>
      rw [he] at hp
      cases x <;> cases hp

theorem printed_of_pair {E : Env K} {o : Options} {t t' : K} (h : PrintedPair (E.run o).printed t t') :
    ∃ zs, E.run o = .matched zs false ∧ ∃ z ∈ zs, ∀ l ∈ printBlock z, l.Holds t t' := by
  cases hr : E.run o with
  | matched zs q =>
    rw [hr, printed_matched] at h
    cases q with
    | true =>
      obtain ⟨pre, b, post, hn, -⟩ := h
      simp at hn
    | false => exact ⟨zs, rfl, (printedPair_iff zs t t').1 h⟩
  | version => rw [hr] at h; obtain ⟨pre, b, post, hn, -⟩ := h; simp [Outcome.printed] at hn
  | usage => rw [hr] at h; obtain ⟨pre, b, post, hn, -⟩ := h; simp [Outcome.printed] at hn
  | fail n => rw [hr] at h; obtain ⟨pre, b, post, hn, -⟩ := h; simp [Outcome.printed] at hn
  | died x => rw [hr] at h; obtain ⟨pre, b, post, hn, -⟩ := h; simp [Outcome.printed] at hn

/-- A run which is quiet prints no matches. -/
theorem program_quiet (E : Env K) (o : Options) (hn : o.Named) (hq : o.quiet = true) : (E.run o).printed = [] := by
  cases hr : E.run o with
  | matched zs q =>
    obtain ⟨-, h, -⟩ := (main_matched_iff E.world o hn zs q).1 hr
    rw [h, hq, printed_matched]
    rfl
  | version => rfl
  | usage => rfl
  | fail n => rfl
  | died x => rfl

/-- **C79**, soundness (`_partial`: for texts without `*` and `>` and at most 256 clocks).  For a pattern given as a text, in event mode:
every pair `(t, t')` which satisfies the lines of a printed block is a match: the events of the log file strictly between `t` and `t'`,
followed by `$`, match the expression of the text. -/
theorem program_sound_partial (E : Env K) (hinj : Function.Injective E.alloc) (o : Options) (hn : o.Named) (hsig : o.signal = false)
    (s : String) (hs : (asked o).1 = .expression s) (h1 : '*' ∉ s.toList) (h2 : '>' ∉ s.toList)
    (e : TRE K) (hp : parsePattern s.toList = .ok e) (h3 : e.clocks ≤ 256)
    (w : TWord K) (hlog : E.LogIs (asked o).2 o.binary w) (hw : LogOk w) (hst : w.length < E.steps) (t t' : K)
    (h : PrintedPair (E.run o).printed t t') :
    0 ≤ t ∧ t ≤ t' ∧ e.Lang ((between w t t').map (fun e => (e.1, e.2 - t)) ++ [(dollar, t' - t)]) := by
  obtain ⟨zs, hr, z, hz, hl⟩ := printed_of_pair h
  obtain ⟨-, -, e', A, hp', hA, hrun⟩ := run_expression hn hs hr
  rw [hp] at hp'
  cases hp'
  rw [hsig] at hA hrun
  simp only [Bool.false_eq_true, if_false] at hA hrun
  rw [runEvent_eq hlog hst] at hrun
  obtain ⟨-, A', hA', hm⟩ := pattern_match_sound_partial s.toList e hp h1 h2 h3 E.alloc hinj
  rw [hA] at hA'
  cases hA'
  have hm' := hm w hw id E.fuel E.steps hst zs (Or.inl hrun) z hz
  obtain ⟨k1, k2, k3⟩ := matcher_zones_tight A w hw id E.fuel E.steps hst zs (Or.inl hrun) z hz
  exact hm' t t' ((printBlock_has k1 k2 k3 (fun a b hab => ⟨(hm' a b hab).1, (hm' a b hab).2.1⟩) t t').1 hl)

/-- **C79**, completeness (`_partial`: for texts without `*` and `>`, the condition `LoopsOk` on repetitions, at most 128 clocks, no time restriction starting with the
match or the form `Windowed`, logs with strictly increasing times, matches with at least one event).  For a pattern given as a text, in event mode, if the
program finishes the matching and is not quiet: every match satisfies the lines of some printed block. -/
theorem program_complete_partial (E : Env K) (hinj : Function.Injective E.alloc) (o : Options) (hn : o.Named) (hsig : o.signal = false)
    (hq : o.quiet = false) (s : String) (hs : (asked o).1 = .expression s) (h1 : '*' ∉ s.toList)
    (h2 : '>' ∉ s.toList) (e : TRE K) (hp : parsePattern s.toList = .ok e) (h1' : e.LoopsOk) (h3 : e.clocks ≤ 128) (hlate : e.Late ∨ e.Windowed)
    (w : TWord K) (hlog : E.LogIs (asked o).2 o.binary w) (hw : LogOk w) (hstr : LogStrict w) (hlet : LettersOk w) (hst : w.length < E.steps)
    (hr : ∃ zs q, E.run o = .matched zs q) (t t' : K) (h0 : 0 ≤ t) (htt : t ≤ t') (hne : between w t t' ≠ [])
    (hl : e.Lang ((between w t t').map (fun e => (e.1, e.2 - t)) ++ [(dollar, t' - t)])) : PrintedPair (E.run o).printed t t' := by
  obtain ⟨zs, q, hr⟩ := hr
  obtain ⟨-, hq', e', A, hp', hA, hrun⟩ := run_expression hn hs hr
  rw [hp] at hp'
  cases hp'
  rw [hsig] at hA hrun
  simp only [Bool.false_eq_true, if_false] at hA hrun
  rw [runEvent_eq hlog hst] at hrun
  obtain ⟨-, A', hA', hm⟩ := pattern_match_complete_partial s.toList e hp h1 h1' h2 h3 hlate E.alloc hinj
  rw [hA] at hA'
  cases hA'
  obtain ⟨z, hz, hzt⟩ := hm w hw hstr hlet id E.fuel E.steps hst zs (Or.inl hrun) t t' h0 htt hne hl
  rw [hr, printed_matched, hq', hq]
  refine (printedPair_iff zs t t').2 ⟨z, hz, ?_⟩
  obtain ⟨-, A', hA', hm⟩ := pattern_match_sound_partial s.toList e hp h1 h2 (by omega) E.alloc hinj
  rw [hA] at hA'
  cases hA'
  have hm' := hm w hw id E.fuel E.steps hst zs (Or.inl hrun) z hz
  obtain ⟨k1, k2, k3⟩ := matcher_zones_tight A w hw id E.fuel E.steps hst zs (Or.inl hrun) z hz
  exact (printBlock_has k1 k2 k3 (fun a b hab => ⟨(hm' a b hab).1, (hm' a b hab).2.1⟩) t t').2 hzt

/-- **C79** in signal mode (`_partial`: for expressions which are flat, with closed lower ends, and the other conditions of C75).  Every pair
`(t, t')` which satisfies the lines of a printed block is a match: the piece of the signal of the log file from `t` to `t'` is in the
language of the expression. -/
theorem program_signal_sound_partial (E : Env K) (hinj : Function.Injective E.alloc) (o : Options) (hn : o.Named) (hsig : o.signal = true)
    (s : String) (hs : (asked o).1 = .expression s) (e : TRE K) (hp : parsePattern s.toList = .ok e) (he : e.Clean) (hc : e.Closed)
    (hd : e.Distributes) (hi : e.IntEnds) (hf : e.Flat)
    (w : TWord K) (hlog : E.LogIs (asked o).2 o.binary w) (hw : LogOk w) (hst : w.length < E.steps) (t t' : K)
    (h : PrintedPair (E.run o).printed t t') :
    0 ≤ t ∧ ∃ htt : t ≤ t', e.Signals (segment w t t' htt) := by
  obtain ⟨zs, hr, z, hz, hl⟩ := printed_of_pair h
  obtain ⟨-, -, e', A, hp', hA, hrun⟩ := run_expression hn hs hr
  rw [hp] at hp'
  cases hp'
  rw [hsig] at hA hrun
  simp only [if_true] at hA hrun
  rw [runSignal_eq hlog hst] at hrun
  have hm' := expression_signal_sound_partial E.alloc hinj e he hc hd hi hf E.nfuel A hA w hw E.fuel E.steps E.efuel none hst zs (Or.inl hrun) z hz
  have hnf : ∃ r, e.normalForm E.nfuel = .ok r := by
    cases hr : e.normalForm E.nfuel with
    | error x => rw [TRE.signalTA, hr] at hA; cases hA
    | ok r => exact ⟨r, rfl⟩
  obtain ⟨r, hr⟩ := hnf
  obtain ⟨A', hA', -, -, -, -, -, hS, -⟩ := signalTA_final_partial E.alloc hinj e he hi hf hr
  rw [hA] at hA'
  cases hA'
  obtain ⟨k1, k2, k3⟩ := signal_zones_tight A hS w hw E.fuel E.steps E.efuel none hst zs (Or.inl hrun) z hz
  exact hm' t t' ((printBlock_has k1 k2 k3 (fun a b hab => ⟨(hm' a b hab).1, (hm' a b hab).2.1⟩) t t').1 hl)

/-- **C79** in signal mode, completeness (`_partial`: under the conditions of C76).  If the program finishes the matching and is not quiet: every
match in which each letter takes some time satisfies the lines of some printed block. -/
theorem program_signal_complete_partial (E : Env K) (hinj : Function.Injective E.alloc) (o : Options) (hn : o.Named) (hsig : o.signal = true)
    (hq : o.quiet = false) (s : String) (hs : (asked o).1 = .expression s) (e : TRE K) (hp : parsePattern s.toList = .ok e) (he : e.Clean)
    (hi : e.IntEnds) (hf : e.Flat)
    (hU : ∀ A, e.signalTA E.alloc E.nfuel = .ok A → A.UpperAfterReset ∧ A.FinalLower)
    (w : TWord K) (hlog : E.LogIs (asked o).2 o.binary w) (hw : LogOk w) (hstr : LogStrict w) (hlet : LettersOk w)
    (hch : w.IsChain fun a b => a.1 ≠ b.1) (hst : w.length < E.steps) (hr : ∃ zs q, E.run o = .matched zs q)
    (t t' : K) (h0 : 0 ≤ t) (hlt : t < t') (hlast : ∃ b ∈ w, t' ≤ b.2) (hm : e.PosSignals (segment w t t' hlt.le)) :
    PrintedPair (E.run o).printed t t' := by
  obtain ⟨zs, q, hr⟩ := hr
  obtain ⟨-, hq', e', A, hp', hA, hrun⟩ := run_expression hn hs hr
  rw [hp] at hp'
  cases hp'
  rw [hsig] at hA hrun
  simp only [if_true] at hA hrun
  rw [runSignal_eq hlog hst] at hrun
  obtain ⟨u1, u2⟩ := hU A hA
  obtain ⟨z, hz, hzt⟩ := expression_signal_complete_partial E.alloc hinj e he hi hf E.nfuel A hA u1 u2 w hw hstr hlet hch E.fuel E.steps E.efuel
    none hst zs (Or.inl hrun) t t' hlt.le h0 hlast hlt hm
  rw [hr, printed_matched, hq', hq]
  refine (printedPair_iff zs t t').2 ⟨z, hz, ?_⟩
  have hnf : ∃ r, e.normalForm E.nfuel = .ok r := by
    cases hr : e.normalForm E.nfuel with
    | error x => rw [TRE.signalTA, hr] at hA; cases hA
    | ok r => exact ⟨r, rfl⟩
  obtain ⟨r, hr⟩ := hnf
  obtain ⟨A', hA', -, -, -, -, hT, hS, -⟩ := signalTA_final_partial E.alloc hinj e he hi hf hr
  rw [hA] at hA'
  cases hA'
  have hm' := signal_sound A hT hS w hw E.fuel E.steps E.efuel none hst zs (Or.inl hrun) z hz
  obtain ⟨k1, k2, k3⟩ := signal_zones_tight A hS w hw E.fuel E.steps E.efuel none hst zs (Or.inl hrun) z hz
  exact (printBlock_has k1 k2 k3 (fun a b hab => ⟨(hm' a b hab).1, (hm' a b hab).2.1⟩) t t').2 hzt

/-- What the program does with an expression in event mode. -/
theorem run_event {E : Env K} {o : Options} (hn : o.Named) (hc : o.Consistent) (hsig : o.signal = false) {s : String}
    (hs : (asked o).1 = .expression s) {e : TRE K} (hp : parsePattern s.toList = .ok e) {A : TA Nat} (hA : e.eventTA E.alloc = .ok A)
    (ho : (asked o).2 = "stdin" ∨ (E.file (asked o).2).isSome = true) :
    E.run o = match E.runEvent (asked o).2 o.binary A with
      | .ok r => .matched r o.quiet
      | .error x => .died x := by
  unfold Env.run
  rw [main_eq E.world o hn]
  obtain ⟨h1, h2, h3, -⟩ := hc
  rw [if_neg (by simp [h1]), if_neg (by simp [hs, h2]), if_neg (fun h => h3 ((conflict_iff o).1 h)), hs]
  simp only
  have hp' : E.world.parse s = .ok (some e) := by
    show parseOutcome s = _
    unfold parseOutcome
    rw [hp]
  rw [hp', hsig]
  simp only [Bool.false_eq_true, if_false]
  have hA' : E.world.eventTA e = .ok A := hA
  rw [hA']
  simp only
  rw [matchInput_eq E.world o hn, hsig]
  have : ¬ ((asked o).2 ≠ "stdin" ∧ E.world.opens (asked o).2 = false) := by
    rintro ⟨h, h'⟩
    rcases ho with ho | ho
    · exact h ho
    · have : E.world.opens (asked o).2 = true := ho
      rw [this] at h'
      cases h'
  rw [if_neg this]
  simp only [Bool.false_eq_true, if_false]
  have hm : E.world.monaaDollar (asked o).2 o.binary A = E.runEvent (asked o).2 o.binary A := rfl
  rw [hm]
  cases E.runEvent (asked o).2 o.binary A <;> rfl

/-- **C79**, end of the run (`_partial`: for texts without `*`, `>` and `&`, the condition `LoopsOk` on repetitions, at most 256 clocks).  On a consistent command line with
such a text, in event mode, with a log that can be opened: if the loops are not cut off, the matching finishes with status 0 or the
construction of the tables ends the program with status 10; with status 0 if the expression matches a word which has an event and ends
with `$`. -/
theorem program_ends_partial (E : Env K) (hinj : Function.Injective E.alloc) (o : Options) (hn : o.Named) (hc : o.Consistent)
    (hsig : o.signal = false) (s : String) (hs : (asked o).1 = .expression s) (h1 : '*' ∉ s.toList)
    (h2 : '>' ∉ s.toList) (h2' : '&' ∉ s.toList) (e : TRE K) (hp : parsePattern s.toList = .ok e) (h1' : e.LoopsOk) (h3 : e.clocks ≤ 256)
    (ho : (asked o).2 = "stdin" ∨ (E.file (asked o).2).isSome = true)
    (w : TWord K) (hlog : E.LogIs (asked o).2 o.binary w) (hlet : LettersOk w) :
    ∃ N, ∀ fuel steps, N ≤ fuel → w.length < steps →
      ((∃ zs q, Env.run { E with fuel := fuel, steps := steps } o = .matched zs q) ∨
        Env.run { E with fuel := fuel, steps := steps } o = .died (.exit 10)) ∧
      ((∃ (t : K) (u : TWord K), u ≠ [] ∧ LettersOk u ∧ (∀ e ∈ u, e.1 ≠ dollar) ∧ (∀ e ∈ u, 0 < e.2 ∧ e.2 < t) ∧
        u.Pairwise (fun a b => a.2 < b.2) ∧ e.Lang (u ++ [(dollar, t)])) →
        ∃ zs q, Env.run { E with fuel := fuel, steps := steps } o = .matched zs q) := by
  obtain ⟨A, hA, hm⟩ := pattern_returns_partial s.toList e hp h1 h1' h2 h2' h3 E.alloc hinj
  obtain ⟨N, r, r1, r2, r3⟩ := hm w hlet
  refine ⟨N, fun fuel steps hf hst => ?_⟩
  have key := run_event (E := { E with fuel := fuel, steps := steps }) hn hc hsig hs hp hA ho
  have hlog' : Env.LogIs { E with fuel := fuel, steps := steps } (asked o).2 o.binary w := hlog
  rw [runEvent_eq hlog' hst] at key
  have h' := (r1 fuel steps hf hst).1
  change monaaDollar id fuel steps (vectorCont K) A w = r at h'
  change _ = match monaaDollar id fuel steps (vectorCont K) A w with
      | .ok r => Outcome.matched r o.quiet
      | .error x => Outcome.died x at key
  rw [h'] at key
  constructor
  · rcases r2 with ⟨zs, h⟩ | h
    · exact Or.inl ⟨zs, o.quiet, by rw [key, h]⟩
    · exact Or.inr (by rw [key, h])
  · intro hu
    obtain ⟨zs, h⟩ := r3 hu
    exact ⟨zs, o.quiet, by rw [key, h]⟩

/-- **C50** for the whole program: on a consistent command line with an expression, if the scanner does not fail, the program ends with
status 2 and the message exactly if the text is not a sentence of the grammar. -/
theorem program_status_two (E : Env K) (o : Options) (hn : o.Named) (hc : o.Consistent) (s : String) (hs : (asked o).1 = .expression s)
    (hscan : ∀ x, .bad x ∉ lexFrom .none (s.toList.takeWhile (· ≠ '\x00'))) :
    E.run o = .fail 2 ↔
      ¬ ∃ us tail, lexFrom .none (s.toList.takeWhile (· ≠ '\x00')) = us ++ tail ∧ EndEnd tail ∧ ∃ e : TRE K, ExprG us e := by
  rw [← (parse_grammar (K := K) _).1]
  unfold Env.run
  rw [parse_error_status_partial E.world o hn hc s hs]
  show parseOutcome s = _ ↔ _
  unfold parseOutcome parsePattern
  cases h : parseToks (K := K) (lexFrom .none (s.toList.takeWhile (· ≠ '\x00'))) with
  | ok e => simp
  | error x =>
    cases x with
    | «syntax» => simp
    | scan x => exact absurd (parseLoop_err _ _ _ _ _ (Nat.lt_succ_self _) h) (hscan x)

/-! ## C80 -/

theorem readEdges_mem {names : List Nat} : ∀ {l : List DotStmt} {es : List DotEdge}, readEdges names l = .ok es →
    ∀ e ∈ es, ∃ s t c g r, DotStmt.edge s t c g r ∈ l ∧ e.source = names.idxOf s ∧ e.target = names.idxOf t
  | [], es, h, e, he => by
    cases h
    cases he
  | .node .. :: l, es, h, e, he => by
    obtain ⟨s, t, c, g, r, hm, h'⟩ := readEdges_mem (l := l) h e he
    exact ⟨s, t, c, g, r, by simp [hm], h'⟩
  | .edge s t c g r :: l, es, h, e, he => by
    unfold readEdges at h
    simp only [bind, Except.bind, pure, Except.pure] at h
    cases hg : readGuard g with
    | error x => rw [hg] at h; cases h
    | ok g' =>
      rw [hg] at h
      simp only at h
      cases hr : readResets r with
      | error x => rw [hr] at h; cases h
      | ok r' =>
        rw [hr] at h
        simp only at h
        cases hl : readEdges names l with
        | error x => rw [hl] at h; cases h
        | ok es' =>
          rw [hl] at h
          simp only [Except.ok.injEq] at h
          subst h
          rcases List.mem_cons.1 he with rfl | he
          · exact ⟨s, t, c, g, r, by simp, rfl, rfl⟩
          · obtain ⟨s, t, c, g, r, hm, h'⟩ := readEdges_mem hl e he
            exact ⟨s, t, c, g, r, by simp [hm], h'⟩

/-- Edges of a graph which was read connect vertices. -/
theorem parsed_ok {l : List DotStmt} {G : DotGraph} (h : parseBoostTA l = .ok G) : G.Ok := by
  unfold parseBoostTA at h
  simp only [bind, Except.bind, pure, Except.pure] at h
  cases he : readEdges (fileNames l) l with
  | error x => rw [he] at h; cases h
  | ok es =>
    rw [he] at h
    simp only [Except.ok.injEq] at h
    subst h
    intro e hm
    obtain ⟨s, t, c, g, r, hin, h1, h2⟩ := readEdges_mem he e hm
    have key : ∀ n ∈ (DotStmt.edge s t c g r).names, (fileNames l).idxOf n < (fileNames l).length := by
      intro n hn
      rw [List.idxOf_lt_length_iff]
      unfold fileNames
      rw [List.mem_insertionSort, List.mem_dedup, List.mem_flatMap]
      exact ⟨_, hin, hn⟩
    simp only [List.length_map]
    rw [h1, h2]
    exact ⟨key s (by simp [DotStmt.names]), key t (by simp [DotStmt.names])⟩

/-- **C80**: for an automaton given as a file: every pair `(t, t')` which satisfies the lines of a printed block is a match: the graph of
the file accepts the events of the log file strictly between `t` and `t'`, with times counted from `t`, followed by `$`. -/
theorem program_file_sound (E : Env K) (hinj : Function.Injective E.alloc) (o : Options) (hn : o.Named)
    (f : String) (hf : (asked o).1 = .file f) (l : List DotStmt) (hl : E.dot ((E.file f).getD []) = .ok l) (G : DotGraph)
    (hG : parseBoostTA l = .ok G) (w : TWord K) (hlog : E.LogIs (asked o).2 o.binary w) (hw : LogOk w) (hst : w.length < E.steps) (t t' : K)
    (h : PrintedPair (E.run o).printed t t') :
    0 ≤ t ∧ t ≤ t' ∧ G.AcceptsFrom 0 ((between w t t').map (fun e => (e.1, e.2 - t)) ++ [(dollar, t' - t)]) := by
  obtain ⟨zs, hr, z, hz, hlines⟩ := printed_of_pair h
  obtain ⟨hc, hq, A, hA, -, hrun⟩ := (main_matched_iff E.world o hn zs _).1 hr
  have hsig : o.signal = false := by
    obtain ⟨-, -, -, ⟨e, he⟩ | ⟨-, h⟩⟩ := hc
    · rw [hf] at he; cases he
    · exact h
  have hA' : A = convBoostTA E.alloc G := by
    generalize hx : (Except.ok A : Except Err (TA Nat)) = x at hA
    cases hA with
    | expression h _ => rw [hf] at h; cases h
    | @file name h =>
      rw [hf] at h
      cases h
      simp only [Env.world, bind, Except.bind, hl, loadTA, hG, pure, Except.pure, Except.ok.injEq] at hx
      exact hx
  subst hA'
  obtain ⟨k1, -, -, -, -, k2, -, -⟩ := loaded_lang (K := K) E.alloc hinj G (parsed_ok hG)
  rw [hsig] at hrun
  simp only [Bool.false_eq_true, if_false] at hrun
  have hrun' : E.runEvent (asked o).2 o.binary (convBoostTA E.alloc G) = .ok zs := hrun
  rw [runEvent_eq hlog hst] at hrun'
  have hm' := matcher_sound _ k2 w hw id E.fuel E.steps hst zs (Or.inl hrun') z hz
  obtain ⟨j1, j2, j3⟩ := matcher_zones_tight _ w hw id E.fuel E.steps hst zs (Or.inl hrun') z hz
  obtain ⟨m1, m2, m3⟩ := hm' t t' ((printBlock_has j1 j2 j3 (fun a b hab => ⟨(hm' a b hab).1, (hm' a b hab).2.1⟩) t t').1 hlines)
  exact ⟨m1, m2, (k1 0 _).1 m3⟩

/-- What the program does with an automaton given as a file. -/
theorem run_file {E : Env K} {o : Options} (hn : o.Named) {f : String} (hf : (asked o).1 = .file f) {l : List DotStmt}
    (hl : E.dot ((E.file f).getD []) = .ok l) {G : DotGraph} (hG : parseBoostTA l = .ok G) {zs : List (Zone K)} {q : Bool}
    (hr : E.run o = .matched zs q) : q = o.quiet ∧ E.runEvent (asked o).2 o.binary (convBoostTA E.alloc G) = .ok zs := by
  obtain ⟨hc, hq, A, hA, -, hrun⟩ := (main_matched_iff E.world o hn zs _).1 hr
  have hsig : o.signal = false := by
    obtain ⟨-, -, -, ⟨e, he⟩ | ⟨-, h⟩⟩ := hc
    · rw [hf] at he; cases he
    · exact h
  have hA' : A = convBoostTA E.alloc G := by
    generalize hx : (Except.ok A : Except Err (TA Nat)) = x at hA
    cases hA with
    | expression h _ => rw [hf] at h; cases h
    | @file name h =>
      rw [hf] at h
      cases h
      simp only [Env.world, bind, Except.bind, hl, loadTA, hG, pure, Except.pure, Except.ok.injEq] at hx
      exact hx
  subst hA'
  rw [hsig] at hrun
  simp only [Bool.false_eq_true, if_false] at hrun
  exact ⟨hq, hrun⟩

/-- **C88** (`_partial`: for graphs whose automaton satisfies the conditions of C02 and declares its clocks, logs with strictly
increasing times, matches with at least one event).  For an automaton given as a file, if the program finishes the matching and is not quiet:
every match satisfies the lines of some printed block. -/
theorem program_file_complete_partial (E : Env K) (hinj : Function.Injective E.alloc) (o : Options) (hn : o.Named) (hq : o.quiet = false)
    (f : String) (hf : (asked o).1 = .file f) (l : List DotStmt) (hl : E.dot ((E.file f).getD []) = .ok l) (G : DotGraph)
    (hG : parseBoostTA l = .ok G) (hε : ∀ e ∈ G.edges, e.label ≠ epsilon) (hC : (convBoostTA E.alloc G).ClocksDeclared)
    (hac : (convBoostTA E.alloc G).LoopsOk) (hU : (convBoostTA E.alloc G).Shiftable) (hz : (convBoostTA E.alloc G).NoZeroDuration)
    (hsz : 2 * (convBoostTA E.alloc G).clockSize ≤ 256)
    (w : TWord K) (hlog : E.LogIs (asked o).2 o.binary w) (hw : LogOk w) (hstr : LogStrict w) (hlet : LettersOk w) (hst : w.length < E.steps)
    (hr : ∃ zs q, E.run o = .matched zs q) (t t' : K) (h0 : 0 ≤ t) (htt : t ≤ t') (hne : between w t t' ≠ [])
    (hm : G.AcceptsFrom 0 ((between w t t').map (fun e => (e.1, e.2 - t)) ++ [(dollar, t' - t)])) : PrintedPair (E.run o).printed t t' := by
  obtain ⟨zs, q, hr⟩ := hr
  obtain ⟨hq', hrun⟩ := run_file hn hf hl hG hr
  rw [runEvent_eq hlog hst] at hrun
  obtain ⟨k1, -, -, hcl, hM, hT, -, hNS⟩ := loaded_lang (K := K) E.alloc hinj G (parsed_ok hG)
  obtain ⟨z, hzm, hzt⟩ := matcher_complete_partial _ hC (hNS hε) hcl hM hac hU hz hsz w hw hstr hlet id E.fuel E.steps hst zs (Or.inl hrun) t t'
    ⟨h0, htt, (acceptsFrom_shift _ t _).2 (by rw [List.map_append]; exact (k1 0 _).2 hm)⟩ hne
  rw [hr, printed_matched, hq', hq]
  refine (printedPair_iff zs t t').2 ⟨z, hzm, ?_⟩
  have hm' := matcher_sound _ hT w hw id E.fuel E.steps hst zs (Or.inl hrun) z hzm
  obtain ⟨j1, j2, j3⟩ := matcher_zones_tight _ w hw id E.fuel E.steps hst zs (Or.inl hrun) z hzm
  exact (printBlock_has j1 j2 j3 (fun a b hab => ⟨(hm' a b hab).1, (hm' a b hab).2.1⟩) t t').2 hzt

/-- What the program does for an automaton given as a file. -/
theorem run_file_event {E : Env K} {o : Options} (hn : o.Named) (hc : o.Consistent) {f : String} (hf : (asked o).1 = .file f) {l : List DotStmt}
    (hl : E.dot ((E.file f).getD []) = .ok l) {G : DotGraph} (hG : parseBoostTA l = .ok G)
    (ho : (asked o).2 = "stdin" ∨ (E.file (asked o).2).isSome = true) :
    E.run o = match E.runEvent (asked o).2 o.binary (convBoostTA E.alloc G) with
      | .ok r => .matched r o.quiet
      | .error x => .died x := by
  unfold Env.run
  rw [main_eq E.world o hn]
  obtain ⟨h1, h2, h3, h4⟩ := hc
  have hsig : o.signal = false := by
    rcases h4 with ⟨e, he⟩ | ⟨-, h⟩
    · rw [hf] at he; cases he
    · exact h
  rw [if_neg (by simp [h1]), if_neg (by simp [hf, h2]), if_neg (fun h => h3 ((conflict_iff o).1 h)), hf]
  simp only
  have hA : E.world.loadTA f = .ok (convBoostTA E.alloc G) := by
    simp only [Env.world, bind, Except.bind, hl, loadTA, hG, pure, Except.pure]
  rw [hA, hsig]
  simp only [Bool.false_eq_true, if_false]
  rw [matchInput_eq E.world o hn, hsig]
  have : ¬ ((asked o).2 ≠ "stdin" ∧ E.world.opens (asked o).2 = false) := by
    rintro ⟨h, h'⟩
    rcases ho with ho | ho
    · exact h ho
    · have : E.world.opens (asked o).2 = true := ho
      rw [this] at h'
      cases h'
  rw [if_neg this]
  simp only [Bool.false_eq_true, if_false]
  have hm : E.world.monaaDollar (asked o).2 o.binary (convBoostTA E.alloc G) = E.runEvent (asked o).2 o.binary (convBoostTA E.alloc G) := rfl
  rw [hm]
  cases E.runEvent (asked o).2 o.binary (convBoostTA E.alloc G) <;> rfl

/-- If the initial vertices are at increasing addresses, the search for initial states is defined. -/
theorem loaded_prepared (alloc : Nat → Nat) (hinj : Function.Injective alloc) (G : DotGraph) (hG : G.Ok)
    (hord : ∀ v v' m m', v < v' → G.vertices[v]? = some (true, m) → G.vertices[v']? = some (true, m') → alloc v < alloc v') :
    ∃ Ap, prepare id (convBoostTA alloc G) = .ok Ap := by
  have hinit : (convBoostTA alloc G).init.Pairwise (· < ·) := by
    rw [convBoostTA_eq, (foldl_convEdge G.sorted _).2.1]
    simp only [convStates]
    rw [List.pairwise_map]
    have hget : ∀ v, v < G.vertices.length → (G.vertices.getD v (false, false)).1 = true → ∃ m, G.vertices[v]? = some (true, m) := by
      intro v hv h
      rw [List.getD_eq_getElem?_getD, List.getElem?_eq_getElem hv, Option.getD_some] at h
      exact ⟨G.vertices[v].2, by rw [List.getElem?_eq_getElem hv, ← h]⟩
    have hp := (List.pairwise_lt_range (n := G.vertices.length)).filter fun v => (G.vertices.getD v (false, false)).1
    refine hp.imp_of_mem ?_
    intro v v' hv hv' hlt
    simp only [List.mem_filter, List.mem_range] at hv hv'
    obtain ⟨m, hm⟩ := hget v hv.1 hv.2
    obtain ⟨m', hm'⟩ := hget v' hv'.1 hv'.2
    exact hord v v' m m' hlt hm hm'
  obtain ⟨-, -, -, -, hM, -, ht, -⟩ := loaded_lang (K := ℚ) alloc hinj G hG
  unfold prepare
  rw [if_pos, if_pos]
  · exact ⟨_, rfl⟩
  · rw [List.all_eq_true]
    intro s hs
    rw [List.all_eq_true]
    rintro ⟨a, es⟩ hp
    rw [List.all_eq_true]
    intro e he
    have hp' : (a, es) ∈ ((convBoostTA alloc G).st s).next := by
      revert hp
      unfold dropDollar
      beta_reduce
      cases ((convBoostTA alloc G).st s).next.find dollar with
      | none => exact id
      | some _ =>
        simp only
        intro hp
        exact (List.mem_filter.1 hp).1
    obtain ⟨q, hq, hq'⟩ := ht s a e (by rw [TA.edges, Next.at'_of_mem (hM s) hp']; exact he)
    rw [hq']
    simpa using hq
  · rw [List.all_eq_true]
    intro s _
    unfold partitioned
    rw [decide_eq_true_eq]
    refine hinit.imp ?_
    intro a b hab
    simp only [id]
    omega

/-- **C89** (`_partial`: for graphs whose automaton satisfies the condition on cycles and declares its clocks, with labels from 1 to 126 and
initial vertices at increasing addresses).  On a consistent command line with such a file and a log that can be opened: if the loops
are not cut off, the matching finishes with status 0 or the construction of the tables ends the program with status 10; with status 0 if the
graph accepts a word which has an event and ends with `$`. -/
theorem program_file_ends_partial (E : Env K) (hinj : Function.Injective E.alloc) (o : Options) (hn : o.Named) (hc : o.Consistent)
    (f : String) (hf : (asked o).1 = .file f) (l : List DotStmt) (hl : E.dot ((E.file f).getD []) = .ok l) (G : DotGraph)
    (hG : parseBoostTA l = .ok G) (hε : ∀ e ∈ G.edges, e.label ≠ epsilon ∧ e.label < 127) (hC : (convBoostTA E.alloc G).ClocksDeclared)
    (hac : (convBoostTA E.alloc G).LoopsOk)
    (hord : ∀ v v' m m', v < v' → G.vertices[v]? = some (true, m) → G.vertices[v']? = some (true, m') → E.alloc v < E.alloc v')
    (ho : (asked o).2 = "stdin" ∨ (E.file (asked o).2).isSome = true)
    (w : TWord K) (hlog : E.LogIs (asked o).2 o.binary w) (hlet : LettersOk w) :
    ∃ N, ∀ fuel steps, N ≤ fuel → w.length < steps →
      ((∃ zs q, Env.run { E with fuel := fuel, steps := steps } o = .matched zs q) ∨
        Env.run { E with fuel := fuel, steps := steps } o = .died (.exit 10)) ∧
      ((∃ (t : K) (u : TWord K), u ≠ [] ∧ LettersOk u ∧ (∀ e ∈ u, e.1 ≠ dollar) ∧ (∀ e ∈ u, 0 < e.2 ∧ e.2 < t) ∧
        u.Pairwise (fun a b => a.2 < b.2) ∧ G.AcceptsFrom 0 (u ++ [(dollar, t)])) →
        ∃ zs q, Env.run { E with fuel := fuel, steps := steps } o = .matched zs q) := by
  have hok := parsed_ok hG
  obtain ⟨k1, -, -, hcl, hM, hT, -, hNS⟩ := loaded_lang (K := K) E.alloc hinj G hok
  obtain ⟨Ap, hAp⟩ := loaded_prepared E.alloc hinj G hok hord
  have hL : (convBoostTA E.alloc G).LabelsOk := by
    intro s a hne
    obtain ⟨t, ht⟩ := List.exists_mem_of_ne_nil _ hne
    obtain ⟨e, he, -, rfl, -⟩ := (conv_edges hok s a t).1 ht
    exact (hε e he).2
  obtain ⟨N, r, r1, r2, r3⟩ := dollar_total_partial (convBoostTA E.alloc G) hcl hM hC hL hac (Or.inl (hNS fun e he => (hε e he).1)) id Ap hAp w hlet
  refine ⟨N, fun fuel steps hfu hst => ?_⟩
  have key := run_file_event (E := { E with fuel := fuel, steps := steps }) hn hc hf hl hG ho
  have hlog' : Env.LogIs { E with fuel := fuel, steps := steps } (asked o).2 o.binary w := hlog
  rw [runEvent_eq hlog' hst] at key
  have h' := (r1 fuel steps hfu hst).1
  change _ = match monaaDollar id fuel steps (vectorCont K) (convBoostTA E.alloc G) w with
      | .ok r => Outcome.matched r o.quiet
      | .error x => Outcome.died x at key
  rw [h'] at key
  constructor
  · rcases r2 with ⟨zs, h⟩ | h
    · exact Or.inl ⟨zs, o.quiet, by rw [key, h]⟩
    · exact Or.inr (by rw [key, h])
  · rintro ⟨t, u, hne, hu, hd, hpos, hsort, hacc⟩
    obtain ⟨zs, h⟩ := r3 ⟨0, t, u, hne, hu, hd, ⟨le_refl _, fun e he => (hpos e he).1⟩, hsort, fun e he => (hpos e he).2, (k1 0 _).2 hacc⟩
    exact ⟨zs, o.quiet, by rw [key, h]⟩

end general

/-! ## Runs of the program -/

/-- The value of a sequence of digits. -/
def digitsValue (d : List Char) : ℚ := (d.foldl (fun n c => 10 * n + (c.toNat - 48)) 0 : Nat)

/-- Scanning of rational numbers which are written as digits. -/
def digitScan : NumScan ℚ where
  scan f := if (digits f).1 = [] then (none, (digits f).2) else (some (digitsValue (digits f).1), (digits f).2)
  le f := by
    have := digits_le f
    split <;> simp_all

/-- Labels are characters, instants are digits. -/
def digitText : TextCode ℚ := ⟨Char.ofNat, fun t => [Char.ofNat (48 + t.num.toNat)]⟩

def bytesOf (s : List Char) : List UInt8 := s.map fun c => UInt8.ofNat c.toNat

/-- The log is `a 1, a 3, a 5, a 7`, on the standard input; the file `a.dot` is a graph for `a$`. -/
def sampleEnv : Env ℚ where
  stdin := bytesOf "a 1\na 3\na 5\na 7\n".toList
  file name := if name = "a.dot" then some [] else none
  alloc := down
  dot _ := .ok [.node 0 true false false, .node 1 false true false, .edge 0 2 97 [] [], .edge 2 1 36 [] []]
  scan := digitScan
  decoder := ⟨fun b => b.toNat, fun _ => 0⟩
  nfuel := 30
  fuel := 30
  steps := 30
  efuel := 30

theorem sample_log : sampleEnv.LogIs "stdin" false twoLog := by
  refine ⟨_, Or.inl ⟨rfl, rfl⟩, ?_⟩
  rw [if_neg (by decide)]
  refine ⟨digitText, [], ?_, by simp, by decide +kernel⟩
  intro e he
  have hd : ∀ c ∈ digitText.chars e.2, c.isDigit = true := by
    revert e
    decide +kernel
  have hlit : isWhite (digitText.letter e.1) = false ∧ (digitText.letter e.1).toNat = e.1 ∧
      (digitText.chars e.2).all (fun c => !isWhite c) = true ∧ (digitText.chars e.2).length = 1 ∧
      digitsValue (digitText.chars e.2) = e.2 := by
    revert e
    decide +kernel
  obtain ⟨h1, h2, h3, h4, h5⟩ := hlit
  obtain ⟨c, hc⟩ := List.length_eq_one_iff.1 h4
  refine ⟨h1, h2, ⟨c, [], hc, ?_⟩, fun b rest hb => ?_⟩
  · rw [hc] at h3
    simpa using h3
  · show digitScan.scan _ = _
    simp only [digitScan]
    rw [digits_white hd hb rest, if_neg (by rw [hc]; simp), h5]

/-- The command line `monaa -e '(a+)((a%(1,3))$)'`. -/
def sampleOptions : Options := { toyOptions with expression := "(a+)((a%(1,3))$)" }

theorem sample_consistent : sampleOptions.Named ∧ sampleOptions.Consistent ∧ (asked sampleOptions).1 = .expression "(a+)((a%(1,3))$)" ∧
    (asked sampleOptions).2 = "stdin" := by
  refine ⟨by simp [Options.Named, sampleOptions, toyOptions], ⟨rfl, rfl, by simp [Options.Conflict, sampleOptions, toyOptions], ?_⟩, ?_, ?_⟩
  · exact Or.inl ⟨"(a+)((a%(1,3))$)", by decide +kernel⟩
  · decide +kernel
  · decide +kernel

/-- The hypotheses are met: with large enough bounds the program prints a block which the pair `(1/2, 6)` satisfies (by
`program_ends_partial` and `program_complete_partial`). -/
example : ∃ fuel, PrintedPair (Env.run { sampleEnv with fuel := fuel } sampleOptions).printed (1 / 2) 6 := by
  obtain ⟨hn, hc, hs, hf⟩ := sample_consistent
  have hlog : ∀ fuel, Env.LogIs { sampleEnv with fuel := fuel } (asked sampleOptions).2 sampleOptions.binary twoLog := by
    intro fuel
    rw [hf]
    exact sample_log
  obtain ⟨N, h⟩ := program_ends_partial sampleEnv down_inj sampleOptions hn hc rfl _ hs (by decide) (by decide) (by decide) laterE rfl (.inl ⟨trivial, trivial, trivial⟩)
    (by decide) (Or.inl hf) twoLog (hlog 30) two_log.2.2
  obtain ⟨-, h⟩ := h N 30 (le_refl _) (by decide)
  have hr := h ⟨6 - 1 / 2, (between twoLog (1 / 2) 6).map (fun e => (e.1, e.2 - 1 / 2)), by rw [later_between]; simp,
    by rw [later_between]; unfold LettersOk; decide +kernel, by rw [later_between]; decide +kernel, by rw [later_between]; decide +kernel,
    by rw [later_between]; decide +kernel, later_lang⟩
  exact ⟨N, program_complete_partial { sampleEnv with fuel := N } down_inj sampleOptions hn rfl rfl _ hs (by decide) (by decide)
    laterE rfl (.inl ⟨trivial, trivial, trivial⟩) (by decide) (Or.inl trivial) twoLog (hlog N) two_log.1 two_log.2.1 two_log.2.2 (show 4 < 30 by decide) hr (1 / 2) 6 (by norm_num) (by norm_num)
    (by rw [later_between]; simp) later_lang⟩

theorem take_four {α : Type} {l b : List α} (h : l.take 4 = b) : ∃ post, l = b ++ post :=
  ⟨l.drop 4, by rw [← h, List.take_append_drop]⟩

/-- The command line `monaa -f a.dot`. -/
def fileOptions : Options := { toyOptions with automaton := "a.dot" }

set_option maxRecDepth 100000 in
theorem file_check : (loadTA down [.node 0 true false false, .node 1 false true false, .edge 0 2 97 [] [], .edge 2 1 36 [] []]).toOption.any
    (fun A => (monaaDollar id 30 30 (vectorCont ℚ) A twoLog).toOption.any (fun zs => decide ((zs.flatMap printBlock).take 4 =
      [.row (.fin 0 true) "t" (.fin 1 false), .row (.fin 1 false) "t'" (.fin 3 true), .row (.fin 0 false) "t' - t" (.fin 3 true), .separator]))) =
    true := by decide +kernel

theorem file_run : (∃ zs q, sampleEnv.run fileOptions = .matched zs q) ∧
    (sampleEnv.run fileOptions).printed.take 4 = [.row (.fin 0 true) "t" (.fin 1 false), .row (.fin 1 false) "t'" (.fin 3 true),
      .row (.fin 0 false) "t' - t" (.fin 3 true), .separator] := by
  have key := file_check
  cases hA : loadTA down [.node 0 true false false, .node 1 false true false, .edge 0 2 97 [] [], .edge 2 1 36 [] []] with
  | error x => rw [hA] at key; cases key
  | ok A =>
    rw [hA] at key
    simp only [Except.toOption, Option.any_some] at key
    cases hr : monaaDollar id 30 30 (vectorCont ℚ) A twoLog with
    | error x => rw [hr] at key; cases key
    | ok zs =>
      rw [hr] at key
      simp only [Option.any_some, decide_eq_true_eq] at key
      have h1 : (asked fileOptions).1 = .file "a.dot" := by decide +kernel
      have h2 : (asked fileOptions).2 = "stdin" := by decide +kernel
      have hm : sampleEnv.run fileOptions = .matched zs false := by
        refine (main_matched_iff sampleEnv.world fileOptions (by simp [Options.Named, fileOptions, toyOptions]) zs false).2
          ⟨⟨rfl, rfl, by simp [Options.Conflict, fileOptions, toyOptions], Or.inr ⟨⟨_, h1⟩, rfl⟩⟩, rfl, A, ?_, Or.inl h2, ?_⟩
        · rw [← hA]
          exact .file h1
        · rw [h2]
          show sampleEnv.runEvent "stdin" false A = _
          rw [runEvent_eq sample_log (by decide)]
          exact hr
      refine ⟨⟨zs, false, hm⟩, ?_⟩
      rw [hm, printed_matched]
      exact key

/-- The hypotheses of `program_file_sound` are met: a block is printed which the pair `(1/2, 2)` satisfies. -/
example : Function.Injective sampleEnv.alloc ∧ fileOptions.Named ∧ (asked fileOptions).1 = .file "a.dot" ∧
    (∃ l G, sampleEnv.dot ((sampleEnv.file "a.dot").getD []) = .ok l ∧ parseBoostTA l = .ok G) ∧
    sampleEnv.LogIs (asked fileOptions).2 fileOptions.binary twoLog ∧ LogOk twoLog ∧ twoLog.length < sampleEnv.steps ∧
    PrintedPair (sampleEnv.run fileOptions).printed (1 / 2) 2 := by
  refine ⟨down_inj, by simp [Options.Named, fileOptions, toyOptions], by decide +kernel, ?_, ?_, two_log.1, by decide, ?_⟩
  · cases h : parseBoostTA [.node 0 true false false, .node 1 false true false, .edge 0 2 97 [] [], .edge 2 1 36 [] []] with
    | ok G => exact ⟨_, G, rfl, h⟩
    | error x =>
      have : (parseBoostTA [.node 0 true false false, .node 1 false true false, .edge 0 2 97 [] [], .edge 2 1 36 [] []]).toOption.isSome = true := by
        decide +kernel
      rw [h] at this
      cases this
  · have : (asked fileOptions).2 = "stdin" := by decide +kernel
    rw [this]
    exact sample_log
  · obtain ⟨post, hpost⟩ := take_four file_run.2
    refine ⟨[], [.row (.fin 0 true) "t" (.fin 1 false), .row (.fin 1 false) "t'" (.fin 3 true), .row (.fin 0 false) "t' - t" (.fin 3 true)],
      post, by rw [hpost]; rfl, Or.inl rfl, by simp, ?_⟩
    intro l hl
    simp only [List.mem_cons, List.not_mem_nil, or_false] at hl
    rcases hl with rfl | rfl | rfl <;> refine ⟨fun h => ?_, fun h => ?_, fun h => ?_⟩ <;> first
      | exact absurd h (by decide)
      | (unfold between'; norm_num)

/-- The graph of the file. -/
def fileGraph : DotGraph := ⟨[(true, false), (false, true), (false, false)], [⟨0, 2, 97, [], []⟩, ⟨2, 1, 36, [], []⟩]⟩

theorem file_graph : parseBoostTA [.node 0 true false false, .node 1 false true false, .edge 0 2 97 [] [], .edge 2 1 36 [] []] = .ok fileGraph := by
  refine toOption_eq (?_ : Except.toOption _ = some fileGraph)
  decide +kernel

theorem file_edges {b : Nat} {a : Alphabet} {e : Transition Nat} (he : e ∈ (convBoostTA down fileGraph).edges b a) :
    e.guard = [] ∧ e.resets = [] ∧ ((b = down 0 ∧ e.target = some (down 2)) ∨ (b = down 2 ∧ e.target = some (down 1))) := by
  obtain ⟨d, hd, rfl, -, rfl⟩ := (conv_edges (parsed_ok file_graph) b a e).1 he
  simp only [fileGraph, List.mem_cons, List.not_mem_nil, or_false] at hd
  rcases hd with rfl | rfl
  · exact ⟨rfl, rfl, Or.inl ⟨rfl, rfl⟩⟩
  · exact ⟨rfl, rfl, Or.inr ⟨rfl, rfl⟩⟩

theorem file_declared : (convBoostTA down fileGraph).ClocksDeclared := by
  intro s a e he
  obtain ⟨h1, h2, -⟩ := file_edges he
  rw [h1, h2]
  exact ⟨fun g hg => absurd hg (by simp), fun x hx => absurd hx (by simp)⟩

theorem file_loops : (convBoostTA down fileGraph).LoopsOk := by
  refine .inl ⟨fun s => if s = down 0 then 2 else if s = down 2 then 1 else 0, ?_⟩
  intro s a e he q hq
  obtain ⟨-, -, ⟨rfl, h⟩ | ⟨rfl, h⟩⟩ := file_edges he <;> rw [h] at hq <;> cases hq <;> left <;> decide

/-- The hypotheses of `program_file_complete_partial` are met: a block is printed which the pair `(3/2, 4)` satisfies. -/
theorem file_later : PrintedPair (sampleEnv.run fileOptions).printed (3 / 2) 4 := by
  have hG := parsed_ok file_graph
  have hlog : sampleEnv.LogIs (asked fileOptions).2 fileOptions.binary twoLog := by
    have : (asked fileOptions).2 = "stdin" := by decide +kernel
    rw [this]
    exact sample_log
  have hmax : (convBoostTA down fileGraph).clockSize = 0 := by
    have : (convBoostTA down fileGraph).maxC = [] := by rw [conv_maxC]; rfl
    rw [TA.clockSize, this]
    rfl
  have hbet : between twoLog (3 / 2) 4 = [(97, 3)] := by decide +kernel
  refine program_file_complete_partial sampleEnv down_inj fileOptions (by simp [Options.Named, fileOptions, toyOptions]) rfl "a.dot" (by decide +kernel)
    _ rfl fileGraph file_graph (by decide) ?_ (.inl ⟨fun s => if s = down 0 then 2 else if s = down 2 then 1 else 0, ?_⟩)
    (.inl ⟨fun _ _ => False, fun _ _ _ h => h, fun s a e he => ⟨?_, fun _ _ _ h => h.elim⟩⟩) (fun s _ => conv_flag s) (by show 2 * (convBoostTA down fileGraph).clockSize ≤ 256; rw [hmax]; decide) twoLog hlog
    two_log.1 two_log.2.1 two_log.2.2 (by decide) file_run.1 (3 / 2) 4 (by norm_num) (by norm_num) (by rw [hbet]; simp) ?_
  · intro s a e he
    obtain ⟨h1, h2, -⟩ := file_edges he
    rw [h1, h2]
    exact ⟨fun g hg => absurd hg (by simp), fun x hx => absurd hx (by simp)⟩
  · intro s a e he q hq
    obtain ⟨-, -, ⟨rfl, h⟩ | ⟨rfl, h⟩⟩ := file_edges he <;> rw [h] at hq <;> cases hq <;> left <;> decide
  · intro g hg
    rw [(file_edges he).1] at hg
    cases hg
  · rw [hbet]
    exact ⟨0, false, rfl, 1, false, ⟨⟨0, 2, 97, [], []⟩, by decide, rfl, rfl, fun g hg => absurd hg (by simp),
      ⟨2, 1, 36, [], []⟩, by decide, rfl, rfl, fun g hg => absurd hg (by simp), rfl⟩, rfl⟩

/-- The hypotheses of `program_file_ends_partial` are met: the matching with the file finishes with status 0. -/
example : ∃ fuel zs q, Env.run { sampleEnv with fuel := fuel } fileOptions = .matched zs q := by
  have h1 : (asked fileOptions).1 = .file "a.dot" := by decide +kernel
  have h2 : (asked fileOptions).2 = "stdin" := by decide +kernel
  have hord : ∀ v v' m m', v < v' → fileGraph.vertices[v]? = some (true, m) → fileGraph.vertices[v']? = some (true, m') → down v < down v' := by
    intro v v' m m' hlt hv hv'
    have : ∀ v m, fileGraph.vertices[v]? = some (true, m) → v = 0 := by
      intro v m h
      match v with
      | 0 => rfl
      | 1 => simp [fileGraph] at h
      | 2 => simp [fileGraph] at h
      | n + 3 => simp [fileGraph] at h
    have a := this v m hv
    have b := this v' m' hv'
    omega
  have hacc : fileGraph.AcceptsFrom (0 : ℚ) ([(97, 3 / 2)] ++ [(dollar, 5 / 2)]) :=
    ⟨0, false, rfl, 1, false, ⟨⟨0, 2, 97, [], []⟩, by decide, rfl, rfl, fun g hg => absurd hg (by simp),
      ⟨2, 1, 36, [], []⟩, by decide, rfl, rfl, fun g hg => absurd hg (by simp), rfl⟩, rfl⟩
  obtain ⟨N, h⟩ := program_file_ends_partial sampleEnv down_inj fileOptions (by simp [Options.Named, fileOptions, toyOptions])
    ⟨rfl, rfl, by simp [Options.Conflict, fileOptions, toyOptions], Or.inr ⟨⟨_, h1⟩, rfl⟩⟩ "a.dot" h1 _ rfl fileGraph file_graph (by decide)
    file_declared file_loops hord (Or.inl h2) twoLog (by rw [h2]; exact sample_log) two_log.2.2
  obtain ⟨zs, q, hr⟩ := (h N 30 (le_refl _) (by decide)).2 ⟨5 / 2, [(97, 3 / 2)], by simp, by unfold LettersOk; decide +kernel,
    by decide +kernel, by decide +kernel, by simp, hacc⟩
  exact ⟨N, zs, q, hr⟩


/-- The command line `monaa -s -e '(aa)%[2,5]'`. -/
def signalOptions : Options := { toyOptions with expression := "(aa)%[2,5]", signal := true }

/-- `(aa)%[2,5]`. -/
def twiceE : TRE ℚ := .within (.concat litA litA) ⟨.fin 2 true, .fin 5 true⟩

set_option maxRecDepth 100000 in
theorem twice_check : (twiceE.signalTA down 30).toOption.any (fun A => (monaa 30 30 30 (vectorCont ℚ) none A twoLog).1.toOption.any
    (fun zs => decide ((zs.flatMap printBlock).take 4 = [.row (.fin 1 true) "t" (.fin 1 true), .row (.fin 3 true) "t'" (.fin 3 true),
      .row (.fin 2 true) "t' - t" (.fin 2 true), .separator]))) = true := by decide +kernel

theorem signal_run : (sampleEnv.run signalOptions).printed.take 4 = [.row (.fin 1 true) "t" (.fin 1 true), .row (.fin 3 true) "t'" (.fin 3 true),
    .row (.fin 2 true) "t' - t" (.fin 2 true), .separator] := by
  have key := twice_check
  cases hA : twiceE.signalTA down 30 with
  | error x => rw [hA] at key; cases key
  | ok A =>
    rw [hA] at key
    simp only [Except.toOption, Option.any_some] at key
    cases hr : (monaa 30 30 30 (vectorCont ℚ) none A twoLog).1 with
    | error x => rw [hr] at key; cases key
    | ok zs =>
      rw [hr] at key
      simp only [Option.any_some, decide_eq_true_eq] at key
      have h1 : (asked signalOptions).1 = .expression "(aa)%[2,5]" := by decide +kernel
      have h2 : (asked signalOptions).2 = "stdin" := by decide +kernel
      have hm : sampleEnv.run signalOptions = .matched zs false := by
        refine (main_matched_iff sampleEnv.world signalOptions (by simp [Options.Named, signalOptions, toyOptions]) zs false).2
          ⟨⟨rfl, rfl, by simp [Options.Conflict, signalOptions, toyOptions], Or.inl ⟨_, h1⟩⟩, rfl, A, ?_, Or.inl h2, ?_⟩
        · rw [← hA]
          exact .expression (e := twiceE) h1 rfl
        · rw [h2]
          show sampleEnv.runSignal "stdin" false A = _
          rw [runSignal_eq sample_log (by decide)]
          exact hr
      rw [hm, printed_matched]
      exact key

/-- The hypotheses of `program_signal_sound_partial` are met: a block is printed which the pair `(1, 3)` satisfies. -/
example : Function.Injective sampleEnv.alloc ∧ signalOptions.Named ∧ (asked signalOptions).1 = .expression "(aa)%[2,5]" ∧
    parsePattern "(aa)%[2,5]".toList = .ok twiceE ∧ twiceE.Clean ∧ twiceE.Closed ∧ twiceE.Distributes ∧ twiceE.IntEnds ∧ twiceE.Flat ∧
    sampleEnv.LogIs (asked signalOptions).2 signalOptions.binary twoLog ∧ LogOk twoLog ∧ twoLog.length < sampleEnv.steps ∧
    PrintedPair (sampleEnv.run signalOptions).printed 1 3 := by
  refine ⟨down_inj, by simp [Options.Named, signalOptions, toyOptions], by decide +kernel, rfl, ?_, ?_, ?_, ?_, ?_, ?_, two_log.1, by decide, ?_⟩
  · exact ⟨⟨by simp [litA, TRE.Clean], by simp [litA, TRE.Clean], trivial, trivial⟩, fun h => h.1, 2, true, rfl, by norm_num⟩
  · refine ⟨⟨trivial, trivial⟩, fun l s h => ?_⟩
    cases h; rfl
  · exact ⟨⟨trivial, trivial, trivial, trivial, fun h => h, fun h => h⟩, fun _ _ _ h => h.elim⟩
  · refine ⟨⟨trivial, trivial⟩, fun c s h => ⟨2, ?_⟩, fun c s h => ⟨5, ?_⟩⟩ <;>
    · cases h; norm_num
  · exact ⟨97, rfl, rfl⟩
  · have : (asked signalOptions).2 = "stdin" := by decide +kernel
    rw [this]
    exact sample_log
  · obtain ⟨post, hpost⟩ := take_four signal_run
    refine ⟨[], [.row (.fin 1 true) "t" (.fin 1 true), .row (.fin 3 true) "t'" (.fin 3 true), .row (.fin 2 true) "t' - t" (.fin 2 true)],
      post, by rw [hpost]; rfl, Or.inl rfl, by simp, ?_⟩
    intro l hl
    simp only [List.mem_cons, List.not_mem_nil, or_false] at hl
    rcases hl with rfl | rfl | rfl <;> refine ⟨fun h => ?_, fun h => ?_, fun h => ?_⟩ <;> first
      | exact absurd h (by decide)
      | (unfold between'; norm_num)

/-- The log `a 3, b 5`, on the standard input. -/
def posEnv : Env ℚ :=
  { sampleEnv with stdin := bytesOf "a 3\nb 5\n".toList, alloc := id, fuel := 20, steps := 20, efuel := 20 }

/-- The command line `monaa -s -e '((aa)%>=1)b'`. -/
def posOptions : Options := { toyOptions with expression := "((aa)%>=1)b", signal := true }

theorem pos_is_log : posEnv.LogIs "stdin" false posLog := by
  refine ⟨_, Or.inl ⟨rfl, rfl⟩, ?_⟩
  rw [if_neg (by decide)]
  refine ⟨digitText, [], ?_, by simp, by decide +kernel⟩
  intro e he
  have hd : ∀ c ∈ digitText.chars e.2, c.isDigit = true := by
    revert e
    decide +kernel
  have hlit : isWhite (digitText.letter e.1) = false ∧ (digitText.letter e.1).toNat = e.1 ∧
      (digitText.chars e.2).all (fun c => !isWhite c) = true ∧ (digitText.chars e.2).length = 1 ∧
      digitsValue (digitText.chars e.2) = e.2 := by
    revert e
    decide +kernel
  obtain ⟨h1, h2, h3, h4, h5⟩ := hlit
  obtain ⟨c, hc⟩ := List.length_eq_one_iff.1 h4
  refine ⟨h1, h2, ⟨c, [], hc, ?_⟩, fun b rest hb => ?_⟩
  · rw [hc] at h3
    simpa using h3
  · show digitScan.scan _ = _
    simp only [digitScan]
    rw [digits_white hd hb rest, if_neg (by rw [hc]; simp), h5]

/-- The hypotheses of `program_signal_complete_partial` are met: a block is printed which the pair `(1/2, 4)` satisfies. -/
example : PrintedPair (posEnv.run posOptions).printed (1 / 2) 4 := by
  obtain ⟨c1, c2, c3, c4, c5, c6, c7, c8, c9, c10, ⟨zs, c11⟩, c12⟩ := pos_hypotheses
  have h1 : (asked posOptions).1 = .expression "((aa)%>=1)b" := by decide +kernel
  have h2 : (asked posOptions).2 = "stdin" := by decide +kernel
  have hp : parsePattern "((aa)%>=1)b".toList = .ok posPattern := rfl
  have hn : posOptions.Named := by simp [Options.Named, posOptions, toyOptions]
  have hlog : posEnv.LogIs (asked posOptions).2 posOptions.binary posLog := by
    rw [h2]
    exact pos_is_log
  refine program_signal_complete_partial posEnv Function.injective_id posOptions hn rfl rfl _ h1 posPattern hp c1 c2 c3 (fun A hA => ?_) posLog
    hlog c7 c8 c9 c10 (by decide) ⟨zs, false, ?_⟩ (1 / 2) 4 (by norm_num) (by norm_num) ⟨(98, 5), by decide, by norm_num⟩ c12
  · rw [show posPattern.signalTA posEnv.alloc posEnv.nfuel = .ok posTA from c4] at hA
    cases hA
    exact ⟨c5, c6⟩
  · refine (main_matched_iff posEnv.world posOptions hn zs false).2
      ⟨⟨rfl, rfl, by simp [Options.Conflict, posOptions, toyOptions], Or.inl ⟨_, h1⟩⟩, rfl, posTA, ?_, Or.inl h2, ?_⟩
    · have hW : posEnv.world.parse "((aa)%>=1)b" = .ok (some posPattern) := by
        show parseOutcome "((aa)%>=1)b" = .ok (some posPattern)
        rw [parseOutcome, hp]
      have hT : posEnv.world.signalTA posPattern = .ok posTA := by
        show posPattern.signalTA id 30 = _
        exact c4
      have hP := PatternIs.expression h1 hW
      rw [if_pos (show posOptions.signal = true from rfl), hT] at hP
      exact hP
    · rw [h2]
      rw [if_pos (show posOptions.signal = true from rfl)]
      have hR := runSignal_eq pos_is_log (show posLog.length < posEnv.steps by decide) posTA
      rw [show (monaa posEnv.fuel posEnv.steps posEnv.efuel (vectorCont ℚ) none posTA posLog).1 = .ok zs from c11] at hR
      exact hR

/-- The hypotheses of `program_status_two` are met; the text `(a` is not a sentence. -/
example : ({ toyOptions with expression := "(a" } : Options).Named ∧ ({ toyOptions with expression := "(a" } : Options).Consistent ∧
    (asked { toyOptions with expression := "(a" }).1 = .expression "(a" ∧
    (∀ x, .bad x ∉ lexFrom .none ("(a".toList.takeWhile (· ≠ '\x00'))) ∧ sampleEnv.run { toyOptions with expression := "(a" } = .fail 2 := by
  have h1 : (asked { toyOptions with expression := "(a" }).1 = .expression "(a" := by decide +kernel
  have h2 : ({ toyOptions with expression := "(a" } : Options).Named := by simp [Options.Named, toyOptions]
  have h3 : ({ toyOptions with expression := "(a" } : Options).Consistent :=
    ⟨rfl, rfl, by simp [Options.Conflict, toyOptions], Or.inl ⟨_, h1⟩⟩
  refine ⟨h2, h3, h1, ?_, (parse_error_status_partial sampleEnv.world _ h2 h3 _ h1).2 rfl⟩
  have : lexFrom .none ("(a".toList.takeWhile (· ≠ '\x00')) = [.lp, .atom 'a'] := rfl
  rw [this]
  simp

/-- The program does not return for `monaa -e '((a%(1,2))+)$'`, whatever the log, if each state is allocated below the states made before. -/
theorem program_hangs (E : Env ℚ) (ha : E.alloc = down) (o : Options) (hn : o.Named) (hc : o.Consistent) (hsig : o.signal = false)
    (hs : (asked o).1 = .expression "((a%(1,2))+)$") (ho : (asked o).2 = "stdin" ∨ (E.file (asked o).2).isSome = true) :
    E.run o = .died .fuel := by
  obtain ⟨hp, A, hA, hh⟩ := pattern_hangs
  rw [← ha] at hA
  rw [run_event hn hc hsig hs hp hA ho]
  have : E.runEvent (asked o).2 o.binary A = .error .fuel := by
    unfold Env.runEvent
    split <;> exact hh _ _ _ _ _
  rw [this]

end Verif.Props
