import Verif.Props.Program

/-!
# Matches invented for expressions, and lost without `$` (C55, C62, C74, C79)
-/

namespace Verif.Props

/-! ## C55 -/

theorem two_optional_check : okAll (fun z => beginExcludes z (5 / 2))
    (monaaNotNecessaryDollar id 20 20 (vectorCont ℚ) twoPattern twoLog) = true := by decide +kernel

/-- **C55 is false**, because of the KMP table: `monaaNotNecessaryDollar` loses the same match of an acyclic pattern with one clock as
`monaaDollar` does. -/
theorem optional_complete_wrong :
    ¬ ∀ (A : TA Nat) (w : TWord ℚ) (fuel steps : Nat) (zs : List (Zone ℚ)), A.NoSilent → A.ClocksDeclared → A.Acyclic → LogOk w →
      LogStrict w → LettersOk w → w.length < steps → monaaNotNecessaryDollar id fuel steps (vectorCont ℚ) A w = .ok zs →
      ∀ t t', A.Match w t t' ∧ between w t t' ≠ [] ∨ A.ReachMatch w t t' → ∃ z ∈ zs, z.Has t t' := by
  intro h
  obtain ⟨zs, h1, h2⟩ := okAll_eq two_optional_check
  obtain ⟨z, hz, hh⟩ := h twoPattern twoLog 20 20 zs two_noSilent two_declared two_acyclic two_log.1 two_log.2.1 two_log.2.2 (by decide) h1 (5 / 2) 6
    (Or.inl ⟨two_match, by decide +kernel⟩)
  exact beginExcludes_has (h2 z hz) hh

/-! ## C62, C74 -/

/-- `((a*)%(1,2))$`: the empty word does not take between 1 and 2 time units, so `$` has to be preceded by some `a`. -/
def idle : TRE ℚ := .concat (.within (.star litA) ⟨.fin 1 false, .fin 2 false⟩) (.atom dollar)

/-- Addresses with the first and the third state exchanged. -/
def swapped (n : Nat) : Nat := if n = 0 then 2 else if n = 2 then 0 else n

theorem swapped_inj : Function.Injective swapped := by
  intro a b h
  unfold swapped at h
  split_ifs at h <;> omega

theorem idle_plain : idle.Plain := ⟨⟨⟨trivial, litA_plain⟩, by decide, openI_int 1 2⟩, by show dollar ≠ epsilon; decide⟩

def idleZone : Zone ℚ := sixZone ⟨.fin 1 false, .fin 0 true, .fin 1 true, .fin 0 true, .fin 1 true, .fin 0 true⟩

theorem idleZone_has : idleZone.Has 0 (1 / 2) := by
  refine sixZone_Sat.2 ?_
  simp only [Six.Sat, sat_t, sat_f]
  norm_num

theorem idle_check : (idle.eventTA swapped).toOption.any (fun A => (monaaDollar id 30 30 (vectorCont ℚ) A twoLog).toOption.any
    (fun zs => zs.any fun z => decide (z = idleZone))) = true := by decide +kernel

theorem idle_run : ∃ A zs, idle.eventTA swapped = .ok A ∧ monaaDollar id 30 30 (vectorCont ℚ) A twoLog = .ok zs ∧ idleZone ∈ zs := by
  have h := idle_check
  cases hA : idle.eventTA swapped with
  | error x => rw [hA] at h; cases h
  | ok A =>
    rw [hA] at h
    simp only [Except.toOption, Option.any_some] at h
    cases hz : monaaDollar id 30 30 (vectorCont ℚ) A twoLog with
    | error x => rw [hz] at h; cases h
    | ok zs =>
      rw [hz] at h
      simp only [Option.any_some, List.any_eq_true, decide_eq_true_eq] at h
      obtain ⟨z, hz', rfl⟩ := h
      exact ⟨A, zs, rfl, hz, hz'⟩

theorem idle_not (d : ℚ) : ¬ idle.Lang [(dollar, d)] := by
  rintro ⟨u, v, huv, ⟨-, hm⟩, t, hv⟩
  subst hv
  have hu : u = [] := by
    have := congrArg List.length huv
    simp at this
    exact this
  subst hu
  have := hm.1
  simp only [Interval.Above, endTime] at this
  norm_num at this

/-- **C62 is false**: for `((a*)%(1,2))$` and a log with `a` at 1, 3, 5 and 7, the pair `(0, 1/2)` is reported, between which there is no event. -/
theorem expression_match_sound_wrong :
    ¬ ∀ (alloc : Nat → Nat) (e : TRE ℚ) (A : TA Nat) (w : TWord ℚ) (fuel steps : Nat) (zs : List (Zone ℚ)), Function.Injective alloc →
      e.Plain → e.eventTA alloc = .ok A → LogOk w → w.length < steps → monaaDollar id fuel steps (vectorCont ℚ) A w = .ok zs →
      ∀ z ∈ zs, ∀ t t', z.Has t t' → e.Lang ((between w t t').map (fun e => (e.1, e.2 - t)) ++ [(dollar, t' - t)]) := by
  intro h
  obtain ⟨A, zs, hA, hz, hin⟩ := idle_run
  have := h swapped idle A twoLog 30 30 zs swapped_inj idle_plain hA two_log.1 (by decide) hz idleZone hin 0 (1 / 2) idleZone_has
  have e : between twoLog 0 (1 / 2) = [] := by decide +kernel
  rw [e] at this
  exact idle_not _ this

/-- **C74 is false**: the same for the text of the pattern. -/
theorem pattern_match_sound_wrong :
    ¬ ∀ (s : List Char) (e : TRE ℚ) (alloc : Nat → Nat) (A : TA Nat) (w : TWord ℚ) (fuel steps : Nat) (zs : List (Zone ℚ)),
      parsePattern s = .ok e → Function.Injective alloc → e.clocks ≤ 256 → e.eventTA alloc = .ok A → LogOk w → w.length < steps →
      monaaDollar id fuel steps (vectorCont ℚ) A w = .ok zs →
      ∀ z ∈ zs, ∀ t t', z.Has t t' → e.Lang ((between w t t').map (fun e => (e.1, e.2 - t)) ++ [(dollar, t' - t)]) := by
  intro h
  obtain ⟨A, zs, hA, hz, hin⟩ := idle_run
  have := h "((a*)%(1,2))$".toList idle swapped A twoLog 30 30 zs rfl swapped_inj (by decide) hA two_log.1 (by decide) hz idleZone hin
    0 (1 / 2) idleZone_has
  have e : between twoLog 0 (1 / 2) = [] := by decide +kernel
  rw [e] at this
  exact idle_not _ this

/-! ## C79 -/

/-- What is reported for an expression in event mode is printed, and nothing else. -/
theorem program_prints {E : Env ℚ} {o : Options} (hn : o.Named) (hc : o.Consistent) (hsig : o.signal = false) (hq : o.quiet = false) {s : String}
    (hs : (asked o).1 = .expression s) {e : TRE ℚ} (hp : parsePattern s.toList = .ok e) (hinj : Function.Injective E.alloc) (hpl : e.Plain)
    {A : TA Nat} (hA : e.eventTA E.alloc = .ok A) (ho : (asked o).2 = "stdin" ∨ (E.file (asked o).2).isSome = true) {w : TWord ℚ}
    (hlog : E.LogIs (asked o).2 o.binary w) (hw : LogOk w) (hst : w.length < E.steps) {zs : List (Zone ℚ)}
    (hz : monaaDollar id E.fuel E.steps (vectorCont ℚ) A w = .ok zs) :
    E.run o = .matched zs false ∧ ∀ t t', PrintedPair (E.run o).printed t t' ↔ ∃ z ∈ zs, z.Has t t' := by
  have h := run_event hn hc hsig hs hp hA ho
  rw [runEvent_eq hlog hst, hz, hq] at h
  refine ⟨h, fun t t' => ?_⟩
  rw [h, printed_matched, if_neg (by simp), printedPair_iff]
  obtain ⟨A', hA', -, -, -, -, -, hT, -⟩ := eventTA_final_partial E.alloc hinj e hpl
  rw [hA] at hA'
  cases hA'
  refine exists_congr fun z => and_congr_right fun hin => ?_
  obtain ⟨k1, k2, k3⟩ := matcher_zones_tight A w hw id E.fuel E.steps hst zs (Or.inl hz) z hin
  have hm := matcher_sound A hT w hw id E.fuel E.steps hst zs (Or.inl hz) z hin
  exact printBlock_has k1 k2 k3 (fun a b hab => ⟨(hm a b hab).1, (hm a b hab).2.1⟩) t t'

/-- The command line `monaa -e s`. -/
def textOptions (s : String) : Options := { toyOptions with expression := s }

/-- **C79 is false**, soundness: with some addresses, `monaa -e '((a*)%(1,2))$'` prints a block for the pair `(0, 1/2)`, between which there is no
event. -/
theorem program_sound_wrong : ¬ ∀ (E : Env ℚ) (o : Options) (s : String) (e : TRE ℚ) (w : TWord ℚ), Function.Injective E.alloc → o.Named →
    o.signal = false → (asked o).1 = .expression s → parsePattern s.toList = .ok e → e.clocks ≤ 256 → E.LogIs (asked o).2 o.binary w → LogOk w →
    w.length < E.steps → ∀ t t', PrintedPair (E.run o).printed t t' →
    e.Lang ((between w t t').map (fun e => (e.1, e.2 - t)) ++ [(dollar, t' - t)]) := by
  intro h
  obtain ⟨A, zs, hA, hz, hin⟩ := idle_run
  have h1 : (asked (textOptions "((a*)%(1,2))$")).1 = .expression "((a*)%(1,2))$" := by decide +kernel
  have h2 : (asked (textOptions "((a*)%(1,2))$")).2 = "stdin" := by decide +kernel
  have hn : (textOptions "((a*)%(1,2))$").Named := by simp [Options.Named, textOptions, toyOptions]
  have hlog : Env.LogIs { sampleEnv with alloc := swapped } (asked (textOptions "((a*)%(1,2))$")).2 (textOptions "((a*)%(1,2))$").binary twoLog := by
    rw [h2]
    exact sample_log
  have hpr := (program_prints (E := { sampleEnv with alloc := swapped }) hn
    ⟨rfl, rfl, by simp [Options.Conflict, textOptions, toyOptions], Or.inl ⟨_, h1⟩⟩ rfl rfl h1 rfl swapped_inj idle_plain hA (Or.inl h2) hlog two_log.1
    (by decide) hz).2
  have := h { sampleEnv with alloc := swapped } (textOptions "((a*)%(1,2))$") _ idle twoLog swapped_inj hn rfl h1 rfl (by decide) hlog two_log.1
    (by decide) 0 (1 / 2) ((hpr _ _).2 ⟨_, hin, idleZone_has⟩)
  have e : between twoLog 0 (1 / 2) = [] := by decide +kernel
  rw [e] at this
  exact idle_not _ this

/-- **C79 is false**, completeness: `monaa -e '(a%(<1))((a%(1,3))$)'` finishes, but prints no block for a match. -/
theorem program_complete_wrong : ¬ ∀ (E : Env ℚ) (o : Options) (s : String) (e : TRE ℚ) (w : TWord ℚ), Function.Injective E.alloc → o.Named →
    o.signal = false → o.quiet = false → (asked o).1 = .expression s → '*' ∉ s.toList → '+' ∉ s.toList → '>' ∉ s.toList →
    parsePattern s.toList = .ok e → e.clocks ≤ 128 → E.LogIs (asked o).2 o.binary w → LogOk w → LogStrict w → LettersOk w →
    w.length < E.steps → (∃ zs q, E.run o = .matched zs q) → ∀ t t', 0 ≤ t → t ≤ t' → between w t t' ≠ [] →
    e.Lang ((between w t t').map (fun e => (e.1, e.2 - t)) ++ [(dollar, t' - t)]) → PrintedPair (E.run o).printed t t' := by
  intro h
  have hp : parsePattern "(a%(<1))((a%(1,3))$)".toList = .ok lostE := rfl
  have hpl : lostE.Plain := (parse_plain _ _ hp).1 (by decide) (by decide)
  obtain ⟨A, hA, -⟩ := eventTA_final_partial down down_inj lostE hpl
  have key := lost_check
  rw [hA] at key
  simp only [Except.toOption, Option.any_some] at key
  obtain ⟨zs, h1, h2⟩ := okAll_eq key
  have k1 : (asked (textOptions "(a%(<1))((a%(1,3))$)")).1 = .expression "(a%(<1))((a%(1,3))$)" := by decide +kernel
  have k2 : (asked (textOptions "(a%(<1))((a%(1,3))$)")).2 = "stdin" := by decide +kernel
  have hn : (textOptions "(a%(<1))((a%(1,3))$)").Named := by simp [Options.Named, textOptions, toyOptions]
  have hlog : sampleEnv.LogIs (asked (textOptions "(a%(<1))((a%(1,3))$)")).2 (textOptions "(a%(<1))((a%(1,3))$)").binary twoLog := by
    rw [k2]
    exact sample_log
  obtain ⟨hr, hpr⟩ := program_prints (E := sampleEnv) hn ⟨rfl, rfl, by simp [Options.Conflict, textOptions, toyOptions], Or.inl ⟨_, k1⟩⟩ rfl rfl k1 hp
    down_inj hpl hA (Or.inl k2) hlog two_log.1 (by decide) h1
  have := h sampleEnv (textOptions "(a%(<1))((a%(1,3))$)") _ lostE twoLog down_inj hn rfl rfl k1 (by decide) (by decide) (by decide) hp (by decide) hlog
    two_log.1 two_log.2.1 two_log.2.2 (by decide) ⟨_, _, hr⟩ (5 / 2) 6 (by norm_num) (by norm_num) (by rw [twoLog_between]; simp) lost_lang
  obtain ⟨z, hz, hh⟩ := (hpr _ _).1 this
  exact beginExcludes_has (h2 z hz) hh

/-! ## C88 -/

/-- A file with a graph for `A(CD)*B$`. -/
def loopFile : List DotStmt :=
  [.node 1 true false false, .node 5 false true false, .edge 1 2 65 [] [], .edge 2 3 67 [] [], .edge 2 4 66 [] [], .edge 3 2 68 [] [], .edge 4 5 36 [] []]

/-- Its graph. -/
def loopDot : DotGraph :=
  ⟨[(true, false), (false, false), (false, false), (false, false), (false, true)],
    [⟨0, 1, 65, [], []⟩, ⟨1, 2, 67, [], []⟩, ⟨1, 3, 66, [], []⟩, ⟨2, 1, 68, [], []⟩, ⟨3, 4, 36, [], []⟩]⟩

theorem loop_dot : parseBoostTA loopFile = .ok loopDot := by
  refine toOption_eq (?_ : Except.toOption _ = some loopDot)
  decide +kernel

theorem loop_dot_run : monaaDollar id 20 20 (vectorCont ℚ) (convBoostTA id loopDot) loopLog = .ok [] :=
  okNil_eq (by decide +kernel)

/-- The log `A 1, C 2, D 3, B 4` and the file. -/
def loopEnv : Env ℚ :=
  { sampleEnv with stdin := bytesOf "A 1\nC 2\nD 3\nB 4\n".toList, alloc := id, dot := fun _ => .ok loopFile, fuel := 20, steps := 20 }

theorem loop_is_log : loopEnv.LogIs "stdin" false loopLog := by
  refine ⟨_, Or.inl ⟨rfl, rfl⟩, ?_⟩
  rw [if_neg (by decide)]
  refine ⟨digitText, [], ?_, by simp, by decide +kernel⟩
  intro e he
  have hd : ∀ c ∈ digitText.chars e.2, c.isDigit = true := by
    revert e
    decide +kernel
  have hlit : isWhite (digitText.letter e.1) = false ∧ (digitText.letter e.1).toNat = e.1 ∧
      (digitText.chars e.2).all (fun c => !isWhite c) = true ∧ (digitText.chars e.2).length = 1 ∧
      digitsValue (digitText.chars e.2) = e.2 := by
    revert e
    decide +kernel
  obtain ⟨h1, h2, h3, h4, h5⟩ := hlit
  obtain ⟨c, hc⟩ := List.length_eq_one_iff.1 h4
  refine ⟨h1, h2, ⟨c, [], hc, ?_⟩, fun b rest hb => ?_⟩
  · rw [hc] at h3
    simpa using h3
  · show digitScan.scan _ = _
    simp only [digitScan]
    rw [digits_white hd hb rest, if_neg (by rw [hc]; simp), h5]

/-- **C88 is false**: for a file with a graph for `A(CD)*B$`, without guards, the program finishes, but prints no block for a match. -/
theorem program_file_complete_wrong : ¬ ∀ (E : Env ℚ) (o : Options) (f : String) (l : List DotStmt) (G : DotGraph) (w : TWord ℚ),
    Function.Injective E.alloc → o.Named → o.quiet = false → (asked o).1 = .file f → E.dot ((E.file f).getD []) = .ok l → parseBoostTA l = .ok G →
    (∀ e ∈ G.edges, e.label ≠ epsilon ∧ e.guard = [] ∧ e.resets = []) → E.LogIs (asked o).2 o.binary w → LogOk w → LogStrict w → LettersOk w →
    w.length < E.steps → (∃ zs q, E.run o = .matched zs q) → ∀ t t', 0 ≤ t → t ≤ t' → between w t t' ≠ [] →
    G.AcceptsFrom 0 ((between w t t').map (fun e => (e.1, e.2 - t)) ++ [(dollar, t' - t)]) → PrintedPair (E.run o).printed t t' := by
  intro h
  have k1 : (asked fileOptions).1 = .file "a.dot" := by decide +kernel
  have k2 : (asked fileOptions).2 = "stdin" := by decide +kernel
  have hn : fileOptions.Named := by simp [Options.Named, fileOptions, toyOptions]
  have hlog : loopEnv.LogIs (asked fileOptions).2 fileOptions.binary loopLog := by
    rw [k2]
    exact loop_is_log
  have hr : loopEnv.run fileOptions = .matched [] false := by
    refine (main_matched_iff loopEnv.world fileOptions hn [] false).2
      ⟨⟨rfl, rfl, by simp [Options.Conflict, fileOptions, toyOptions], Or.inr ⟨⟨_, k1⟩, rfl⟩⟩, rfl, convBoostTA id loopDot, ?_, Or.inl k2, ?_⟩
    · have hL : loopEnv.world.loadTA "a.dot" = .ok (convBoostTA id loopDot) := by
        show (do let l ← Except.ok loopFile; loadTA id l) = _
        simp only [bind, Except.bind, loadTA, loop_dot, pure, Except.pure]
      rw [← hL]
      exact .file k1
    · rw [k2, if_neg (show ¬ fileOptions.signal = true by decide)]
      have hR := runEvent_eq loop_is_log (show loopLog.length < loopEnv.steps by decide) (convBoostTA id loopDot)
      rw [show monaaDollar id loopEnv.fuel loopEnv.steps (vectorCont ℚ) (convBoostTA id loopDot) loopLog = .ok [] from loop_dot_run] at hR
      exact hR
  have hb : between loopLog 0 5 = loopLog := by decide +kernel
  have := h loopEnv fileOptions "a.dot" loopFile loopDot loopLog Function.injective_id hn rfl k1 rfl loop_dot (by decide) hlog loop_log.1 loop_log.2.1
    loop_log.2.2 (by decide) ⟨_, _, hr⟩ 0 5 (le_refl _) (by norm_num) (by rw [hb]; decide) (by
      rw [hb]
      exact ⟨0, false, rfl, 4, false, ⟨⟨0, 1, 65, [], []⟩, by decide, rfl, rfl, by simp [GuardHolds], ⟨1, 2, 67, [], []⟩, by decide, rfl, rfl,
        by simp [GuardHolds], ⟨2, 1, 68, [], []⟩, by decide, rfl, rfl, by simp [GuardHolds], ⟨1, 3, 66, [], []⟩, by decide, rfl, rfl,
        by simp [GuardHolds], ⟨3, 4, 36, [], []⟩, by decide, rfl, rfl, by simp [GuardHolds], rfl⟩, rfl⟩)
  rw [hr, printed_matched] at this
  obtain ⟨z, hz, -⟩ := (printedPair_iff _ _ _).1 this
  cases hz

/-- A file with a graph for `(a|b)$` with two initial vertices. -/
def pairFile : List DotStmt :=
  [.node 0 true false false, .node 1 true false false, .node 2 false false false, .node 3 false true false, .edge 0 2 97 [] [],
    .edge 1 2 98 [] [], .edge 2 3 36 [] []]

/-- Its graph. -/
def pairDot : DotGraph :=
  ⟨[(true, false), (true, false), (false, false), (false, true)], [⟨0, 2, 97, [], []⟩, ⟨1, 2, 98, [], []⟩, ⟨2, 3, 36, [], []⟩]⟩

theorem pair_dot : parseBoostTA pairFile = .ok pairDot := by
  refine toOption_eq (?_ : Except.toOption _ = some pairDot)
  decide +kernel

/-- **C89 is false**: for a graph with two initial vertices whose states are at decreasing addresses, the search for an initial state
among the initial states (which are not sorted) is undefined. -/
theorem program_file_ends_wrong : ¬ ∀ (E : Env ℚ) (o : Options) (f : String) (l : List DotStmt) (G : DotGraph) (w : TWord ℚ),
    Function.Injective E.alloc → o.Named → o.Consistent → (asked o).1 = .file f → E.dot ((E.file f).getD []) = .ok l → parseBoostTA l = .ok G →
    (∀ e ∈ G.edges, e.label < 127 ∧ e.source < e.target ∧ e.guard = [] ∧ e.resets = []) → ((asked o).2 = "stdin" ∨ (E.file (asked o).2).isSome = true) →
    E.LogIs (asked o).2 o.binary w → LogOk w → LogStrict w → LettersOk w →
    ∃ fuel steps, (∃ zs q, Env.run { E with fuel := fuel, steps := steps } o = .matched zs q) ∨
      Env.run { E with fuel := fuel, steps := steps } o = .died (.exit 10) := by
  intro h
  have k1 : (asked fileOptions).1 = .file "a.dot" := by decide +kernel
  have k2 : (asked fileOptions).2 = "stdin" := by decide +kernel
  have hn : fileOptions.Named := by simp [Options.Named, fileOptions, toyOptions]
  have hc : fileOptions.Consistent := ⟨rfl, rfl, by simp [Options.Conflict, fileOptions, toyOptions], Or.inr ⟨⟨_, k1⟩, rfl⟩⟩
  obtain ⟨fuel, steps, hr⟩ := h { sampleEnv with dot := fun _ => .ok pairFile } fileOptions "a.dot" pairFile pairDot twoLog down_inj hn hc k1 rfl pair_dot
    (by decide) (Or.inl k2) (by rw [k2]; exact sample_log) two_log.1 two_log.2.1 two_log.2.2
  have hb : (convBoostTA down pairDot).states.all (fun s => partitioned id (convBoostTA down pairDot).init s) = false := by decide +kernel
  have key := run_file_event (E := { sampleEnv with dot := fun _ => .ok pairFile, fuel := fuel, steps := steps }) hn hc k1 rfl pair_dot (Or.inl k2)
  have hrun : Env.runEvent { sampleEnv with dot := fun _ => .ok pairFile, fuel := fuel, steps := steps } (asked fileOptions).2 fileOptions.binary
      (convBoostTA down pairDot) = .error .ub := by
    unfold Env.runEvent
    rw [if_neg (show ¬ fileOptions.binary = true by decide)]
    unfold monaaDollar prepare
    rw [hb, if_neg (by decide)]
    rfl
  change _ = match Env.runEvent { sampleEnv with dot := fun _ => .ok pairFile, fuel := fuel, steps := steps } (asked fileOptions).2 fileOptions.binary
      (convBoostTA down pairDot) with
      | .ok r => Outcome.matched r fileOptions.quiet
      | .error x => Outcome.died x at key
  rw [hrun] at key
  rcases hr with ⟨zs, q, hr⟩ | hr
  · rw [hr] at key
    cases key
  · rw [hr] at key
    cases key

end Verif.Props
