import Verif.Examples.Signal
import Verif.Props.Matcher

/-!
# Properties of the matchers without `$` and with optional `$` (C11, C12, C51-C55)

`monaa fuel steps efuel C st A w` is the model of `monaa`: the zones reported, and the size of a static variable after the
call (`st` is its size before; it only matters for patterns with silent transitions).
`monaaNotNecessaryDollar addr fuel steps C A w` is the model of the function with this name.
The other parameters are as for `monaaDollar`.
-/

set_option linter.unusedSectionVars false

namespace Verif.Props

variable {S K : Type} [DecidableEq S] [Field K] [LinearOrder K] [IsStrictOrderedRing K]

/-! ## C11 -/

theorem monaa_both {fuel steps efuel : Nat} {st : Option Nat} {A : TA S} {w : TWord K} (hs : w.length < steps)
    {zs : List (Zone K)}
    (h : (monaa fuel steps efuel (vectorCont K) st A w).1 = .ok zs ∨
      (monaa fuel steps efuel (lazyCont K) st A (Lazy.mk0 w)).1 = .ok zs) :
    ∃ T, makeTables K fuel A = .ok T ∧
      (A.NoSilent ∧ clocksOk A = true ∧ matchListE (signalHooks A) T w steps steps 0 = .ok zs ∨
        ¬ A.NoSilent ∧ matchListE (silentHooks A (st.getD A.clockSize) efuel) T w steps steps 0 = .ok zs) := by
  rcases h with h | h
  · exact monaa_inv (vector_implements w) (k := 0) rfl hs (Prod.ext h rfl)
  · exact monaa_inv (lazy_implements w) (lazy_mk0 w) hs (Prod.ext h rfl)

/-- **C11.** For every pattern without silent transitions, whatever the contents of the skip tables, the static variable and
the container: if the call returns, every pair `(t, t')` of a reported zone satisfies `0 ≤ t ≤ t'`, and the events strictly
between `t` and `t'`, followed by the next event moved back to `t'`, are accepted by the pattern started at `t`. -/
theorem signal_sound (A : TA S) (hA : A.Tidy) (hε : A.NoSilent) (w : TWord K) (hw : LogOk w) (fuel steps efuel : Nat)
    (st : Option Nat) (hs : w.length < steps) (zs : List (Zone K))
    (h : (monaa fuel steps efuel (vectorCont K) st A w).1 = .ok zs ∨
      (monaa fuel steps efuel (lazyCont K) st A (Lazy.mk0 w)).1 = .ok zs) :
    ∀ z ∈ zs, ∀ t t', z.Has t t' → 0 ≤ t ∧ t ≤ t' ∧ ∃ a, letterAt w t' = some a ∧
      A.Accepts ((between w t t').map (fun e => (e.1, e.2 - t)) ++ [(a, t' - t)]) := by
  intro z hz t t' hzt
  obtain ⟨T, -, ⟨-, hc, hm⟩ | ⟨hn, -⟩⟩ := monaa_both hs h
  swap
  · exact absurd hε hn
  obtain ⟨i, hi, r, hr, hzi⟩ := matchListE_mem hm hz
  rw [runListE_signal] at hr
  cases hr
  obtain ⟨-, h0, hle, a, ha, hacc⟩ := run_sound_on (clocksOk_declared hA hc) hw hi hzi hzt
  refine ⟨h0, hle, a, ha, ?_⟩
  have := (acceptsFrom_shift A t _).1 hacc
  simpa using this

/-- The sample meets the hypotheses, and a zone with the pair `(2, 5)` is reported. -/
example : signalPattern.Tidy ∧ signalPattern.NoSilent ∧ LogOk signalLog ∧
    ∃ zs, (monaa 20 20 20 (vectorCont ℚ) none signalPattern signalLog).1 = .ok zs ∧ ∃ z ∈ zs, z.Has 2 5 :=
  ⟨signalPattern_tidy, signalPattern_noSilent, signalLog_ok.1, signal_has⟩

/-! ## C51 -/

/-- **C51 is false** even for acyclic patterns whose upper bounds are on clocks reset since the start: a match of the signal
is lost, because the KMP table treats the letter at the end of the match as if it lasted until the next event. -/
theorem signal_complete_wrong :
    ¬ ∀ (A : TA Nat) (w : TWord ℚ) (fuel steps efuel : Nat) (zs : List (Zone ℚ)), A.NoSilent → A.ClocksDeclared → A.Acyclic →
      A.UpperAfterReset → LogOk w → LogStrict w → LettersOk w →
      (monaa fuel steps efuel (vectorCont ℚ) none A w).1 = .ok zs →
      ∀ t t', t < t' → A.SignalMatch w t t' → ∃ z ∈ zs, z.Has t t' := by
  intro h
  obtain ⟨z, hz, -⟩ := h cutPattern cutLog 40 40 40 [] cut_noSilent cut_declared cut_acyclic cut_upper cut_log.1 cut_log.2.1
    cut_log.2.2 cut_run 2 4 (by norm_num) cut_match
  cases hz

/-- **C51, what holds** (`_partial`: for patterns whose cycles are loops at a state, or ordered, without guard and resets, whose upper bounds are on clocks reset since the start and not on
transitions to accepting states, without silent transitions and `zeroDuration` states, with at most 128 clocks; `t < t'`,
instants are distinct and positive, letters have codes 1 to 126).  No match of the signal is lost. -/
theorem signal_complete_partial (A : TA S) (hC : A.ClocksDeclared) (hε : A.NoSilent) (hcl : A.Closed) (hM : A.MapOk)
    (hac : A.LoopsOk) (hU : A.UpperAfterReset) (hF : A.FinalLower) (hz : A.NoZeroDuration) (hsz : 2 * A.clockSize ≤ 256)
    (w : TWord K) (hw : LogOk w) (hstr : LogStrict w) (hlet : LettersOk w) (fuel steps efuel : Nat) (st : Option Nat)
    (hs : w.length < steps) (zs : List (Zone K))
    (h : (monaa fuel steps efuel (vectorCont K) st A w).1 = .ok zs ∨
      (monaa fuel steps efuel (lazyCont K) st A (Lazy.mk0 w)).1 = .ok zs)
    (t t' : K) (htt : t < t') (hm : A.SignalMatch w t t') : ∃ z ∈ zs, z.Has t t' := by
  obtain ⟨T, hT, ⟨-, -, hlist⟩ | ⟨hn, -⟩⟩ := monaa_both hs h
  swap
  · exact absurd hε hn
  obtain ⟨a, ha, -⟩ := hm.2.2
  have hex : ∃ e ∈ w, t < e.2 := by
    unfold letterAt at ha
    simp only [Option.map_eq_some_iff] at ha
    obtain ⟨e, he, -⟩ := ha
    have := List.mem_of_mem_head? he
    simp only [List.mem_filter, decide_eq_true_eq] at this
    exact ⟨e, this.1, lt_of_lt_of_le htt this.2⟩
  obtain ⟨i, hi⟩ := exists_startsAt_of hw hm.1 hex
  exact signal_complete hw hstr hlet hi htt hT hM hC hcl hz hac hU hF hsz hm (Nat.zero_le _) hlist

/-- The sample meets the hypotheses. -/
example : signalPattern.ClocksDeclared ∧ signalPattern.NoSilent ∧ signalPattern.Closed ∧ signalPattern.MapOk ∧
    signalPattern.LoopsOk ∧ signalPattern.UpperAfterReset ∧ signalPattern.FinalLower ∧ signalPattern.NoZeroDuration ∧
    2 * signalPattern.clockSize ≤ 256 ∧ LogOk signalLog ∧ LogStrict signalLog ∧ LettersOk signalLog ∧
    (∃ zs, (monaa 20 20 20 (vectorCont ℚ) none signalPattern signalLog).1 = .ok zs) ∧
    signalPattern.SignalMatch signalLog 2 5 :=
  ⟨signalPattern_declared, signalPattern_noSilent, signalPattern_closed, signalPattern_mapOk, signalPattern_acyclic.loopsOk,
    signalPattern_upper, signalPattern_final, signalPattern_noZero, by decide, signalLog_ok.1, signalLog_ok.2.1,
    signalLog_ok.2.2, (let ⟨zs, h, _⟩ := signal_has; ⟨zs, h⟩), signal_match⟩

/-! ## C52 -/

/-- **C52.** Every zone reported by `monaa` for a pattern without silent transitions is over the two variables begin and end,
contains some pair `(t, t')`, and none of its bounds can be strengthened without losing a point. -/
theorem signal_zones_tight (A : TA S) (hε : A.NoSilent) (w : TWord K) (hw : LogOk w) (fuel steps efuel : Nat)
    (st : Option Nat) (hs : w.length < steps) (zs : List (Zone K))
    (h : (monaa fuel steps efuel (vectorCont K) st A w).1 = .ok zs ∨
      (monaa fuel steps efuel (lazyCont K) st A (Lazy.mk0 w)).1 = .ok zs) :
    ∀ z ∈ zs, z.n = 3 ∧ (∃ t t', z.Has t t') ∧ z.Tight := by
  intro z hz
  obtain ⟨T, -, ⟨-, hc, hm⟩ | ⟨hn, -⟩⟩ := monaa_both hs h
  swap
  · exact absurd hε hn
  obtain ⟨i, hi, r, hr, hzi⟩ := matchListE_mem hm hz
  rw [runListE_signal] at hr
  cases hr
  exact zones_tight_of_run hw hi hzi

/-- The hypotheses hold of the sample, which reports a zone. -/
example : signalPattern.NoSilent ∧ LogOk signalLog ∧
    ∃ z zs, (monaa 20 20 20 (vectorCont ℚ) none signalPattern signalLog).1 = .ok zs ∧ z ∈ zs :=
  ⟨signalPattern_noSilent, signalLog_ok.1, let ⟨zs, h, z, hz, _⟩ := signal_has; ⟨z, zs, h, hz⟩⟩

/-! ## C53 -/

/-- **C53.** Streaming gives exactly the same result of `monaa` as reading the whole log, also for patterns with silent
transitions, and leaves the same static variable; also the errors agree. -/
theorem signal_streaming (A : TA S) (w : TWord K) (fuel steps efuel : Nat) (st : Option Nat) (hs : w.length < steps) :
    monaa fuel steps efuel (lazyCont K) st A (Lazy.mk0 w) = monaa fuel steps efuel (vectorCont K) st A w := by
  unfold monaa
  cases hT : makeTables K fuel A with
  | error x => rfl
  | ok T =>
    have hm := (sundayTable_shape (makeTables_spec hT).1).1
    simp only
    rw [matchLoop_spec (vector_implements w) (k := 0) (f := 0) rfl hm (by omega) hs,
      matchLoop_spec (lazy_implements w) (lazy_mk0 w) hm (by omega) hs,
      matchLoop_spec (vector_implements w) (k := 0) (f := 0) rfl hm (by omega) hs,
      matchLoop_spec (lazy_implements w) (lazy_mk0 w) hm (by omega) hs,
      reachesStart_spec (vector_implements w) (k := 0) rfl hm, reachesStart_spec (lazy_implements w) (lazy_mk0 w) hm]

/-- **C53.** The same for `monaaNotNecessaryDollar`. -/
theorem optional_streaming (A : TA S) (w : TWord K) (addr : S → Nat) (fuel steps : Nat) (hs : w.length < steps) :
    monaaNotNecessaryDollar addr fuel steps (lazyCont K) A (Lazy.mk0 w) =
      monaaNotNecessaryDollar addr fuel steps (vectorCont K) A w := by
  unfold monaaNotNecessaryDollar
  cases prepareOpt addr A with
  | error x => rfl
  | ok Ap =>
    simp only [bind, Except.bind]
    cases hT : makeTables K fuel Ap with
    | error x => rfl
    | ok T =>
      have hm := (sundayTable_shape (makeTables_spec hT).1).1
      simp only
      rw [matchLoop_spec (vector_implements w) (k := 0) (f := 0) rfl hm (by omega) hs,
        matchLoop_spec (lazy_implements w) (lazy_mk0 w) hm (by omega) hs]

/-- The streaming runs on the samples. -/
example : (∃ zs, (monaa 20 20 20 (lazyCont ℚ) none signalPattern (Lazy.mk0 signalLog)).1 = .ok zs ∧ ∃ z ∈ zs, z.Has 2 5) ∧
    ∃ zs, monaaNotNecessaryDollar id 20 20 (lazyCont ℚ) onePattern (Lazy.mk0 oneLog) = .ok zs ∧ zs ≠ [] := by
  rw [signal_streaming _ _ _ _ _ _ (by decide), optional_streaming _ _ _ _ _ (by decide)]
  exact ⟨signal_has, _, okOne_eq one_check, by simp⟩

/-! ## C54 -/

/-- **C54.** Once the tables are built, `monaa` returns for every pattern without silent transitions and every log. -/
theorem signal_stops (A : TA S) (hA : A.Closed) (hM : A.MapOk) (hC : A.ClocksDeclared) (hε : A.NoSilent)
    (fuel : Nat) (T : Tables S) (hT : makeTables K fuel A = .ok T) (w : TWord K) (hl : LettersOk w) (steps efuel : Nat)
    (st : Option Nat) (hs : w.length < steps) :
    ∃ zs, monaa fuel steps efuel (vectorCont K) st A w = (.ok zs, st) ∧
      monaa fuel steps efuel (lazyCont K) st A (Lazy.mk0 w) = (.ok zs, st) := by
  obtain ⟨h1, beta, h2, h3⟩ := makeTables_spec hT
  obtain ⟨hm, hsize, hd⟩ := sundayTable_shape h1
  have hb : ∀ s ∈ A.states, ∃ b, T.beta s = some b := by
    intro s hs
    rw [h3]
    exact (kmpTable_spec h2).2 s hs
  obtain ⟨zs, hzs⟩ := matchListE_ok (M := signalHooks A) hsize (fun d h => (hd d h).1) hm hl (w := w) (inner := steps)
    (fuel := steps) (i := 0) (fun k hk => ⟨_, runListE_signal _ _ _ _ _, fun c hc => hb _ (runList_states hA
      (fun c hc => hA.1 _ (mem_initConfs hc).1) (by simp) c hc)⟩) hs (by omega)
  have hc := declared_clocksOk hM hC
  rw [signal_streaming _ _ _ _ _ _ hs]
  have key : monaa fuel steps efuel (vectorCont K) st A w = (.ok zs, st) := by
    unfold monaa
    rw [hT]
    simp only
    rw [if_pos, if_pos hc, matchLoop_spec (vector_implements w) (k := 0) (f := 0) rfl hm (by omega) hs, hzs]
    rw [List.all_eq_true]
    intro s hs
    rw [hε s hs]
    rfl
  exact ⟨zs, key, key⟩

/-- **C54.** Once the tables are built, `monaaNotNecessaryDollar` returns for every log. -/
theorem optional_stops (A : TA S) (hA : A.Closed) (hM : A.MapOk) (hC : A.ClocksDeclared) (hTidy : A.Tidy) (addr : S → Nat)
    (Ap : TA S) (hp : prepareOpt addr A = .ok Ap) (fuel : Nat) (T : Tables S) (hT : makeTables K fuel Ap = .ok T)
    (w : TWord K) (hl : LettersOk w) (steps : Nat) (hs : w.length < steps) :
    ∃ zs, monaaNotNecessaryDollar addr fuel steps (vectorCont K) A w = .ok zs ∧
      monaaNotNecessaryDollar addr fuel steps (lazyCont K) A (Lazy.mk0 w) = .ok zs := by
  obtain ⟨h1, beta, h2, h3⟩ := makeTables_spec hT
  obtain ⟨hm, hsize, hd⟩ := sundayTable_shape h1
  have hb : ∀ s ∈ A.states, ∃ b, T.beta s = some b := by
    intro s hs
    rw [h3]
    exact (kmpTable_spec h2).2 s (by rw [(prepareOpt_spec hTidy hM hA hp).1]; exact hs)
  obtain ⟨zs, hzs⟩ := matchListE_ok (M := optionalHooks A) hsize (fun d h => (hd d h).1) hm hl (w := w) (inner := steps)
    (fuel := steps) (i := 0) (fun k hk => ⟨_, runListE_optional _ _ _ _ _, fun c hc => hb _ (runOpt_states hA
      (fun c hc => hA.1 _ (mem_initConfs hc).1) (by simp) c hc)⟩) hs (by omega)
  have hc := declared_clocksOk hM hC
  rw [optional_streaming _ _ _ _ _ hs]
  unfold monaaNotNecessaryDollar
  rw [hp]
  simp only [bind, Except.bind]
  rw [hT]
  simp only [hc, if_true]
  rw [matchLoop_spec (vector_implements w) (k := 0) (f := 0) rfl hm (by omega) hs, hzs]
  split_ifs
  · exact ⟨zs, rfl, rfl⟩
  · exact ⟨[], rfl, rfl⟩

/-- The tables of the samples are built, and they meet the other hypotheses. -/
example : signalPattern.Closed ∧ signalPattern.MapOk ∧ signalPattern.ClocksDeclared ∧ signalPattern.NoSilent ∧
    LettersOk signalLog ∧ (∃ T, makeTables ℚ 20 signalPattern = .ok T) ∧ optionalPattern.Closed ∧ optionalPattern.MapOk ∧
    optionalPattern.ClocksDeclared ∧ optionalPattern.Tidy ∧ LettersOk optionalLog ∧
    ∃ Ap T, prepareOpt id optionalPattern = .ok Ap ∧ makeTables ℚ 20 Ap = .ok T := by
  obtain ⟨zs, h, -⟩ := signal_has
  obtain ⟨T, hT, -⟩ := monaa_both (by decide) (Or.inl h)
  obtain ⟨zs', h'⟩ := optional_run
  obtain ⟨Ap, T', hp, hT', -⟩ := optional_inv (vector_implements optionalLog) (k := 0) rfl (by decide) h'
  exact ⟨signalPattern_closed, signalPattern_mapOk, signalPattern_declared, signalPattern_noSilent, signalLog_ok.2.2,
    ⟨T, hT⟩, optional_closed, optional_mapOk, optional_declared, optional_tidy, optional_log.2.2, Ap, T', hp, hT'⟩

/-! ## C12 -/

theorem optional_both {addr : S → Nat} {fuel steps : Nat} {A : TA S} {w : TWord K} (hs : w.length < steps)
    {zs : List (Zone K)}
    (h : monaaNotNecessaryDollar addr fuel steps (vectorCont K) A w = .ok zs ∨
      monaaNotNecessaryDollar addr fuel steps (lazyCont K) A (Lazy.mk0 w) = .ok zs) :
    ∃ Ap T, prepareOpt addr A = .ok Ap ∧ makeTables K fuel Ap = .ok T ∧ (¬ A.NoSilent ∧ zs = [] ∨
        A.NoSilent ∧ clocksOk A = true ∧ matchListE (optionalHooks A) T w steps steps 0 = .ok zs) := by
  rcases h with h | h
  · exact optional_inv (vector_implements w) (k := 0) rfl hs h
  · exact optional_inv (lazy_implements w) (lazy_mk0 w) hs h

/-- **C12 is false**: for the pattern `a` and a log with one `a` at 5, the zone reported contains `(1, 2)`, which is neither
a match closed by `$` nor a match which ends at an event. -/
theorem optional_sound_wrong :
    ¬ ∀ (A : TA Nat) (w : TWord ℚ) (fuel steps : Nat) (zs : List (Zone ℚ)), A.Tidy → LogOk w →
      monaaNotNecessaryDollar id fuel steps (vectorCont ℚ) A w = .ok zs →
      ∀ z ∈ zs, ∀ t t', z.Has t t' → A.Match w t t' ∨ A.ReachMatch w t t' := by
  intro h
  rcases h onePattern oneLog 20 20 [oneZone] one_tidy one_log (okOne_eq one_check) oneZone (by simp) 1 2 one_has with
    ⟨-, -, s, hs, s', hr, -⟩ | ⟨-, -, pre, a, post, hsplit, -⟩
  · have e : between oneLog 1 2 = [] := by decide +kernel
    rw [e] at hr
    obtain ⟨e, he, -⟩ := hr
    obtain ⟨-, h, -⟩ := one_edges _ _ _ he
    exact absurd h (by decide)
  · have : ((a, 2) : Alphabet × ℚ) ∈ oneLog := by rw [hsplit]; simp
    simp only [oneLog, List.mem_singleton, Prod.mk.injEq] at this
    exact absurd this.2 (by norm_num)

/-- **C12, what holds** (`_partial`: for the matches which end at an event the reported end may be too early).  Every
reported pair `(t, t')` satisfies `0 ≤ t ≤ t'`, and is either a match closed by `$`, or there is some `τ ≥ t'` such that
`(t, τ)` is reported by the same zone and is a match which ends at an event. -/
theorem optional_sound_partial (A : TA S) (hA : A.Tidy) (w : TWord K) (hw : LogOk w) (addr : S → Nat) (fuel steps : Nat)
    (hs : w.length < steps) (zs : List (Zone K))
    (h : monaaNotNecessaryDollar addr fuel steps (vectorCont K) A w = .ok zs ∨
      monaaNotNecessaryDollar addr fuel steps (lazyCont K) A (Lazy.mk0 w) = .ok zs) :
    ∀ z ∈ zs, ∀ t t', z.Has t t' → 0 ≤ t ∧ t ≤ t' ∧
      (A.Match w t t' ∨ ∃ τ, t' ≤ τ ∧ z.Has t τ ∧ A.ReachMatch w t τ) := by
  intro z hz t t' hzt
  obtain ⟨Ap, T, -, -, h' | ⟨-, hc, hm⟩⟩ := optional_both hs h
  · rw [h'.2] at hz
    cases hz
  · obtain ⟨i, hi, r, hr, hzi⟩ := matchListE_mem hm hz
    rw [runListE_optional] at hr
    cases hr
    rcases runOpt_sound (clocksOk_declared hA hc) hw hi hzi hzt with h | ⟨hle, τ, h1, h2, h3⟩
    · exact ⟨h.1, h.2.1, Or.inl h⟩
    · exact ⟨h3.1, hle, Or.inr ⟨τ, h1, h2, h3⟩⟩

/-- The hypotheses hold of the counterexample, where the zone contains `(1, 5)` for `(1, 2)`. -/
example : onePattern.Tidy ∧ LogOk oneLog ∧ ∃ zs, monaaNotNecessaryDollar id 20 20 (vectorCont ℚ) onePattern oneLog = .ok zs ∧
    ∃ z ∈ zs, z.Has 1 2 :=
  ⟨one_tidy, one_log, [oneZone], okOne_eq one_check, oneZone, by simp, one_has⟩

/-! ## C55 -/

/-- **C55** (`_partial`: for patterns whose cycles are loops at a state, or ordered, without guard and resets, whose upper bounds are on clocks reset since the start or which
satisfy `OneWindow`, without silent transitions and `zeroDuration` states, with at most 128 clocks; instants are distinct and positive, letters have codes 1 to
126).  `monaaNotNecessaryDollar` loses neither a match closed by `$` which contains an event, nor a match which ends at an
event. -/
theorem optional_complete_partial (A : TA S) (hA : A.Tidy) (hC : A.ClocksDeclared) (hε : A.NoSilent) (hcl : A.Closed)
    (hM : A.MapOk) (hac : A.LoopsOk) (hU : A.Shiftable) (hz : A.NoZeroDuration) (hsz : 2 * A.clockSize ≤ 256)
    (w : TWord K) (hw : LogOk w) (hstr : LogStrict w) (hlet : LettersOk w) (addr : S → Nat) (fuel steps : Nat)
    (hs : w.length < steps) (zs : List (Zone K))
    (h : monaaNotNecessaryDollar addr fuel steps (vectorCont K) A w = .ok zs ∨
      monaaNotNecessaryDollar addr fuel steps (lazyCont K) A (Lazy.mk0 w) = .ok zs)
    (t t' : K) (hm : A.Match w t t' ∧ between w t t' ≠ [] ∨ A.ReachMatch w t t') : ∃ z ∈ zs, z.Has t t' := by
  obtain ⟨Ap, T, hp, hT, h' | ⟨-, -, hlist⟩⟩ := optional_both hs h
  · exact absurd hε h'.1
  · have hprep := prepareOpt_spec hA hM hcl hp
    rcases hm with ⟨hm, hne⟩ | hm
    · obtain ⟨i, hi⟩ := exists_startsAt hw hm.1 hne
      exact optional_dollar hw hstr hlet hi hprep hT hM hC hcl hz hac hU hsz hne hm (Nat.zero_le _) hlist
    · obtain ⟨pre, a, post, hsplit, -⟩ := hm.2.2
      obtain ⟨i, hi⟩ := exists_startsAt_of hw hm.1 ⟨(a, t'), by rw [hsplit]; simp, hm.2.1⟩
      exact optional_reach hw hstr hlet hi hprep hT hM hC hcl hz hac hU hsz hm (Nat.zero_le _) hlist

/-- The sample meets the hypotheses and has a match of each kind. -/
example : optionalPattern.Tidy ∧ optionalPattern.ClocksDeclared ∧ optionalPattern.NoSilent ∧ optionalPattern.Closed ∧
    optionalPattern.MapOk ∧ optionalPattern.LoopsOk ∧ optionalPattern.Shiftable ∧ optionalPattern.NoZeroDuration ∧
    2 * optionalPattern.clockSize ≤ 256 ∧ LogOk optionalLog ∧ LogStrict optionalLog ∧ LettersOk optionalLog ∧
    (∃ zs, monaaNotNecessaryDollar id 20 20 (vectorCont ℚ) optionalPattern optionalLog = .ok zs) ∧
    (optionalPattern.Match optionalLog 2 4 ∧ between optionalLog 2 4 ≠ []) ∧ optionalPattern.ReachMatch optionalLog 2 6 :=
  ⟨optional_tidy, optional_declared, optional_noSilent, optional_closed, optional_mapOk, optional_acyclic.loopsOk, .inl optional_upper,
    optional_noZero, by decide, optional_log.1, optional_log.2.1, optional_log.2.2, optional_run,
    ⟨optional_match, by decide +kernel⟩, optional_reachMatch⟩

end Verif.Props
