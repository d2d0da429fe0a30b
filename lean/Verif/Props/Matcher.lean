import Verif.Examples.Pattern
import Verif.Lemmas.LoopsOk
import Verif.Examples.Lost

/-!
# Properties of the matcher for `$`-terminated patterns (C01-C05)

`monaaDollar addr fuel steps C A w` is the model of the call: `addr` are the addresses of the states, `fuel` bounds the
construction of the tables, `steps` the loops of the search (more than the length of the log is always enough, see
`matcher_stops`), `C` is the implementation of the log container (`vectorCont`: the whole log in memory, `lazyCont`:
streaming).
-/

set_option linter.unusedSectionVars false

namespace Verif.Props

variable {S K : Type} [DecidableEq S] [Field K] [LinearOrder K] [IsStrictOrderedRing K]

/-! ## C01 -/

/-- Starting the clocks at `t` is the same as shifting the word. -/
theorem acceptsFrom_shift (A : TA S) (t : K) (u : TWord K) :
    A.AcceptsFrom t u ↔ A.Accepts (u.map fun e => (e.1, e.2 - t)) := by
  have key : ∀ (u : TWord K) (s s' : S) (r r' : Nat → K), (∀ x, r' x = r x - t) →
      (A.Reads s r u s' ↔ A.Reads s r' (u.map fun e => (e.1, e.2 - t)) s') := by
    intro u
    induction u with
    | nil => intro s s' r r' _; exact Iff.rfl
    | cons e u ih =>
      intro s s' r r' h
      have hv : (fun x => e.2 - r x) = fun x => e.2 - t - r' x := by
        funext x
        rw [h]
        ring
      constructor
      · rintro ⟨d, hd, q, hq, hg, hr⟩
        refine ⟨d, hd, q, hq, hv ▸ hg, (ih _ _ _ _ ?_).1 hr⟩
        intro x
        simp only [resetAt]
        split_ifs
        · rfl
        · exact h x
      · rintro ⟨d, hd, q, hq, hg, hr⟩
        refine ⟨d, hd, q, hq, hv.symm ▸ hg, (ih _ _ _ _ ?_).2 hr⟩
        intro x
        simp only [resetAt]
        split_ifs
        · rfl
        · exact h x
  unfold TA.Accepts TA.AcceptsFrom
  constructor
  · rintro ⟨s, hs, s', hr, hm⟩
    exact ⟨s, hs, s', (key _ _ _ _ _ (by simp)).1 hr, hm⟩
  · rintro ⟨s, hs, s', hr, hm⟩
    exact ⟨s, hs, s', (key _ _ _ _ _ (by simp)).2 hr, hm⟩

/-- **C01.** Whatever the addresses of the states, the contents of the skip tables and the container: if the call
returns, every pair `(t, t')` of a reported zone satisfies `0 ≤ t ≤ t'`, and the events strictly between `t` and `t'`,
moved by `-t` and closed by `$` at `t' - t`, are accepted by the pattern. -/
theorem matcher_sound (A : TA S) (hA : A.Tidy) (w : TWord K) (hw : LogOk w) (addr : S → Nat) (fuel steps : Nat)
    (hs : w.length < steps) (zs : List (Zone K))
    (h : monaaDollar addr fuel steps (vectorCont K) A w = .ok zs ∨
      monaaDollar addr fuel steps (lazyCont K) A (Lazy.mk0 w) = .ok zs) :
    ∀ z ∈ zs, ∀ t t', z.Has t t' → 0 ≤ t ∧ t ≤ t' ∧
      A.Accepts ((between w t t').map (fun e => (e.1, e.2 - t)) ++ [(dollar, t' - t)]) := by
  have h' : ∃ Ap T, prepare addr A = .ok Ap ∧ makeTables K fuel Ap = .ok T ∧
      (¬ A.NoSilent ∧ zs = [] ∨ A.NoSilent ∧ clocksOk A = true ∧ matchList A T w steps steps 0 = .ok zs) := by
    rcases h with h | h
    · exact monaaDollar_inv (vector_implements w) (k := 0) rfl hs h
    · exact monaaDollar_inv (lazy_implements w) (lazy_mk0 w) hs h
  intro z hz t t' hzt
  obtain ⟨Ap, T, -, -, h' | ⟨-, hc, hm⟩⟩ := h'
  · rw [h'.2] at hz
    cases hz
  · obtain ⟨i, hi, hzi⟩ := matchList_mem hm hz
    obtain ⟨-, h0, hle, hacc⟩ := run_sound (clocksOk_declared hA hc) hw hi hzi hzt
    refine ⟨h0, hle, ?_⟩
    have := (acceptsFrom_shift A t _).1 hacc
    simpa using this

/-- The sample pattern and log meet the hypotheses, and one zone is reported (`sample_run`); it contains the pair
`(2, 5)`. -/
example : samplePattern.Tidy ∧ LogOk sampleLog ∧ sampleLog.length < 20 ∧
    ∃ zs, monaaDollar id 20 20 (vectorCont ℚ) samplePattern sampleLog = .ok zs ∧ ∃ z ∈ zs, z.Has 2 5 :=
  ⟨samplePattern_tidy, sampleLog_ok, by decide, sample_has⟩

/-! ## C02 -/

/-- **C02 is false**, because of the removal of dead states: a match of an untimed pattern with a loop is lost. -/
theorem matcher_complete_wrong_loop :
    ¬ ∀ (A : TA Nat) (w : TWord ℚ) (fuel steps : Nat) (zs : List (Zone ℚ)), A.NoSilent → A.ClocksDeclared → LogOk w → LogStrict w →
      LettersOk w → monaaDollar id fuel steps (vectorCont ℚ) A w = .ok zs →
      ∀ t t', A.Match w t t' → between w t t' ≠ [] → ∃ z ∈ zs, z.Has t t' := by
  intro h
  obtain ⟨z, hz, -⟩ := h loopPattern loopLog 20 20 [] loop_noSilent loop_declared loop_log.1 loop_log.2.1 loop_log.2.2 loop_run 0 5
    loop_match (by decide +kernel)
  cases hz

/-- **C02 is false**, because of the KMP table: a match of an acyclic pattern with one clock is lost. -/
theorem matcher_complete_wrong_acyclic :
    ¬ ∀ (A : TA Nat) (w : TWord ℚ) (fuel steps : Nat) (zs : List (Zone ℚ)), A.NoSilent → A.ClocksDeclared → A.Acyclic → LogOk w →
      LogStrict w → LettersOk w → monaaDollar id fuel steps (vectorCont ℚ) A w = .ok zs →
      ∀ t t', A.Match w t t' → between w t t' ≠ [] → ∃ z ∈ zs, z.Has t t' := by
  intro h
  obtain ⟨zs, h1, h2⟩ := two_run
  obtain ⟨z, hz, hh⟩ := h twoPattern twoLog 20 20 zs two_noSilent two_declared two_acyclic two_log.1 two_log.2.1 two_log.2.2 h1 (5 / 2) 6
    two_match (by decide +kernel)
  exact h2 z hz hh

/-- **C02, what holds** for every pattern (`_partial`: the tables computed for the pattern have to be sound, the match has
to contain an event, instants are distinct and positive, letters have codes 1 to 126).  No match is lost. -/
theorem matcher_complete_tables_partial (A : TA S) (hC : A.ClocksDeclared) (hε : A.NoSilent) (w : TWord K) (hw : LogOk w)
    (hstr : LogStrict w) (hlet : LettersOk w) (addr : S → Nat) (fuel steps : Nat) (hs : w.length < steps)
    (zs : List (Zone K))
    (h : monaaDollar addr fuel steps (vectorCont K) A w = .ok zs ∨
      monaaDollar addr fuel steps (lazyCont K) A (Lazy.mk0 w) = .ok zs)
    (hT : ∀ Ap T, prepare addr A = .ok Ap → makeTables K fuel Ap = .ok T → SundaySound K A T ∧ KMPSound K A T)
    (t t' : K) (hm : A.Match w t t') (hne : between w t t' ≠ []) : ∃ z ∈ zs, z.Has t t' := by
  have h' : ∃ Ap T, prepare addr A = .ok Ap ∧ makeTables K fuel Ap = .ok T ∧
      (¬ A.NoSilent ∧ zs = [] ∨ A.NoSilent ∧ clocksOk A = true ∧ matchList A T w steps steps 0 = .ok zs) := by
    rcases h with h | h
    · exact monaaDollar_inv (vector_implements w) (k := 0) rfl hs h
    · exact monaaDollar_inv (lazy_implements w) (lazy_mk0 w) hs h
  obtain ⟨Ap, T, hp, hmk, h' | ⟨-, -, hlist⟩⟩ := h'
  · exact absurd hε h'.1
  · obtain ⟨hS, hK⟩ := hT Ap T hp hmk
    obtain ⟨i, hi⟩ := exists_startsAt hw hm.1 hne
    exact matchList_complete hw hstr hlet hS hi hne hm hC hK (Nat.zero_le _) hlist

/-- **C02, what holds** (`_partial`: for patterns whose cycles are loops at a state, or ordered, without guard and resets, whose upper bounds are on clocks reset since the start or which
satisfy `OneWindow`, without silent transitions and `zeroDuration` states, with at most 128 clocks; the match has to contain an event, instants are
distinct and positive, letters have codes 1 to 126).  No match is lost, for all addresses and both containers. -/
theorem matcher_complete_partial (A : TA S) (hC : A.ClocksDeclared) (hε : A.NoSilent) (hcl : A.Closed) (hM : A.MapOk)
    (hac : A.LoopsOk) (hU : A.Shiftable) (hz : A.NoZeroDuration) (hsz : 2 * A.clockSize ≤ 256)
    (w : TWord K) (hw : LogOk w)
    (hstr : LogStrict w) (hlet : LettersOk w) (addr : S → Nat) (fuel steps : Nat) (hs : w.length < steps)
    (zs : List (Zone K))
    (h : monaaDollar addr fuel steps (vectorCont K) A w = .ok zs ∨
      monaaDollar addr fuel steps (lazyCont K) A (Lazy.mk0 w) = .ok zs)
    (t t' : K) (hm : A.Match w t t') (hne : between w t t' ≠ []) : ∃ z ∈ zs, z.Has t t' := by
  refine matcher_complete_tables_partial A hC hε w hw hstr hlet addr fuel steps hs zs h ?_ t t' hm hne
  intro Ap T hp hmk
  obtain ⟨h1, beta, h2, h3⟩ := makeTables_spec hmk
  have hS : SundaySound K A T := sunday_sound hcl (prepare_spec hp) h1 (prepare_live (prepare_spec hp) hcl hM hac)
  exact ⟨hS, kmp_sound (prepare_spec hp) h2 h3 hS.length hM hC hcl hz hU hsz⟩

/-- The sample pattern and log meet the hypotheses; `(2, 5)` is a match. -/
example : samplePattern.ClocksDeclared ∧ samplePattern.NoSilent ∧ samplePattern.Closed ∧ samplePattern.MapOk ∧
    samplePattern.LoopsOk ∧ samplePattern.Shiftable ∧ samplePattern.NoZeroDuration ∧
    2 * samplePattern.clockSize ≤ 256 ∧ LogOk sampleLog ∧ LogStrict sampleLog ∧ LettersOk sampleLog ∧
    (∃ zs, monaaDollar id 20 20 (vectorCont ℚ) samplePattern sampleLog = .ok zs) ∧
    samplePattern.Match sampleLog 2 5 ∧ between sampleLog 2 5 ≠ [] :=
  ⟨samplePattern_declared, samplePattern_noSilent, samplePattern_closed, samplePattern_mapOk, samplePattern_acyclic.loopsOk,
    .inl samplePattern_upper, samplePattern_noZero, by decide, sampleLog_ok, sampleLog_strict, sampleLog_letters,
    (let ⟨zs, h, _⟩ := sample_has; ⟨zs, h⟩), sample_match, by decide +kernel⟩

/-! ## C03 -/

theorem zones_tight_of_run {L : Option Alphabet → Option Alphabet} {A : TA S} {w : TWord K} (hw : LogOk w) {i : Nat}
    (hi : i < w.length) {z : Zone K}
    (hzi : z ∈ (runList L A (prevOf w i) (w.drop i) (initConfs A (prevOf w i) w[i].2) []).1) :
    z.n = 3 ∧ (∃ t t', z.Has t t') ∧ z.Tight := by
  have hn : z.n = 3 := runList_n hzi
  have hcan : z.Canon := by
    refine runList_canon (τ₀ := w[i].2) (hw.sorted.sublist (List.drop_sublist i w)) ?_ ?_ ?_ z hzi
    · intro e he
      rw [List.mem_drop_iff_getElem] at he
      obtain ⟨j, hj, rfl⟩ := he
      rcases Nat.eq_zero_or_pos j with rfl | hj0
      · simp
      · exact List.pairwise_iff_getElem.1 hw.sorted i (i + j) (by omega) (by omega) (by omega)
    · intro c hc
      rw [(mem_initConfs hc).2.2.1]
      exact Bnd.le'_refl _
    · intro c hc
      rw [(mem_initConfs hc).2.2.2]
      unfold lowerEnd lowerBegin
      split <;> simp [Bnd.le', Bnd.zeroLe]
  refine ⟨hn, ?_, Zone.canon_tight hcan⟩
  obtain ⟨v, hv⟩ := Zone.canon_nonempty hcan
  refine ⟨v 0, v 1, ?_⟩
  intro a b ha hb
  have := hv a b ha hb
  rw [hn] at ha hb
  have ha' : a = 0 ∨ a = 1 ∨ a = 2 := by omega
  have hb' : b = 0 ∨ b = 1 ∨ b = 2 := by omega
  rcases ha' with rfl | rfl | rfl <;> rcases hb' with rfl | rfl | rfl <;> exact this

/-- **C03.** Every reported zone is over the two variables begin and end, contains some pair `(t, t')`, and none of its
bounds can be strengthened without losing a point. -/
theorem matcher_zones_tight (A : TA S) (w : TWord K) (hw : LogOk w) (addr : S → Nat) (fuel steps : Nat)
    (hs : w.length < steps) (zs : List (Zone K))
    (h : monaaDollar addr fuel steps (vectorCont K) A w = .ok zs ∨
      monaaDollar addr fuel steps (lazyCont K) A (Lazy.mk0 w) = .ok zs) :
    ∀ z ∈ zs, z.n = 3 ∧ (∃ t t', z.Has t t') ∧ z.Tight := by
  have h' : ∃ Ap T, prepare addr A = .ok Ap ∧ makeTables K fuel Ap = .ok T ∧
      (¬ A.NoSilent ∧ zs = [] ∨ A.NoSilent ∧ clocksOk A = true ∧ matchList A T w steps steps 0 = .ok zs) := by
    rcases h with h | h
    · exact monaaDollar_inv (vector_implements w) (k := 0) rfl hs h
    · exact monaaDollar_inv (lazy_implements w) (lazy_mk0 w) hs h
  intro z hz
  obtain ⟨Ap, T, -, -, h' | ⟨-, hc, hm⟩⟩ := h'
  · rw [h'.2] at hz
    cases hz
  · obtain ⟨i, hi, hzi⟩ := matchList_mem hm hz
    exact zones_tight_of_run hw hi hzi

/-- The hypotheses hold of the sample, which reports a zone. -/
example : LogOk sampleLog ∧ ∃ z zs, monaaDollar id 20 20 (vectorCont ℚ) samplePattern sampleLog = .ok zs ∧ z ∈ zs :=
  ⟨sampleLog_ok, let ⟨zs, h, z, hz, _⟩ := sample_has; ⟨z, zs, h, hz⟩⟩

/-! ## C04 -/

/-- **C04.** Whatever the tables contain, as long as every entry of `delta` is at least one and every state has an entry
in `beta`: the search stops without error within as many steps as there are events, plus one. -/
theorem matcher_loop_stops (A : TA S) (hA : A.Closed) (T : Tables S) (hm : 1 ≤ T.m) (hsize : T.delta.length = 127)
    (hd : ∀ d ∈ T.delta, 1 ≤ d) (hb : ∀ s ∈ A.states, ∃ b, T.beta s = some b) (w : TWord K) (hl : LettersOk w)
    (steps : Nat) (hs : w.length < steps) :
    (∃ zs, matchLoop (vectorCont K) (dollarHooks A) T steps steps 0 w = .ok zs) ∧
      ∃ zs, matchLoop (lazyCont K) (dollarHooks A) T steps steps 0 (Lazy.mk0 w) = .ok zs := by
  obtain ⟨zs, h⟩ := matchList_ok hA hsize hd hb hm hl hs (i := 0) (fuel := steps) (by omega)
  refine ⟨⟨zs, ?_⟩, zs, ?_⟩
  · rw [matchLoop_spec (vector_implements w) (k := 0) (f := 0) rfl hm (by omega) hs, matchListE_dollar, h]
  · rw [matchLoop_spec (lazy_implements w) (lazy_mk0 w) hm (by omega) hs, matchListE_dollar, h]

/-- **C04.** Once the tables are built, the call returns, for every log. -/
theorem matcher_stops (A : TA S) (hA : A.Closed) (hM : A.MapOk) (hC : A.ClocksDeclared) (addr : S → Nat)
    (Ap : TA S) (hp : prepare addr A = .ok Ap) (fuel : Nat) (T : Tables S) (hT : makeTables K fuel Ap = .ok T)
    (w : TWord K) (hl : LettersOk w) (steps : Nat) (hs : w.length < steps) :
    (∃ zs, monaaDollar addr fuel steps (vectorCont K) A w = .ok zs) ∧
      ∃ zs, monaaDollar addr fuel steps (lazyCont K) A (Lazy.mk0 w) = .ok zs := by
  obtain ⟨h1, beta, h2, h3⟩ := makeTables_spec hT
  obtain ⟨hm, hsize, hd⟩ := sundayTable_shape h1
  have hb : ∀ s ∈ A.states, ∃ b, T.beta s = some b := by
    intro s hs
    rw [h3]
    exact (kmpTable_spec h2).2 s (by rw [(prepare_spec hp).1]; exact hs)
  obtain ⟨⟨z1, e1⟩, z2, e2⟩ := matcher_loop_stops A hA T hm hsize (fun d h => (hd d h).1) hb w hl steps hs
  have hc := declared_clocksOk hM hC
  unfold monaaDollar
  rw [hp]
  simp only [bind, Except.bind]
  rw [hT]
  simp only [hc, if_true]
  split_ifs
  · exact ⟨⟨z1, e1⟩, z2, e2⟩
  · exact ⟨⟨[], rfl⟩, [], rfl⟩

/-- The tables of the sample pattern are built, and it meets the other hypotheses. -/
example : samplePattern.Closed ∧ samplePattern.MapOk ∧ samplePattern.ClocksDeclared ∧ LettersOk sampleLog ∧
    ∃ Ap T, prepare id samplePattern = .ok Ap ∧ makeTables ℚ 20 Ap = .ok T := by
  obtain ⟨zs, h, -⟩ := sample_has
  obtain ⟨Ap, T, hp, hT, -⟩ := monaaDollar_inv (vector_implements sampleLog) (k := 0) rfl (by decide) h
  exact ⟨samplePattern_closed, samplePattern_mapOk, samplePattern_declared, sampleLog_letters, Ap, T, hp, hT⟩

/-! ## C05 -/

/-- **C05.** Streaming gives exactly the same zones in the same order as reading the whole log, for every pattern and every
log; also the errors agree, so that the streaming container throws no `out_of_range` of its own. -/
theorem matcher_streaming (A : TA S) (w : TWord K) (addr : S → Nat) (fuel steps : Nat) (hs : w.length < steps) :
    monaaDollar addr fuel steps (lazyCont K) A (Lazy.mk0 w) = monaaDollar addr fuel steps (vectorCont K) A w := by
  unfold monaaDollar
  cases prepare addr A with
  | error x => rfl
  | ok Ap =>
    simp only [bind, Except.bind]
    cases hT : makeTables K fuel Ap with
    | error x => rfl
    | ok T =>
      have hm := (sundayTable_shape (makeTables_spec hT).1).1
      simp only
      rw [matchLoop_spec (vector_implements w) (k := 0) (f := 0) rfl hm (by omega) hs,
        matchLoop_spec (lazy_implements w) (lazy_mk0 w) hm (by omega) hs]

/-- The streaming run on the sample. -/
example : ∃ zs, monaaDollar id 20 20 (lazyCont ℚ) samplePattern (Lazy.mk0 sampleLog) = .ok zs ∧ ∃ z ∈ zs, z.Has 2 5 := by
  rw [matcher_streaming _ _ _ _ _ (by decide)]
  exact sample_has

end Verif.Props
