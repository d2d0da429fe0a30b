import Verif.Props.Matcher
import Verif.Props.Signal
import Verif.Examples.Order

/-!
# Only the events between the ends matter (C91)
-/

set_option linter.unusedSectionVars false

namespace Verif.Props

open Bnd

variable {S K : Type} [DecidableEq S] [Field K] [LinearOrder K] [IsStrictOrderedRing K]

theorem between_append {w w' : TWord K} {t t' : K} (h : ∀ e ∈ w', t' ≤ e.2) : between (w ++ w') t t' = between w t t' := by
  unfold between
  rw [List.filter_append]
  have : w'.filter (fun e => decide (t < e.2 ∧ e.2 < t')) = [] := by
    rw [List.filter_eq_nil_iff]
    intro e he
    have := h e he
    simp only [decide_eq_true_eq, not_and, not_lt]
    exact fun _ => this
  rw [this, List.append_nil]

theorem two_tidy : twoPattern.Tidy := by
  intro s hs
  simp only [twoPattern, List.mem_cons, List.not_mem_nil, or_false, not_or] at hs ⊢
  rw [if_neg hs.1, if_neg hs.2.1, if_neg hs.2.2.1, if_neg hs.2.2.2]

/-- The first three events of the log of the refutation of C02. -/
def twoPrefix : TWord ℚ := [(97, 1), (97, 3), (97, 5)]

def twoZone1 : Zone ℚ :=
  sixZone ⟨.fin 1 false, .fin 0 false, .fin 5 true, .fin (-3) false, .fin 5 false, .fin (-2) false⟩

def twoZone2 : Zone ℚ :=
  sixZone ⟨.fin 3 false, .fin (-2) false, .inf true, .fin (-5) false, .inf false, .fin (-2) false⟩

theorem twoPrefix_run : monaaDollar id 20 20 (vectorCont ℚ) twoPattern twoPrefix = .ok [twoZone1, twoZone2] :=
  okZones_eq (by decide +kernel)

theorem twoZone2_has : twoZone2.Has (5 / 2) 6 := by
  refine sixZone_Sat.2 ?_
  simp only [Six.Sat, Bnd.sat]
  norm_num

/-- The sample log without its first and its last event and 1 later. -/
def laterLog : TWord ℚ := [(97, 4), (98, 11 / 2), (97, 6)]

theorem laterLog_ok : LogOk laterLog ∧ LogStrict laterLog ∧ LettersOk laterLog :=
  ⟨⟨by decide +kernel, by decide +kernel, by decide⟩, ⟨by decide +kernel, by decide +kernel⟩, by unfold LettersOk; decide⟩

/-- The sample signal without its last segment and 1 later. -/
def laterSignal : TWord ℚ := [(97, 2), (97, 4), (98, 7)]

theorem laterSignal_ok : LogOk laterSignal ∧ LogStrict laterSignal ∧ LettersOk laterSignal :=
  ⟨⟨by decide +kernel, by decide +kernel, by decide⟩, ⟨by decide +kernel, by decide +kernel⟩, by unfold LettersOk; decide⟩

/-- **C91 is false**: for a log of `a` at 1, 3 and 5 the pair `(5/2, 6)` is reported, and no longer if there is one more `a` at
7. -/
theorem matcher_prefix_wrong :
    ¬ ∀ (A : TA Nat) (w w' : TWord ℚ) (fuel steps : Nat) (zs zs' : List (Zone ℚ)), (w ++ w').length < steps → A.Tidy → A.NoSilent → A.ClocksDeclared →
      A.Acyclic → LogOk (w ++ w') → LogStrict (w ++ w') → LettersOk (w ++ w') →
      monaaDollar id fuel steps (vectorCont ℚ) A w = .ok zs → monaaDollar id fuel steps (vectorCont ℚ) A (w ++ w') = .ok zs' →
      ∀ t t', between w t t' ≠ [] → (∀ e ∈ w', t' ≤ e.2) → ((∃ z ∈ zs, z.Has t t') ↔ ∃ z ∈ zs', z.Has t t') := by
  intro h
  obtain ⟨zs, h1, h2⟩ := two_run
  obtain ⟨z, hz, hh⟩ := (h twoPattern twoPrefix [(97, 7)] 20 20 _ zs (by decide) two_tidy two_noSilent two_declared two_acyclic two_log.1
    two_log.2.1 two_log.2.2 twoPrefix_run h1 (5 / 2) 6 (by decide +kernel) (by decide +kernel)).1
      ⟨twoZone2, by simp, twoZone2_has⟩
  exact h2 z hz hh

/-- What is reported for one log is reported for the other. -/
theorem matcher_local_half (A : TA S) (hA : A.Tidy) (hC : A.ClocksDeclared) (hε : A.NoSilent) (hcl : A.Closed)
    (hM : A.MapOk) (hac : A.LoopsOk) (hU : A.Shiftable) (hz : A.NoZeroDuration) (hsz : 2 * A.clockSize ≤ 256)
    (w w' : TWord K) (hw : LogOk w) (hw' : LogOk w') (hstr : LogStrict w') (hlet : LettersOk w')
    (addr addr' : S → Nat) (fuel fuel' steps steps' : Nat) (hs : w.length < steps) (hs' : w'.length < steps')
    (zs zs' : List (Zone K))
    (h : monaaDollar addr fuel steps (vectorCont K) A w = .ok zs ∨
      monaaDollar addr fuel steps (lazyCont K) A (Lazy.mk0 w) = .ok zs)
    (h' : monaaDollar addr' fuel' steps' (vectorCont K) A w' = .ok zs' ∨
      monaaDollar addr' fuel' steps' (lazyCont K) A (Lazy.mk0 w') = .ok zs')
    (t t' d : K) (hd : 0 ≤ t + d) (hne : between w t t' ≠ [])
    (hb : between w' (t + d) (t' + d) = (between w t t').map fun e => (e.1, e.2 + d)) (hr : ∃ z ∈ zs, z.Has t t') :
    ∃ z ∈ zs', z.Has (t + d) (t' + d) := by
  obtain ⟨z, hzs, hzt⟩ := hr
  obtain ⟨h0, hle, hacc⟩ := matcher_sound A hA w hw addr fuel steps hs zs h z hzs t t' hzt
  refine matcher_complete_partial A hC hε hcl hM hac hU hz hsz w' hw' hstr hlet addr' fuel' steps' hs' zs' h' _ _
    ⟨hd, by linarith, ?_⟩ (by rw [hb]; simpa using hne)
  rw [hb]
  refine (acceptsFrom_shift A _ _).2 ?_
  rw [List.map_append, List.map_map]
  simpa [Function.comp_def] using hacc

/-- **C91, what holds** (`_partial`: under the conditions of `matcher_complete_partial`, for pairs with an event between them).
If the events between `t` and `t'` in one log are those between `t + d` and `t' + d` in another, `d` later, then `(t, t')` is
reported for the first log if and only if `(t + d, t' + d)` is for the second, for all addresses and both containers. -/
theorem matcher_local_partial (A : TA S) (hA : A.Tidy) (hC : A.ClocksDeclared) (hε : A.NoSilent) (hcl : A.Closed)
    (hM : A.MapOk) (hac : A.LoopsOk) (hU : A.Shiftable) (hz : A.NoZeroDuration) (hsz : 2 * A.clockSize ≤ 256)
    (w w' : TWord K) (hw : LogOk w) (hstr : LogStrict w) (hlet : LettersOk w) (hw' : LogOk w') (hstr' : LogStrict w')
    (hlet' : LettersOk w') (addr addr' : S → Nat) (fuel fuel' steps steps' : Nat) (hs : w.length < steps)
    (hs' : w'.length < steps') (zs zs' : List (Zone K))
    (h : monaaDollar addr fuel steps (vectorCont K) A w = .ok zs ∨
      monaaDollar addr fuel steps (lazyCont K) A (Lazy.mk0 w) = .ok zs)
    (h' : monaaDollar addr' fuel' steps' (vectorCont K) A w' = .ok zs' ∨
      monaaDollar addr' fuel' steps' (lazyCont K) A (Lazy.mk0 w') = .ok zs')
    (t t' d : K) (ht : 0 ≤ t) (hd : 0 ≤ t + d) (hne : between w t t' ≠ [])
    (hb : between w' (t + d) (t' + d) = (between w t t').map fun e => (e.1, e.2 + d)) :
    (∃ z ∈ zs, z.Has t t') ↔ ∃ z ∈ zs', z.Has (t + d) (t' + d) := by
  constructor
  · exact matcher_local_half A hA hC hε hcl hM hac hU hz hsz w w' hw hw' hstr' hlet' addr addr' fuel fuel' steps steps' hs hs'
      zs zs' h h' t t' d hd hne hb
  · intro hr
    have := matcher_local_half A hA hC hε hcl hM hac hU hz hsz w' w hw' hw hstr hlet addr' addr fuel' fuel steps' steps hs' hs
      zs' zs h' h (t + d) (t' + d) (-d) (by simpa using ht) (by rw [hb]; simpa using hne) (by
        rw [hb, List.map_map]
        simp [Function.comp_def]) hr
    simpa using this

/-- In particular later events do not matter. -/
theorem matcher_prefix_partial (A : TA S) (hA : A.Tidy) (hC : A.ClocksDeclared) (hε : A.NoSilent) (hcl : A.Closed)
    (hM : A.MapOk) (hac : A.LoopsOk) (hU : A.Shiftable) (hz : A.NoZeroDuration) (hsz : 2 * A.clockSize ≤ 256)
    (w w' : TWord K) (hw : LogOk (w ++ w')) (hstr : LogStrict (w ++ w')) (hlet : LettersOk (w ++ w'))
    (addr addr' : S → Nat) (fuel fuel' steps steps' : Nat) (hs : w.length < steps) (hs' : (w ++ w').length < steps')
    (zs zs' : List (Zone K))
    (h : monaaDollar addr fuel steps (vectorCont K) A w = .ok zs ∨
      monaaDollar addr fuel steps (lazyCont K) A (Lazy.mk0 w) = .ok zs)
    (h' : monaaDollar addr' fuel' steps' (vectorCont K) A (w ++ w') = .ok zs' ∨
      monaaDollar addr' fuel' steps' (lazyCont K) A (Lazy.mk0 (w ++ w')) = .ok zs')
    (t t' : K) (ht : 0 ≤ t) (hne : between w t t' ≠ []) (hlater : ∀ e ∈ w', t' ≤ e.2) :
    (∃ z ∈ zs, z.Has t t') ↔ ∃ z ∈ zs', z.Has t t' := by
  have hsub := List.sublist_append_left w w'
  have := matcher_local_partial A hA hC hε hcl hM hac hU hz hsz w (w ++ w')
    ⟨fun e he => hw.nonneg e (by simp [he]), hw.sorted.sublist hsub, fun e he => hw.noMarker e (by simp [he])⟩
    ⟨fun e he => hstr.1 e (by simp [he]), hstr.2.sublist hsub⟩ (fun e he => hlet e (by simp [he])) hw hstr hlet
    addr addr' fuel fuel' steps steps' hs hs' zs zs' h h' t t' 0 ht (by simpa using ht) hne (by
      rw [add_zero, add_zero, between_append hlater]
      simp)
  simpa using this

/-- The sample pattern and log, and the log without its first and its last event and 1 later; `(2, 5)` is reported for the first
log. -/
example : samplePattern.Tidy ∧ samplePattern.ClocksDeclared ∧ samplePattern.NoSilent ∧ samplePattern.Closed ∧
    samplePattern.MapOk ∧ samplePattern.LoopsOk ∧ samplePattern.Shiftable ∧ samplePattern.NoZeroDuration ∧
    2 * samplePattern.clockSize ≤ 256 ∧ LogOk sampleLog ∧ LogStrict sampleLog ∧ LettersOk sampleLog ∧
    LogOk laterLog ∧ LogStrict laterLog ∧ LettersOk laterLog ∧
    (∃ zs, monaaDollar id 20 20 (vectorCont ℚ) samplePattern sampleLog = .ok zs ∧ ∃ z ∈ zs, z.Has 2 5) ∧
    (∃ zs, monaaDollar id 20 20 (vectorCont ℚ) samplePattern laterLog = .ok zs) ∧
    between sampleLog 2 5 ≠ [] ∧ between laterLog (2 + 1) (5 + 1) = (between sampleLog 2 5).map fun e => (e.1, e.2 + 1) := by
  refine ⟨samplePattern_tidy, samplePattern_declared, samplePattern_noSilent, samplePattern_closed, samplePattern_mapOk,
    samplePattern_acyclic.loopsOk, .inl samplePattern_upper, samplePattern_noZero, by decide, sampleLog_ok, sampleLog_strict,
    sampleLog_letters, laterLog_ok.1, laterLog_ok.2.1, laterLog_ok.2.2, sample_has, ?_, by decide +kernel, by decide +kernel⟩
  obtain ⟨zs, h, -⟩ := sample_has
  obtain ⟨Ap, T, hp, hT, -⟩ := monaaDollar_inv (vector_implements sampleLog) (k := 0) rfl (by decide) h
  exact (matcher_stops samplePattern samplePattern_closed samplePattern_mapOk samplePattern_declared id Ap hp 20 T hT _
    laterLog_ok.2.2 20 (by decide)).1

/-- The sample log can be split before its last event. -/
example : sampleLog = [(97, 1), (97, 3), (98, 9 / 2), (97, 5)] ++ [(98, 8)] ∧ (0 : ℚ) ≤ 2 ∧
    between [(97, 1), (97, 3), (98, (9 / 2 : ℚ)), (97, 5)] 2 5 ≠ [] ∧ ∀ e ∈ [((98 : Alphabet), (8 : ℚ))], (5 : ℚ) ≤ e.2 :=
  ⟨rfl, by norm_num, by decide +kernel, by decide +kernel⟩

/-! ### signals -/

theorem signal_local_half (A : TA S) (hA : A.Tidy) (hC : A.ClocksDeclared) (hε : A.NoSilent) (hcl : A.Closed)
    (hM : A.MapOk) (hac : A.LoopsOk) (hU : A.UpperAfterReset) (hF : A.FinalLower) (hz : A.NoZeroDuration)
    (hsz : 2 * A.clockSize ≤ 256) (w w' : TWord K) (hw : LogOk w) (hw' : LogOk w') (hstr : LogStrict w')
    (hlet : LettersOk w') (fuel fuel' steps steps' efuel efuel' : Nat) (st st' : Option Nat) (hs : w.length < steps)
    (hs' : w'.length < steps') (zs zs' : List (Zone K))
    (h : (monaa fuel steps efuel (vectorCont K) st A w).1 = .ok zs ∨
      (monaa fuel steps efuel (lazyCont K) st A (Lazy.mk0 w)).1 = .ok zs)
    (h' : (monaa fuel' steps' efuel' (vectorCont K) st' A w').1 = .ok zs' ∨
      (monaa fuel' steps' efuel' (lazyCont K) st' A (Lazy.mk0 w')).1 = .ok zs')
    (t t' d : K) (hd : 0 ≤ t + d) (htt : t < t')
    (hb : between w' (t + d) (t' + d) = (between w t t').map fun e => (e.1, e.2 + d))
    (hl : letterAt w' (t' + d) = letterAt w t') (hr : ∃ z ∈ zs, z.Has t t') :
    ∃ z ∈ zs', z.Has (t + d) (t' + d) := by
  obtain ⟨z, hzs, hzt⟩ := hr
  obtain ⟨h0, hle, a, ha, hacc⟩ := signal_sound A hA hε w hw fuel steps efuel st hs zs h z hzs t t' hzt
  refine signal_complete_partial A hC hε hcl hM hac hU hF hz hsz w' hw' hstr hlet fuel' steps' efuel' st' hs' zs' h' _ _
    (by linarith) ⟨hd, by linarith, a, by rw [hl]; exact ha, ?_⟩
  rw [hb]
  refine (acceptsFrom_shift A _ _).2 ?_
  rw [List.map_append, List.map_map]
  simpa [Function.comp_def] using hacc

/-- **C91, what holds** for `monaa` (`_partial`: under the conditions of `signal_complete_partial`, for `t < t'`).  If the
segments which end between `t` and `t'` and the value at `t'` agree with those of another signal, `d` later, then `(t, t')` is
reported for the first signal if and only if `(t + d, t' + d)` is for the second. -/
theorem signal_local_partial (A : TA S) (hA : A.Tidy) (hC : A.ClocksDeclared) (hε : A.NoSilent) (hcl : A.Closed)
    (hM : A.MapOk) (hac : A.LoopsOk) (hU : A.UpperAfterReset) (hF : A.FinalLower) (hz : A.NoZeroDuration)
    (hsz : 2 * A.clockSize ≤ 256) (w w' : TWord K) (hw : LogOk w) (hstr : LogStrict w) (hlet : LettersOk w) (hw' : LogOk w')
    (hstr' : LogStrict w') (hlet' : LettersOk w') (fuel fuel' steps steps' efuel efuel' : Nat) (st st' : Option Nat)
    (hs : w.length < steps) (hs' : w'.length < steps') (zs zs' : List (Zone K))
    (h : (monaa fuel steps efuel (vectorCont K) st A w).1 = .ok zs ∨
      (monaa fuel steps efuel (lazyCont K) st A (Lazy.mk0 w)).1 = .ok zs)
    (h' : (monaa fuel' steps' efuel' (vectorCont K) st' A w').1 = .ok zs' ∨
      (monaa fuel' steps' efuel' (lazyCont K) st' A (Lazy.mk0 w')).1 = .ok zs')
    (t t' d : K) (ht : 0 ≤ t) (hd : 0 ≤ t + d) (htt : t < t')
    (hb : between w' (t + d) (t' + d) = (between w t t').map fun e => (e.1, e.2 + d))
    (hl : letterAt w' (t' + d) = letterAt w t') :
    (∃ z ∈ zs, z.Has t t') ↔ ∃ z ∈ zs', z.Has (t + d) (t' + d) := by
  constructor
  · exact signal_local_half A hA hC hε hcl hM hac hU hF hz hsz w w' hw hw' hstr' hlet' fuel fuel' steps steps' efuel efuel'
      st st' hs hs' zs zs' h h' t t' d hd htt hb hl
  · intro hr
    have := signal_local_half A hA hC hε hcl hM hac hU hF hz hsz w' w hw' hw hstr hlet fuel' fuel steps' steps efuel' efuel
      st' st hs' hs zs' zs h' h (t + d) (t' + d) (-d) (by simpa using ht) (by linarith) (by
        rw [hb, List.map_map]
        simp [Function.comp_def]) (by simpa using hl.symm) hr
    simpa using this

/-- The sample and the sample without its last event, 1 later; `(2, 5)` is reported for the first signal. -/
example : signalPattern.Tidy ∧ signalPattern.ClocksDeclared ∧ signalPattern.NoSilent ∧ signalPattern.Closed ∧
    signalPattern.MapOk ∧ signalPattern.LoopsOk ∧ signalPattern.UpperAfterReset ∧ signalPattern.FinalLower ∧
    signalPattern.NoZeroDuration ∧ LogOk signalLog ∧ LogStrict signalLog ∧ LettersOk signalLog ∧
    LogOk laterSignal ∧ LogStrict laterSignal ∧ LettersOk laterSignal ∧
    (∃ zs, (monaa 20 20 20 (vectorCont ℚ) none signalPattern signalLog).1 = .ok zs ∧ ∃ z ∈ zs, z.Has 2 5) ∧
    (∃ zs, (monaa 20 20 20 (vectorCont ℚ) none signalPattern laterSignal).1 = .ok zs) ∧
    between laterSignal (2 + 1) (5 + 1) = (between signalLog 2 5).map (fun e => (e.1, e.2 + 1)) ∧
    letterAt laterSignal (5 + 1) = letterAt signalLog 5 := by
  refine ⟨signalPattern_tidy, signalPattern_declared, signalPattern_noSilent, signalPattern_closed, signalPattern_mapOk,
    signalPattern_acyclic.loopsOk, signalPattern_upper, signalPattern_final, signalPattern_noZero, signalLog_ok.1,
    signalLog_ok.2.1, signalLog_ok.2.2, laterSignal_ok.1, laterSignal_ok.2.1, laterSignal_ok.2.2, signal_has, ?_,
    by decide +kernel, by decide +kernel⟩
  obtain ⟨zs, h, -⟩ := signal_has
  obtain ⟨T, hT, -⟩ := monaa_both (by decide) (Or.inl h)
  obtain ⟨zs', h', -⟩ := signal_stops signalPattern signalPattern_closed signalPattern_mapOk signalPattern_declared
    signalPattern_noSilent 20 T hT laterSignal laterSignal_ok.2.2 20 20 none (by decide)
  exact ⟨zs', by rw [h']⟩

end Verif.Props
