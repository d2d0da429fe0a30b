import Verif.Examples.Silent
import Verif.Lemmas.SilentTight
import Verif.Props.Signal

/-!
# Properties of `monaa` for patterns with silent transitions (C10, C59, C60)

`monaa fuel steps efuel C st A w` is the model of `monaa`: the zones reported, and the size of a static variable after the
call (`st` is its size before, `none` if there was no call yet).
-/

set_option linter.unusedSectionVars false

namespace Verif.Props

variable {S K : Type} [DecidableEq S] [Field K] [LinearOrder K] [IsStrictOrderedRing K]

/-! ## C10 -/

/-- The static variable after the calls `hist`, a list of patterns and logs. -/
def staticAfter (fuel steps efuel : Nat) (hist : List (TA S × TWord K)) : Option Nat :=
  hist.foldl (fun st p => (monaa fuel steps efuel (vectorCont K) st p.1 p.2).2) none

theorem staticAfter_one (fuel steps efuel : Nat) (A : TA S) (w : TWord K) :
    staticAfter fuel steps efuel [(A, w)] = (monaa fuel steps efuel (vectorCont K) none A w).2 := rfl

/-- **C10 is false.** After a pattern with a silent transition and no clocks has been matched, matching a pattern with a
silent transition and a clock is undefined behaviour (the vector of reset times is too short), while the same call returns in a
new process. -/
theorem calls_independent_wrong :
    ¬ ∀ (A : TA Nat) (w : TWord ℚ) (hist : List (TA Nat × TWord ℚ)) (fuel steps efuel : Nat), A.ClocksDeclared →
      LogOk w → w.length < steps →
      (monaa fuel steps efuel (vectorCont ℚ) (staticAfter fuel steps efuel hist) A w).1 =
        (monaa fuel steps efuel (vectorCont ℚ) none A w).1 := by
  intro h
  have h1 := h silentPattern silentLog [(clocklessPattern, silentLog)] 20 20 20 silentPattern_declared silentLog_ok.1
    (by decide)
  rw [(staticAfter_one 20 20 20 clocklessPattern silentLog).trans clockless_static] at h1
  exact silent_after_clockless h1

theorem static_ge {fuel steps efuel m : Nat} (hist : List (TA S × TWord K)) (st : Option Nat)
    (hst : ∀ n, st = some n → m ≤ n) (h : ∀ p ∈ hist, p.1.NoSilent ∨ m ≤ p.1.clockSize) :
    ∀ n, hist.foldl (fun st p => (monaa fuel steps efuel (vectorCont K) st p.1 p.2).2) st = some n → m ≤ n := by
  induction hist generalizing st with
  | nil => exact hst
  | cons p hist ih =>
    rw [List.foldl_cons]
    refine ih _ ?_ fun q hq => h q (by simp [hq])
    intro n hn
    unfold monaa at hn
    split at hn
    · exact hst n hn
    · split at hn
      · exact hst n hn
      · rename_i hns
        simp only at hn
        split at hn
        · simp only [Option.some.injEq] at hn
          cases st with
          | some k =>
            simp only [Option.getD_some] at hn
            exact hst n (by rw [hn])
          | none =>
            simp only [Option.getD_none] at hn
            rcases h p (by simp) with h | h
            · exact absurd (noSilent_iff.2 h) hns
            · omega
        · exact hst n hn

/-- **C10, what holds** (`_partial`: the pattern has no silent transitions, or none of the patterns with silent transitions
matched before has fewer clocks).  The result of a call, also if it fails, is the same as in a new process, for both
containers. -/
theorem calls_independent_partial (A : TA S) (hA : A.ClocksDeclared) (w : TWord K) (hist : List (TA S × TWord K))
    (fuel steps efuel : Nat) (h : A.NoSilent ∨ ∀ p ∈ hist, p.1.NoSilent ∨ A.clockSize ≤ p.1.clockSize) :
    (monaa fuel steps efuel (vectorCont K) (staticAfter fuel steps efuel hist) A w).1 =
        (monaa fuel steps efuel (vectorCont K) none A w).1 ∧
      (monaa fuel steps efuel (lazyCont K) (staticAfter fuel steps efuel hist) A (Lazy.mk0 w)).1 =
        (monaa fuel steps efuel (lazyCont K) none A (Lazy.mk0 w)).1 := by
  have h' : A.NoSilent ∨ ∀ n, staticAfter fuel steps efuel hist = some n → A.clockSize ≤ n := by
    rcases h with h | h
    · exact Or.inl h
    · exact Or.inr (static_ge hist none (by simp) h)
  exact ⟨monaa_static hA fuel steps efuel _ _ h' w, monaa_static hA fuel steps efuel _ _ h' _⟩

/-- A pattern with a clock, matched after another one with a clock. -/
example : silentPattern.ClocksDeclared ∧ ¬ silentPattern.NoSilent ∧ ¬ resetPattern.NoSilent ∧
    silentPattern.clockSize ≤ resetPattern.clockSize ∧ 0 < silentPattern.clockSize :=
  ⟨silentPattern_declared, silentPattern_silent, by unfold TA.NoSilent; decide, by decide, by decide⟩

/-! ## C59 -/

/-- **C59 is false.** The clocks reset by a silent transition are recorded as reset at instant 0.  The pattern
`0 -ε/x0→ 1 -a{x0≥3}→ 2` is reported to match the signal `a` (until 5) between 2 and 3, although the match lasts 1 only. -/
theorem silent_sound_wrong :
    ¬ ∀ (A : TA Nat) (w : TWord ℚ) (fuel steps efuel : Nat) (zs : List (Zone ℚ)), A.ClocksDeclared → A.Closed → LogOk w →
      (∀ e ∈ w, e.1 ≠ epsilon) → w.length < steps → (monaa fuel steps efuel (vectorCont ℚ) none A w).1 = .ok zs →
      ∀ z ∈ zs, ∀ t t', z.Has t t' → A.SilentMatch w t t' := by
  intro h
  exact reset_not_match (h resetPattern silentLog 20 20 20 _ resetPattern_declared resetPattern_closed silentLog_ok.1
    silentLog_ok.2 (by decide) reset_has.1 resetMatchZone (by simp) 2 3 reset_has.2)

/-- **C59, what holds** (`_partial`: silent transitions reset no clocks).  Whatever the skip tables, the static variable and
the container: if the call returns, every pair `(t, t')` of a reported zone is a match: started at `t`, the pattern can read
the segments which end strictly between `t` and `t'` and the segment cut off at `t'`, taking silent transitions in between,
and end in an accepting state. -/
theorem silent_sound_partial (A : TA S) (hA : A.SilentKeep) (hε : ¬ A.NoSilent) (w : TWord K) (hw : LogOk w)
    (hlab : ∀ e ∈ w, e.1 ≠ epsilon) (fuel steps efuel : Nat) (st : Option Nat) (hs : w.length < steps)
    (zs : List (Zone K))
    (h : (monaa fuel steps efuel (vectorCont K) st A w).1 = .ok zs ∨
      (monaa fuel steps efuel (lazyCont K) st A (Lazy.mk0 w)).1 = .ok zs) :
    ∀ z ∈ zs, ∀ t t', z.Has t t' → A.SilentMatch w t t' := by
  intro z hz t t' hzt
  obtain ⟨T, -, ⟨hn, -⟩ | ⟨-, hm⟩⟩ := monaa_both hs h
  · exact absurd hn hε
  · obtain ⟨i, hi, r, hr, hzi⟩ := matchListE_mem hm hz
    exact silent_sound_at hA hw hlab hi hr hzi hzt

/-- The sample meets the hypotheses, and a zone with the pair `(2, 4)` is reported. -/
example : silentPattern.SilentKeep ∧ ¬ silentPattern.NoSilent ∧ LogOk silentLog ∧ (∀ e ∈ silentLog, e.1 ≠ epsilon) ∧
    ∃ zs, (monaa 20 20 20 (vectorCont ℚ) none silentPattern silentLog).1 = .ok zs ∧ ∃ z ∈ zs, z.Has 2 4 :=
  ⟨silentPattern_keep, silentPattern_silent, silentLog_ok.1, silentLog_ok.2, silent_has⟩

/-! ## C60 -/

/-- **C60**.  Every zone reported by `monaa` for a pattern with silent transitions, which may reset clocks, is over the two
variables begin and end, contains some pair `(t, t')`, and none of its bounds can be strengthened without losing a point. -/
theorem silent_zones_tight (A : TA S) (hε : ¬ A.NoSilent) (w : TWord K) (hw : LogOk w)
    (fuel steps efuel : Nat) (st : Option Nat) (hs : w.length < steps)
    (zs : List (Zone K))
    (h : (monaa fuel steps efuel (vectorCont K) st A w).1 = .ok zs ∨
      (monaa fuel steps efuel (lazyCont K) st A (Lazy.mk0 w)).1 = .ok zs) :
    ∀ z ∈ zs, z.n = 3 ∧ (∃ t t', z.Has t t') ∧ z.Tight := by
  intro z hz
  obtain ⟨T, -, ⟨hn, -⟩ | ⟨-, hm⟩⟩ := monaa_both hs h
  · exact absurd hn hε
  · obtain ⟨i, hi, r, hr, hzi⟩ := matchListE_mem hm hz
    obtain ⟨hcan, hn⟩ := silent_tight_at hw hi hr hzi
    refine ⟨hn, ?_, Zone.canon_tight hcan⟩
    obtain ⟨v, hv⟩ := Zone.canon_nonempty hcan
    refine ⟨v 0, v 1, ?_⟩
    intro a b ha hb
    have := hv a b ha hb
    rw [hn] at ha hb
    have ha' : a = 0 ∨ a = 1 ∨ a = 2 := by omega
    have hb' : b = 0 ∨ b = 1 ∨ b = 2 := by omega
    rcases ha' with rfl | rfl | rfl <;> rcases hb' with rfl | rfl | rfl <;> exact this

/-- The hypotheses hold of two samples, which report a zone each; in the second one a silent transition resets a clock. -/
example : ¬ silentPattern.NoSilent ∧ ¬ resetPattern.NoSilent ∧ LogOk silentLog ∧
    (∃ z zs, (monaa 20 20 20 (vectorCont ℚ) none silentPattern silentLog).1 = .ok zs ∧ z ∈ zs) ∧
    ∃ z zs, (monaa 20 20 20 (vectorCont ℚ) none resetPattern silentLog).1 = .ok zs ∧ z ∈ zs :=
  ⟨silentPattern_silent, by unfold TA.NoSilent; decide, silentLog_ok.1,
    let ⟨zs, h, z, hz, _⟩ := silent_has; ⟨z, zs, h, hz⟩, ⟨_, _, reset_has.1, List.mem_singleton.2 rfl⟩⟩

end Verif.Props
