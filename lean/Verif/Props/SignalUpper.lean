import Verif.Lemmas.SignalUpper
import Verif.Props.SignalPos
import Verif.Props.Program

/-!
# C76 and C79 in signal mode for expressions without upper ends
-/

namespace Verif.Props

open TMem NTree

variable {K : Type} [Field K] [LinearOrder K] [IsStrictOrderedRing K] [FloorRing K]

/-- If no time restriction has an upper end, the automaton has no upper bounds, so that it meets the conditions of C51. -/
theorem noUpper_automaton {alloc : Nat → Nat} {fuel : Nat} {e : TRE K} (hu : e.NoUpper) {A : TA Nat} (h : e.signalTA alloc fuel = .ok A) :
    A.UpperAfterReset ∧ A.FinalLower :=
  ⟨⟨fun _ _ => False, fun _ _ _ h => h, fun s a t ht => ⟨fun g hg hgu => signalTA_lower hu h s a t ht g hg hgu, fun _ _ _ h => h.elim⟩⟩,
    fun s a t ht _ _ _ => signalTA_lower hu h s a t ht⟩

/-- **C76, in terms of the expression only** (`_partial`: as `expression_signal_complete_partial`, and no time restriction has an upper end).
If the part of the log from `t` to `t'` is a signal of the expression in which every letter takes some time, a reported zone contains
`(t, t')`. -/
theorem expression_signal_noUpper_partial (alloc : Nat → Nat) (hinj : Function.Injective alloc) (e : TRE K) (he : e.Clean) (hi : e.IntEnds)
    (hf : e.Flat) (hu : e.NoUpper) (nfuel : Nat) (A : TA Nat) (hA : e.signalTA alloc nfuel = .ok A)
    (w : TWord K) (hw : LogOk w) (hstr : LogStrict w) (hlet : LettersOk w) (hch : w.IsChain fun a b => a.1 ≠ b.1)
    (fuel steps efuel : Nat) (st : Option Nat) (hs : w.length < steps) (zs : List (Zone K))
    (h : (monaa fuel steps efuel (vectorCont K) st A w).1 = .ok zs ∨
      (monaa fuel steps efuel (lazyCont K) st A (Lazy.mk0 w)).1 = .ok zs)
    (t t' : K) (htt : t ≤ t') (h0 : 0 ≤ t) (hlast : ∃ b ∈ w, t' ≤ b.2) (hlt : t < t') (hm : e.PosSignals (segment w t t' htt)) :
    ∃ z ∈ zs, z.Has t t' :=
  expression_signal_complete_partial alloc hinj e he hi hf nfuel A hA (noUpper_automaton hu hA).1 (noUpper_automaton hu hA).2 w hw hstr hlet
    hch fuel steps efuel st hs zs h t t' htt h0 hlast hlt hm

theorem pos_noUpper : posPattern.NoUpper := ⟨⟨⟨trivial, trivial⟩, _, rfl⟩, trivial⟩

example : posPattern.Clean ∧ posPattern.IntEnds ∧ posPattern.Flat ∧ posPattern.NoUpper ∧ posPattern.signalTA id 30 = .ok posTA ∧
    LogOk posLog ∧ LogStrict posLog ∧ LettersOk posLog ∧ (posLog.IsChain fun a b => a.1 ≠ b.1) ∧
    (∃ zs, (monaa 20 20 20 (vectorCont ℚ) none posTA posLog).1 = .ok zs) ∧
    posPattern.PosSignals (segment posLog (1/2) 4 (by norm_num)) := by
  obtain ⟨h1, h2, h3, h4, -, -, h5⟩ := pos_hypotheses
  exact ⟨h1, h2, h3, pos_noUpper, h4, h5⟩

/-- **C79, completeness in signal mode, in terms of the expression only** (`_partial`: as `program_signal_complete_partial`, and no time
restriction has an upper end). -/
theorem program_signal_noUpper_partial (E : Env K) (hinj : Function.Injective E.alloc) (o : Options) (hn : o.Named) (hsig : o.signal = true)
    (hq : o.quiet = false) (s : String) (hs : (asked o).1 = .expression s) (e : TRE K) (hp : parsePattern s.toList = .ok e) (he : e.Clean)
    (hi : e.IntEnds) (hf : e.Flat) (hu : e.NoUpper)
    (w : TWord K) (hlog : E.LogIs (asked o).2 o.binary w) (hw : LogOk w) (hstr : LogStrict w) (hlet : LettersOk w)
    (hch : w.IsChain fun a b => a.1 ≠ b.1) (hst : w.length < E.steps) (hr : ∃ zs q, E.run o = .matched zs q)
    (t t' : K) (h0 : 0 ≤ t) (hlt : t < t') (hlast : ∃ b ∈ w, t' ≤ b.2) (hm : e.PosSignals (segment w t t' hlt.le)) :
    PrintedPair (E.run o).printed t t' :=
  program_signal_complete_partial E hinj o hn hsig hq s hs e hp he hi hf (fun _ hA => noUpper_automaton hu hA) w hlog hw hstr hlet hch hst hr
    t t' h0 hlt hlast hm

/-- The hypotheses of `program_signal_noUpper_partial` are met: a block is printed which the pair `(1/2, 4)` satisfies. -/
example : PrintedPair (posEnv.run posOptions).printed (1 / 2) 4 := by
  obtain ⟨c1, c2, c3, c4, -, -, c7, c8, c9, c10, ⟨zs, c11⟩, c12⟩ := pos_hypotheses
  have h1 : (asked posOptions).1 = .expression "((aa)%>=1)b" := by decide +kernel
  have h2 : (asked posOptions).2 = "stdin" := by decide +kernel
  have hp : parsePattern "((aa)%>=1)b".toList = .ok posPattern := rfl
  have hn : posOptions.Named := by simp [Options.Named, posOptions, toyOptions]
  have hlog : posEnv.LogIs (asked posOptions).2 posOptions.binary posLog := by
    rw [h2]
    exact pos_is_log
  refine program_signal_noUpper_partial posEnv Function.injective_id posOptions hn rfl rfl _ h1 posPattern hp c1 c2 c3 pos_noUpper posLog
    hlog c7 c8 c9 c10 (by decide) ⟨zs, false, ?_⟩ (1 / 2) 4 (by norm_num) (by norm_num) ⟨(98, 5), by decide, by norm_num⟩ c12
  · refine (main_matched_iff posEnv.world posOptions hn zs false).2
      ⟨⟨rfl, rfl, by simp [Options.Conflict, posOptions, toyOptions], Or.inl ⟨_, h1⟩⟩, rfl, posTA, ?_, Or.inl h2, ?_⟩
    · have hW : posEnv.world.parse "((aa)%>=1)b" = .ok (some posPattern) := by
        show parseOutcome "((aa)%>=1)b" = .ok (some posPattern)
        rw [parseOutcome, hp]
      have hT : posEnv.world.signalTA posPattern = .ok posTA := by
        show posPattern.signalTA id 30 = _
        exact c4
      have hP := PatternIs.expression h1 hW
      rw [if_pos (show posOptions.signal = true from rfl), hT] at hP
      exact hP
    · rw [h2]
      rw [if_pos (show posOptions.signal = true from rfl)]
      have hR := runSignal_eq pos_is_log (show posLog.length < posEnv.steps by decide) posTA
      rw [show (monaa posEnv.fuel posEnv.steps posEnv.efuel (vectorCont ℚ) none posTA posLog).1 = .ok zs from c11] at hR
      exact hR

end Verif.Props
