import Verif.Lemmas.Order
import Verif.Props.Silent
import Verif.Examples.Order

/-!
# The order of the results (C90)

`zs.Pairwise R` says that `R z z'` holds whenever `z` comes before `z'` in `zs`.
-/

set_option linter.unusedSectionVars false

namespace Verif.Props

open Bnd

variable {S K : Type} [DecidableEq S] [Field K] [LinearOrder K] [IsStrictOrderedRing K]

/-- **C90** for `monaaDollar`.  The results come in the order of the log: every event at or before a begin in a zone reported earlier is
at or before every begin in a zone reported later; and if the begins are between the same two events, every event before an
end in the earlier zone is before every such end in the later one. -/
theorem matcher_ordered (A : TA S) (w : TWord K) (hw : LogOk w) (addr : S → Nat) (fuel steps : Nat)
    (hs : w.length < steps) (zs : List (Zone K))
    (h : monaaDollar addr fuel steps (vectorCont K) A w = .ok zs ∨
      monaaDollar addr fuel steps (lazyCont K) A (Lazy.mk0 w) = .ok zs) :
    zs.Pairwise fun z z' => z.BeginsBefore w z' ∧ z.EndsBefore w z' := by
  have h' : ∃ Ap T, prepare addr A = .ok Ap ∧ makeTables K fuel Ap = .ok T ∧
      (¬ A.NoSilent ∧ zs = [] ∨ A.NoSilent ∧ clocksOk A = true ∧ matchList A T w steps steps 0 = .ok zs) := by
    rcases h with h | h
    · exact monaaDollar_inv (vector_implements w) (k := 0) rfl hs h
    · exact monaaDollar_inv (lazy_implements w) (lazy_mk0 w) hs h
  obtain ⟨Ap, T, -, -, h' | ⟨-, -, hm⟩⟩ := h'
  · rw [h'.2]
    exact List.Pairwise.nil
  · rw [← matchListE_dollar] at hm
    exact dollar_order hw hm

/-- Three zones are reported for the sample: two begin before the first event and end after it and after the second one, the
third begins after the second event. -/
example : LogOk orderLog ∧ orderLog.length < 20 ∧ ∃ z1 z2 z3,
    monaaDollar id 20 20 (vectorCont ℚ) orderPattern orderLog = .ok [z1, z2, z3] ∧ z1.Has 0 2 ∧ z2.Has 0 3 ∧
      z3.Has (5 / 2) 4 :=
  ⟨orderLog_ok, by decide, _, _, _, order_run, order_has⟩

/-- **C90** for `monaa`, for patterns with and without silent transitions. -/
theorem signal_ordered (A : TA S) (w : TWord K) (hw : LogOk w) (fuel steps efuel : Nat) (st : Option Nat)
    (hs : w.length < steps) (zs : List (Zone K))
    (h : (monaa fuel steps efuel (vectorCont K) st A w).1 = .ok zs ∨
      (monaa fuel steps efuel (lazyCont K) st A (Lazy.mk0 w)).1 = .ok zs) :
    zs.Pairwise fun z z' => z.BeginsBefore w z' ∧ z.EndsBefore w z' := by
  obtain ⟨T, -, ⟨-, -, hm⟩ | ⟨-, hm⟩⟩ := monaa_both hs h
  · exact Verif.signal_order hw hm
  · exact silent_order hw hm

/-- Two zones are reported for a pattern without silent transitions and for one with them. -/
example : LogOk orderSignal ∧ LogOk orderSilent ∧ orderSignal.length < 20 ∧ orderSilent.length < 20 ∧
    orderSignalPattern.NoSilent ∧
    (∃ z1 z2, (monaa 20 20 20 (vectorCont ℚ) none orderSignalPattern orderSignal).1 = .ok [z1, z2] ∧ z1.Has 0 3 ∧ z2.Has 4 7) ∧
    ¬ silentPattern.NoSilent ∧
    ∃ z1 z2, (monaa 20 20 20 (vectorCont ℚ) none silentPattern orderSilent).1 = .ok [z1, z2] ∧ z1.Has 2 4 ∧ z2.Has 6 8 :=
  ⟨orderSignal_ok, orderSilent_ok, by decide, by decide, (by unfold TA.NoSilent; decide), ⟨_, _, orderSignal_run, orderSignal_has⟩, silentPattern_silent, _, _, orderSilent_run,
    orderSilent_has⟩

/-- **C90** for `monaaNotNecessaryDollar`: the begins. -/
theorem optional_ordered (A : TA S) (w : TWord K) (hw : LogOk w) (addr : S → Nat) (fuel steps : Nat)
    (hs : w.length < steps) (zs : List (Zone K))
    (h : monaaNotNecessaryDollar addr fuel steps (vectorCont K) A w = .ok zs ∨
      monaaNotNecessaryDollar addr fuel steps (lazyCont K) A (Lazy.mk0 w) = .ok zs) :
    zs.Pairwise fun z z' => z.BeginsBefore w z' := by
  obtain ⟨Ap, T, -, -, h' | ⟨-, -, hm⟩⟩ := optional_both hs h
  · rw [h'.2]
    exact List.Pairwise.nil
  · exact Verif.optional_order hw hm

/-- Three zones are reported for the sample. -/
example : LogOk orderLog ∧ orderLog.length < 20 ∧ ∃ z1 z2 z3,
    monaaNotNecessaryDollar id 20 20 (vectorCont ℚ) orderPattern orderLog = .ok [z1, z2, z3] ∧ z1.Has 0 2 ∧ z2.Has 0 3 ∧
      z3.Has (5 / 2) 4 :=
  ⟨orderLog_ok, by decide, _, _, _, orderOptional_run, order_has⟩

end Verif.Props
