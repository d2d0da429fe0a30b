import Verif.Lemmas.Optional
import Verif.Examples.Pattern
import Verif.Examples.Lost

/-!
# Patterns and logs for `monaa` and `monaaNotNecessaryDollar`
-/

namespace Verif.Props

/-! ### a signal with a match -/

/-- `0 -a/x0→ 1 -b{x0>1}→ 2`, where 2 is accepting. -/
def signalPattern : TA Nat :=
  { states := [0, 1, 2], init := [0]
    st := fun s =>
      if s = 0 then ⟨false, false, [(97, [⟨some 1, [0], []⟩])]⟩
      else if s = 1 then ⟨false, false, [(98, [⟨some 2, [], [⟨0, .gt, 1⟩]⟩])]⟩
      else if s = 2 then ⟨true, false, []⟩
      else ⟨false, false, []⟩
    maxC := [1] }

/-- The signal is `a` until 3, `b` until 6, `a` until 7. -/
def signalLog : TWord ℚ := [(97, 1), (97, 3), (98, 6), (97, 7)]

theorem signalPattern_edges (s : Nat) (a : Alphabet) (e : Transition Nat) (he : e ∈ signalPattern.edges s a) :
    (s = 0 ∧ a = 97 ∧ e = ⟨some 1, [0], []⟩) ∨ (s = 1 ∧ a = 98 ∧ e = ⟨some 2, [], [⟨0, .gt, 1⟩]⟩) := by
  simp only [TA.edges, signalPattern] at he
  split_ifs at he with h0 h1 h2
  · simp only [Next.at'_cons, Next.at'_nil] at he
    split_ifs at he with ha
    · simp only [List.mem_singleton] at he; exact Or.inl ⟨h0, ha.symm, he⟩
    · simp at he
  · simp only [Next.at'_cons, Next.at'_nil] at he
    split_ifs at he with ha
    · simp only [List.mem_singleton] at he; exact Or.inr ⟨h1, ha.symm, he⟩
    · simp at he
  · simp [Next.at'_nil] at he
  · simp [Next.at'_nil] at he

theorem signalPattern_tidy : signalPattern.Tidy := by
  intro s hs
  simp only [signalPattern, List.mem_cons, List.not_mem_nil, or_false, not_or] at hs ⊢
  rw [if_neg hs.1, if_neg hs.2.1, if_neg hs.2.2]

theorem signalPattern_closed : signalPattern.Closed := by
  refine ⟨by decide, ?_⟩
  intro s _ a e he q hq
  rcases signalPattern_edges s a e he with ⟨_, _, rfl⟩ | ⟨_, _, rfl⟩ <;>
    simp only [Option.some.injEq] at hq <;> subst hq <;> decide

theorem signalPattern_declared : signalPattern.ClocksDeclared := by
  intro s a e he
  rcases signalPattern_edges s a e he with ⟨_, _, rfl⟩ | ⟨_, _, rfl⟩ <;> simp [signalPattern, TA.clockSize]

theorem signalPattern_mapOk : signalPattern.MapOk := by
  intro s
  simp only [signalPattern]
  split_ifs <;> simp

theorem signalPattern_noSilent : signalPattern.NoSilent := by unfold TA.NoSilent; decide

theorem signalPattern_acyclic : signalPattern.Acyclic := by
  refine ⟨fun s => 2 - s, ?_⟩
  intro s a e he q hq
  rcases signalPattern_edges s a e he with ⟨rfl, _, rfl⟩ | ⟨rfl, _, rfl⟩ <;>
    simp only [Option.some.injEq] at hq <;> subst hq <;> decide

theorem signalPattern_upper : signalPattern.UpperAfterReset := by
  refine ⟨fun _ _ => False, by simp, ?_⟩
  intro s a e he
  rcases signalPattern_edges s a e he with ⟨rfl, _, rfl⟩ | ⟨rfl, _, rfl⟩ <;> simp [Constraint.IsUpper]

theorem signalPattern_final : signalPattern.FinalLower := by
  intro s a e he q _ _
  rcases signalPattern_edges s a e he with ⟨rfl, _, rfl⟩ | ⟨rfl, _, rfl⟩ <;> simp [Constraint.IsUpper]

theorem signalPattern_noZero : signalPattern.NoZeroDuration := by unfold TA.NoZeroDuration; decide

theorem signalLog_ok : LogOk signalLog ∧ LogStrict signalLog ∧ LettersOk signalLog :=
  ⟨⟨by decide +kernel, by decide +kernel, by decide⟩, ⟨by decide +kernel, by decide +kernel⟩, by unfold LettersOk; decide⟩

/-- The begin lies in `[1, 3)`, the end in `(4, 6]`. -/
def signalMatchZone : Zone ℚ :=
  sixZone ⟨.fin 3 false, .fin (-1) true, .fin 6 true, .fin (-4) false, .fin 5 true, .fin (-1) false⟩

theorem signal_check : okOne signalMatchZone (monaa 20 20 20 (vectorCont ℚ) none signalPattern signalLog).1 = true := by
  decide +kernel

theorem signal_has : ∃ zs, (monaa 20 20 20 (vectorCont ℚ) none signalPattern signalLog).1 = .ok zs ∧
    ∃ z ∈ zs, z.Has 2 5 := by
  refine ⟨[signalMatchZone], okOne_eq signal_check, signalMatchZone, by simp, ?_⟩
  refine sixZone_Sat.2 ?_
  simp only [Six.Sat, sat_t, sat_f]
  norm_num

theorem signal_match : signalPattern.SignalMatch signalLog 2 5 := by
  have e : between signalLog 2 5 = [(97, 3)] := by decide +kernel
  refine ⟨by norm_num, by norm_num, 98, by decide +kernel, ?_⟩
  rw [e]
  refine ⟨0, by decide, 2, ?_, rfl⟩
  refine ⟨⟨some 1, [0], []⟩, by decide, 1, rfl, by simp [GuardHolds], ?_⟩
  refine ⟨⟨some 2, [], [⟨0, .gt, 1⟩]⟩, by decide, 2, rfl, by norm_num [GuardHolds, Constraint.Holds, resetAt] <;> decide, rfl⟩

/-! ### a signal whose match is lost -/

/-- `0 -b→ 1 -a/x0→ 2 -a{x0>1}→ 3` and `0 -a/x0→ 4 -a{x0≤1}→ 5`, where 5 is accepting. -/
def cutPattern : TA Nat :=
  { states := [0, 1, 2, 3, 4, 5], init := [0]
    st := fun s =>
      if s = 0 then ⟨false, false, [(98, [⟨some 1, [], []⟩]), (97, [⟨some 4, [0], []⟩])]⟩
      else if s = 1 then ⟨false, false, [(97, [⟨some 2, [0], []⟩])]⟩
      else if s = 2 then ⟨false, false, [(97, [⟨some 3, [], [⟨0, .gt, 1⟩]⟩])]⟩
      else if s = 3 then ⟨false, false, []⟩
      else if s = 4 then ⟨false, false, [(97, [⟨some 5, [], [⟨0, .le, 1⟩]⟩])]⟩
      else if s = 5 then ⟨true, false, []⟩
      else ⟨false, false, []⟩
    maxC := [1] }

def cutLog : TWord ℚ := [(98, 1), (97, 3), (97, 10), (99, 11), (99, 12)]

theorem cut_edges (s : Nat) (a : Alphabet) (e : Transition Nat) (he : e ∈ cutPattern.edges s a) :
    (s = 0 ∧ (e = ⟨some 1, [], []⟩ ∨ e = ⟨some 4, [0], []⟩)) ∨ (s = 1 ∧ e = ⟨some 2, [0], []⟩) ∨
      (s = 2 ∧ e = ⟨some 3, [], [⟨0, .gt, 1⟩]⟩) ∨
      (s = 4 ∧ e = ⟨some 5, [], [⟨0, .le, 1⟩]⟩) := by
  simp only [TA.edges, cutPattern] at he
  split_ifs at he <;> simp only [Next.at'_cons, Next.at'_nil] at he <;> (try split_ifs at he) <;> simp at he <;> simp [*]

theorem cut_noSilent : cutPattern.NoSilent := by unfold TA.NoSilent; decide

theorem cut_declared : cutPattern.ClocksDeclared := by
  intro s a e he
  rcases cut_edges s a e he with ⟨rfl, rfl | rfl⟩ | ⟨rfl, rfl⟩ | ⟨rfl, rfl⟩ | ⟨rfl, rfl⟩ <;>
    simp [cutPattern, TA.clockSize]

theorem cut_acyclic : cutPattern.Acyclic := by
  refine ⟨fun s => 5 - s, ?_⟩
  intro s a e he q hq
  rcases cut_edges s a e he with ⟨rfl, rfl | rfl⟩ | ⟨rfl, rfl⟩ | ⟨rfl, rfl⟩ | ⟨rfl, rfl⟩ <;>
    simp only [Option.some.injEq] at hq <;> subst hq <;> decide

theorem cut_upper : cutPattern.UpperAfterReset := by
  refine ⟨fun s x => s = 4 ∧ x = 0, ?_, ?_⟩
  · intro s hs x
    simp only [cutPattern, List.mem_singleton] at hs
    subst hs
    simp
  · intro s a e he
    rcases cut_edges s a e he with ⟨rfl, rfl | rfl⟩ | ⟨rfl, rfl⟩ | ⟨rfl, rfl⟩ | ⟨rfl, rfl⟩ <;>
      simp [Constraint.IsUpper]

theorem cut_log : LogOk cutLog ∧ LogStrict cutLog ∧ LettersOk cutLog :=
  ⟨⟨by decide +kernel, by decide +kernel, by decide⟩, ⟨by decide +kernel, by decide +kernel⟩, by unfold LettersOk; decide⟩

theorem cut_run : (monaa 40 40 40 (vectorCont ℚ) none cutPattern cutLog).1 = .ok [] :=
  okNil_eq (by decide +kernel)

theorem cut_match : cutPattern.SignalMatch cutLog 2 4 := by
  have e : between cutLog 2 4 = [(97, 3)] := by decide +kernel
  refine ⟨by norm_num, by norm_num, 97, by decide +kernel, ?_⟩
  rw [e]
  refine ⟨0, by decide, 5, ?_, rfl⟩
  refine ⟨⟨some 4, [0], []⟩, by decide, 4, rfl, by simp [GuardHolds], ?_⟩
  refine ⟨⟨some 5, [], [⟨0, .le, 1⟩]⟩, by decide, 5, rfl, by norm_num [GuardHolds, Constraint.Holds, resetAt] <;> decide, rfl⟩

/-! ### optional end marker -/

/-- `0 -a→ 1`, where 1 is accepting. -/
def onePattern : TA Nat :=
  { states := [0, 1], init := [0]
    st := fun s => if s = 0 then ⟨false, false, [(97, [⟨some 1, [], []⟩])]⟩ else if s = 1 then ⟨true, false, []⟩ else ⟨false, false, []⟩
    maxC := [] }

def oneLog : TWord ℚ := [(97, 5)]

theorem one_edges (s : Nat) (a : Alphabet) (e : Transition Nat) (he : e ∈ onePattern.edges s a) :
    s = 0 ∧ a = 97 ∧ e = ⟨some 1, [], []⟩ := by
  simp only [TA.edges, onePattern] at he
  split_ifs at he with h0 h1 <;> simp only [Next.at'_cons, Next.at'_nil] at he
  · split_ifs at he with ha
    · simp only [List.mem_singleton] at he; exact ⟨h0, ha.symm, he⟩
    · simp at he
  · simp at he
  · simp at he

theorem one_tidy : onePattern.Tidy := by
  intro s hs
  simp only [onePattern, List.mem_cons, List.not_mem_nil, or_false, not_or] at hs ⊢
  rw [if_neg hs.1, if_neg hs.2]

/-- The reported zone: the begin lies in `[0, 5)`, the end is at most 5. -/
def oneZone : Zone ℚ :=
  sixZone ⟨.fin 5 false, .fin 0 true, .fin 5 true, .fin 5 true, .fin 5 true, .fin 0 true⟩

theorem one_check : okOne oneZone (monaaNotNecessaryDollar id 20 20 (vectorCont ℚ) onePattern oneLog) = true := by
  decide +kernel

theorem one_log : LogOk oneLog := ⟨by decide +kernel, by decide +kernel, by decide⟩

theorem one_has : oneZone.Has 1 2 := by
  refine sixZone_Sat.2 ?_
  simp only [Six.Sat, sat_t, sat_f]
  norm_num

/-- `0 -a/x0→ 1 -b→ 2` and `1 -${x0≤1}→ 3`, where 2 and 3 are accepting. -/
def optionalPattern : TA Nat :=
  { states := [0, 1, 2, 3], init := [0]
    st := fun s =>
      if s = 0 then ⟨false, false, [(97, [⟨some 1, [0], []⟩])]⟩
      else if s = 1 then ⟨false, false, [(98, [⟨some 2, [], []⟩]), (36, [⟨some 3, [], [⟨0, .le, 1⟩]⟩])]⟩
      else if s = 2 then ⟨true, false, []⟩
      else if s = 3 then ⟨true, false, []⟩
      else ⟨false, false, []⟩
    maxC := [1] }

def optionalLog : TWord ℚ := [(97, 3), (98, 6)]

theorem optional_edges (s : Nat) (a : Alphabet) (e : Transition Nat) (he : e ∈ optionalPattern.edges s a) :
    (s = 0 ∧ e = ⟨some 1, [0], []⟩) ∨ (s = 1 ∧ (e = ⟨some 2, [], []⟩ ∨ e = ⟨some 3, [], [⟨0, .le, 1⟩]⟩)) := by
  simp only [TA.edges, optionalPattern] at he
  split_ifs at he <;> simp only [Next.at'_cons, Next.at'_nil] at he <;> (try split_ifs at he) <;> simp at he <;> simp [*]

theorem optional_tidy : optionalPattern.Tidy := by
  intro s hs
  simp only [optionalPattern, List.mem_cons, List.not_mem_nil, or_false, not_or] at hs ⊢
  rw [if_neg hs.1, if_neg hs.2.1, if_neg hs.2.2.1, if_neg hs.2.2.2]

theorem optional_closed : optionalPattern.Closed := by
  refine ⟨by decide, ?_⟩
  intro s _ a e he q hq
  rcases optional_edges s a e he with ⟨rfl, rfl⟩ | ⟨rfl, rfl | rfl⟩ <;>
    simp only [Option.some.injEq] at hq <;> subst hq <;> decide

theorem optional_declared : optionalPattern.ClocksDeclared := by
  intro s a e he
  rcases optional_edges s a e he with ⟨rfl, rfl⟩ | ⟨rfl, rfl | rfl⟩ <;> simp [optionalPattern, TA.clockSize]

theorem optional_mapOk : optionalPattern.MapOk := by
  intro s
  simp only [optionalPattern]
  split_ifs <;> simp

theorem optional_noSilent : optionalPattern.NoSilent := by unfold TA.NoSilent; decide

theorem optional_acyclic : optionalPattern.Acyclic := by
  refine ⟨fun s => 3 - s, ?_⟩
  intro s a e he q hq
  rcases optional_edges s a e he with ⟨rfl, rfl⟩ | ⟨rfl, rfl | rfl⟩ <;>
    simp only [Option.some.injEq] at hq <;> subst hq <;> decide

theorem optional_upper : optionalPattern.UpperAfterReset := by
  refine ⟨fun s x => s = 1 ∧ x = 0, ?_, ?_⟩
  · intro s hs x
    simp only [optionalPattern, List.mem_singleton] at hs
    subst hs
    simp
  · intro s a e he
    rcases optional_edges s a e he with ⟨rfl, rfl⟩ | ⟨rfl, rfl | rfl⟩ <;> simp [Constraint.IsUpper]

theorem optional_noZero : optionalPattern.NoZeroDuration := by unfold TA.NoZeroDuration; decide

theorem optional_log : LogOk optionalLog ∧ LogStrict optionalLog ∧ LettersOk optionalLog :=
  ⟨⟨by decide +kernel, by decide +kernel, by decide⟩, ⟨by decide +kernel, by decide +kernel⟩, by unfold LettersOk; decide⟩

theorem optional_check : okAll (fun _ => true)
    (monaaNotNecessaryDollar id 20 20 (vectorCont ℚ) optionalPattern optionalLog) = true := by decide +kernel

theorem optional_run : ∃ zs, monaaNotNecessaryDollar id 20 20 (vectorCont ℚ) optionalPattern optionalLog = .ok zs := by
  obtain ⟨zs, h, -⟩ := okAll_eq optional_check
  exact ⟨zs, h⟩

theorem optional_match : optionalPattern.Match optionalLog 2 4 := by
  have e : between optionalLog 2 4 = [(97, 3)] := by decide +kernel
  refine ⟨by norm_num, by norm_num, ?_⟩
  rw [e]
  refine ⟨0, by decide, 3, ?_, rfl⟩
  refine ⟨⟨some 1, [0], []⟩, by decide, 1, rfl, by simp [GuardHolds], ?_⟩
  refine ⟨⟨some 3, [], [⟨0, .le, 1⟩]⟩, by decide, 3, rfl, by norm_num [GuardHolds, Constraint.Holds, resetAt] <;> decide, rfl⟩

theorem optional_reachMatch : optionalPattern.ReachMatch optionalLog 2 6 := by
  refine ⟨by norm_num, by norm_num, [(97, 3)], 98, [], rfl, ?_⟩
  have e : ([(97, 3)] : TWord ℚ).filter (fun e => decide ((2 : ℚ) < e.2)) = [(97, 3)] := by decide +kernel
  rw [e]
  refine ⟨0, by decide, 2, ?_, rfl⟩
  refine ⟨⟨some 1, [0], []⟩, by decide, 1, rfl, by simp [GuardHolds], ?_⟩
  exact ⟨⟨some 2, [], []⟩, by decide, 2, rfl, by simp [GuardHolds], rfl⟩

end Verif.Props
