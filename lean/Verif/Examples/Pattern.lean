import Verif.Lemmas.Monaa
import Mathlib.Data.Rat.Floor
import Mathlib.Tactic.NormNum

/-!
# A pattern and a log used as examples
-/

namespace Verif.Props

/-- `0 -a{x0≥0}/x0→ 1 -b{x0>1, x0≤2}→ 2 -$→ 3`. -/
def samplePattern : TA Nat :=
  { states := [0, 1, 2, 3], init := [0]
    st := fun s =>
      if s = 0 then ⟨false, false, [(97, [⟨some 1, [0], [⟨0, .ge, 0⟩]⟩])]⟩
      else if s = 1 then ⟨false, false, [(98, [⟨some 2, [], [⟨0, .gt, 1⟩, ⟨0, .le, 2⟩]⟩])]⟩
      else if s = 2 then ⟨false, false, [(36, [⟨some 3, [], []⟩])]⟩
      else if s = 3 then ⟨true, false, []⟩
      else ⟨false, false, []⟩
    maxC := [2] }

/-- A log with one match of the sample pattern (the second `a` followed by the `b`) and some near misses. -/
def sampleLog : TWord ℚ := [(97, 1), (97, 3), (98, 9 / 2), (97, 5), (98, 8)]

theorem samplePattern_edges (s : Nat) (a : Alphabet) (e : Transition Nat) (he : e ∈ samplePattern.edges s a) :
    (s = 0 ∧ a = 97 ∧ e = ⟨some 1, [0], [⟨0, .ge, 0⟩]⟩) ∨
    (s = 1 ∧ a = 98 ∧ e = ⟨some 2, [], [⟨0, .gt, 1⟩, ⟨0, .le, 2⟩]⟩) ∨
    (s = 2 ∧ a = 36 ∧ e = ⟨some 3, [], []⟩) := by
  simp only [TA.edges, samplePattern] at he
  split_ifs at he with h0 h1 h2 h3
  · simp only [Next.at'_cons, Next.at'_nil] at he
    split_ifs at he with ha
    · simp only [List.mem_singleton] at he; exact Or.inl ⟨h0, ha.symm, he⟩
    · simp at he
  · simp only [Next.at'_cons, Next.at'_nil] at he
    split_ifs at he with ha
    · simp only [List.mem_singleton] at he; exact Or.inr (Or.inl ⟨h1, ha.symm, he⟩)
    · simp at he
  · simp only [Next.at'_cons, Next.at'_nil] at he
    split_ifs at he with ha
    · simp only [List.mem_singleton] at he; exact Or.inr (Or.inr ⟨h2, ha.symm, he⟩)
    · simp at he
  · simp [Next.at'_nil] at he
  · simp [Next.at'_nil] at he

theorem samplePattern_tidy : samplePattern.Tidy := by
  intro s hs
  simp only [samplePattern, List.mem_cons, List.not_mem_nil, or_false, not_or] at hs ⊢
  rw [if_neg hs.1, if_neg hs.2.1, if_neg hs.2.2.1, if_neg hs.2.2.2]

theorem samplePattern_closed : samplePattern.Closed := by
  refine ⟨by decide, ?_⟩
  intro s _ a e he q hq
  rcases samplePattern_edges s a e he with ⟨_, _, rfl⟩ | ⟨_, _, rfl⟩ | ⟨_, _, rfl⟩ <;>
    simp only [Option.some.injEq] at hq <;> subst hq <;> decide

theorem samplePattern_declared : samplePattern.ClocksDeclared := by
  intro s a e he
  rcases samplePattern_edges s a e he with ⟨_, _, rfl⟩ | ⟨_, _, rfl⟩ | ⟨_, _, rfl⟩ <;>
    simp [samplePattern, TA.clockSize]

theorem samplePattern_mapOk : samplePattern.MapOk := by
  intro s
  simp only [samplePattern]
  split_ifs <;> simp

theorem samplePattern_noSilent : samplePattern.NoSilent := by
  intro s hs
  simp only [samplePattern, List.mem_cons, List.not_mem_nil, or_false] at hs
  rcases hs with rfl | rfl | rfl | rfl <;> rfl

theorem samplePattern_acyclic : samplePattern.Acyclic := by
  refine ⟨fun s => 3 - s, ?_⟩
  intro s a e he q hq
  rcases samplePattern_edges s a e he with ⟨rfl, _, rfl⟩ | ⟨rfl, _, rfl⟩ | ⟨rfl, _, rfl⟩ <;>
    simp only [Option.some.injEq] at hq <;> subst hq <;> decide

theorem samplePattern_upper : samplePattern.UpperAfterReset := by
  refine ⟨fun s x => s = 1 ∧ x = 0, ?_, ?_⟩
  · intro s hs x
    simp only [samplePattern, List.mem_singleton] at hs
    subst hs
    simp
  · intro s a e he
    rcases samplePattern_edges s a e he with ⟨rfl, _, rfl⟩ | ⟨rfl, _, rfl⟩ | ⟨rfl, _, rfl⟩ <;>
      simp [Constraint.IsUpper]

theorem samplePattern_noZero : samplePattern.NoZeroDuration := by
  intro s hs
  simp only [samplePattern, List.mem_cons, List.not_mem_nil, or_false] at hs
  rcases hs with rfl | rfl | rfl | rfl <;> rfl

theorem sampleLog_ok : LogOk sampleLog := ⟨by decide +kernel, by decide +kernel, by decide⟩
theorem sampleLog_strict : LogStrict sampleLog := ⟨by decide +kernel, by decide +kernel⟩
theorem sampleLog_letters : LettersOk sampleLog := by unfold LettersOk; decide

/-- The zone of the match in the sample log: the begin lies in `[1, 3)`, the end in `(9/2, 5]`. -/
def sampleMatchZone : Zone ℚ :=
  sixZone ⟨.fin 3 false, .fin (-1) true, .fin 5 true, .fin (-9 / 2) false, .fin 4 true, .fin (-3 / 2) false⟩

/-- The call returned one zone, the expected one. -/
def okOne (z : Zone ℚ) : Except Err (List (Zone ℚ)) → Bool
  | .ok [z'] => decide (z' = z)
  | _ => false

theorem okOne_eq {z : Zone ℚ} {r : Except Err (List (Zone ℚ))} (h : okOne z r = true) : r = .ok [z] := by
  unfold okOne at h
  split at h
  · simp only [decide_eq_true_eq] at h
    rw [h]
  · cases h

theorem sample_check : okOne sampleMatchZone (monaaDollar id 20 20 (vectorCont ℚ) samplePattern sampleLog) = true := by
  decide +kernel

theorem sample_has : ∃ zs, monaaDollar id 20 20 (vectorCont ℚ) samplePattern sampleLog = .ok zs ∧ ∃ z ∈ zs, z.Has 2 5 := by
  refine ⟨[sampleMatchZone], okOne_eq sample_check, sampleMatchZone, by simp, ?_⟩
  refine sixZone_Sat.2 ?_
  simp only [Six.Sat, sat_t, sat_f]
  norm_num

theorem sample_match : samplePattern.Match sampleLog 2 5 := by
  have e : between sampleLog 2 5 = [(97, 3), (98, 9 / 2)] := by decide +kernel
  refine ⟨by norm_num, by norm_num, ?_⟩
  rw [e]
  refine ⟨0, by decide, 3, ?_, rfl⟩
  refine ⟨⟨some 1, [0], [⟨0, .ge, 0⟩]⟩, by decide, 1, rfl, by norm_num [GuardHolds, Constraint.Holds] <;> decide, ?_⟩
  refine ⟨⟨some 2, [], [⟨0, .gt, 1⟩, ⟨0, .le, 2⟩]⟩, by decide, 2, rfl, by norm_num [GuardHolds, Constraint.Holds, resetAt] <;> decide, ?_⟩
  refine ⟨⟨some 3, [], []⟩, by decide, 3, rfl, by simp [GuardHolds], rfl⟩

end Verif.Props
