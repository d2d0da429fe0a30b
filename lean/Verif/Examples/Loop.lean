import Verif.Examples.Pattern

/-!
# A pattern with a loop
-/

namespace Verif.Props

/-- `0 -a→ 0, 0 -a/x0→ 1 -b{x0>1, x0≤2}→ 2 -$→ 3`: some `a`, and a `b` between one and two units after the last of them. -/
def stayPattern : TA Nat :=
  { states := [0, 1, 2, 3], init := [0]
    st := fun s =>
      if s = 0 then ⟨false, false, [(97, [⟨some 0, [], []⟩, ⟨some 1, [0], []⟩])]⟩
      else if s = 1 then ⟨false, false, [(98, [⟨some 2, [], [⟨0, .gt, 1⟩, ⟨0, .le, 2⟩]⟩])]⟩
      else if s = 2 then ⟨false, false, [(36, [⟨some 3, [], []⟩])]⟩
      else if s = 3 then ⟨true, false, []⟩
      else ⟨false, false, []⟩
    maxC := [2] }

theorem stayPattern_edges (s : Nat) (a : Alphabet) (e : Transition Nat) (he : e ∈ stayPattern.edges s a) :
    (s = 0 ∧ a = 97 ∧ (e = ⟨some 0, [], []⟩ ∨ e = ⟨some 1, [0], []⟩)) ∨
    (s = 1 ∧ a = 98 ∧ e = ⟨some 2, [], [⟨0, .gt, 1⟩, ⟨0, .le, 2⟩]⟩) ∨
    (s = 2 ∧ a = 36 ∧ e = ⟨some 3, [], []⟩) := by
  simp only [TA.edges, stayPattern] at he
  split_ifs at he with h0 h1 h2 h3
  · simp only [Next.at'_cons, Next.at'_nil] at he
    split_ifs at he with ha
    · exact Or.inl ⟨h0, ha.symm, by simpa using he⟩
    · simp at he
  · simp only [Next.at'_cons, Next.at'_nil] at he
    split_ifs at he with ha
    · simp only [List.mem_singleton] at he; exact Or.inr (Or.inl ⟨h1, ha.symm, he⟩)
    · simp at he
  · simp only [Next.at'_cons, Next.at'_nil] at he
    split_ifs at he with ha
    · simp only [List.mem_singleton] at he; exact Or.inr (Or.inr ⟨h2, ha.symm, he⟩)
    · simp at he
  · simp [Next.at'_nil] at he
  · simp [Next.at'_nil] at he

theorem stayPattern_tidy : stayPattern.Tidy := by
  intro s hs
  simp only [stayPattern, List.mem_cons, List.not_mem_nil, or_false, not_or] at hs ⊢
  rw [if_neg hs.1, if_neg hs.2.1, if_neg hs.2.2.1, if_neg hs.2.2.2]

theorem stayPattern_closed : stayPattern.Closed := by
  refine ⟨by decide, ?_⟩
  intro s _ a e he q hq
  rcases stayPattern_edges s a e he with ⟨_, _, rfl | rfl⟩ | ⟨_, _, rfl⟩ | ⟨_, _, rfl⟩ <;>
    simp only [Option.some.injEq] at hq <;> subst hq <;> decide

theorem stayPattern_declared : stayPattern.ClocksDeclared := by
  intro s a e he
  rcases stayPattern_edges s a e he with ⟨_, _, rfl | rfl⟩ | ⟨_, _, rfl⟩ | ⟨_, _, rfl⟩ <;>
    simp [stayPattern, TA.clockSize]

theorem stayPattern_mapOk : stayPattern.MapOk := by
  intro s
  simp only [stayPattern]
  split_ifs <;> simp

theorem stayPattern_noSilent : stayPattern.NoSilent := by
  intro s hs
  simp only [stayPattern, List.mem_cons, List.not_mem_nil, or_false] at hs
  rcases hs with rfl | rfl | rfl | rfl <;> rfl

theorem stayPattern_loops : stayPattern.PlainLoops := by
  refine ⟨fun s => 3 - s, ?_⟩
  intro s a e he q hq
  rcases stayPattern_edges s a e he with ⟨rfl, _, rfl | rfl⟩ | ⟨rfl, _, rfl⟩ | ⟨rfl, _, rfl⟩ <;>
    simp only [Option.some.injEq] at hq <;> subst hq <;> simp

theorem stayPattern_cyclic : ¬ stayPattern.Acyclic := by
  rintro ⟨rank, h⟩
  exact absurd (h 0 97 ⟨some 0, [], []⟩ (by decide) 0 rfl) (lt_irrefl _)

theorem stayPattern_upper : stayPattern.UpperAfterReset := by
  refine ⟨fun s x => s = 1 ∧ x = 0, ?_, ?_⟩
  · intro s hs x
    simp only [stayPattern, List.mem_singleton] at hs
    subst hs
    simp
  · intro s a e he
    rcases stayPattern_edges s a e he with ⟨rfl, _, rfl | rfl⟩ | ⟨rfl, _, rfl⟩ | ⟨rfl, _, rfl⟩ <;>
      simp [Constraint.IsUpper]

theorem stayPattern_noZero : stayPattern.NoZeroDuration := by
  intro s hs
  simp only [stayPattern, List.mem_cons, List.not_mem_nil, or_false] at hs
  rcases hs with rfl | rfl | rfl | rfl <;> rfl

theorem stayPattern_labels : stayPattern.LabelsOk := by
  intro s a hne
  obtain ⟨e, he⟩ := List.exists_mem_of_ne_nil _ hne
  rcases stayPattern_edges s a e he with ⟨_, rfl, _⟩ | ⟨_, rfl, _⟩ | ⟨_, rfl, _⟩ <;> decide

theorem stay_between : between sampleLog (1 / 2) 5 = [(97, 1), (97, 3), (98, 9 / 2)] := by decide +kernel

/-- The part of the log from 1/2 to 5 is a match which uses the loop. -/
theorem stay_match : stayPattern.Match sampleLog (1 / 2) 5 := by
  refine ⟨by norm_num, by norm_num, 0, by decide, 3, ?_, by decide⟩
  rw [stay_between]
  refine ⟨⟨some 0, [], []⟩, by decide, 0, rfl, by norm_num [GuardHolds], ⟨some 1, [0], []⟩, by decide, 1, rfl, by norm_num [GuardHolds],
    ⟨some 2, [], [⟨0, .gt, 1⟩, ⟨0, .le, 2⟩]⟩, by decide, 2, rfl, ?_, ⟨some 3, [], []⟩, by decide, 3, rfl, by norm_num [GuardHolds], rfl⟩
  norm_num [GuardHolds, Constraint.Holds, resetAt]
  decide

end Verif.Props
